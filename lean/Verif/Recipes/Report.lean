import Verif.Tree.Tags
import Verif.Recipes.Script

/-!
# What recipes report about source files (C89, C90)

recipes/doc2html.py and recipes/generic.py when they are called with `get_tags`, together with core/db/compiler.cpp:87-123, where they are called, and
core/source_tree_loader/source_file_load_ctxt.cpp, where the result is used.
-/

namespace Maike.Recipes

open Maike.Kvs (Json Members getIf getReq)
open Maike.Fs (Path Str parse dot dotdot)
open Maike.Tree (Ctxt TDep TTarget Found Relative prependSearchPath startsWithDotSlash makeTargetName getUseDeps getTargets getChildTargetUseDeps)
open Maike.Paths (walk walkStep IsName)

/-! ## Model -/

/-- The request of `getTags`, core/db/compiler.cpp:90-91. -/
def tagsRequest (src : String) (cfg : Json) : Members := [("source_file", .str src), ("compiler_cfg", cfg)]

/-- An element of an XML document, with its attributes and children. Text is left out. -/
inductive Element where
  | mk (attrs : List (String × String)) (children : List Element)

mutual
/-- `iter` of an element, recipes/doc2html.py:40: the attributes of the element and of all elements inside of it, in the order of the document. -/
def Element.iter : Element → List (List (String × String))
  | .mk attrs children => attrs :: iterAll children

def iterAll : List Element → List (List (String × String))
  | [] => []
  | e :: es => e.iter ++ iterAll es
end

/-- `re.match('^[a-z][a-z]*://', ref)`, recipes/doc2html.py:27. -/
def isUrl (ref : List Char) : Bool :=
  ref.takeWhile (fun c => decide ('a' ≤ c ∧ c ≤ 'z')) ≠ [] && [':', '/', '/'].isPrefixOf (ref.dropWhile fun c => decide ('a' ≤ c ∧ c ≤ 'z'))

/-- `make_dep_from_ref`, recipes/doc2html.py:26-33. -/
def makeDepFromRef (ref : String) : Option Json :=
  if isUrl ref.toList then none
  else some (.obj [("ref", .str ref), ("origin", .str "generated"), ("rel", .str "resource")])

/-- The body of the loop, recipes/doc2html.py:41-49. -/
def docDeps (attrs : List (String × String)) : List Json :=
  ((attrs.lookup "src").bind makeDepFromRef).toList ++ ((attrs.lookup "href").bind makeDepFromRef).toList

/-- `get_tags`, recipes/doc2html.py:35-54, and what `getTags` makes of it. `script` is the name of the recipe, and `read` parses a document. `none` stands for a failure. If nothing is printed then
there are no tags (core/db/compiler.cpp:117-122). -/
def docGetTags (script : String) (read : String → Option Element) (opts : Members) : Option Members := do
  let src ← (Kvs.lookup "source_file" opts).bind Json.asString
  if src = script then some [] else do
  let root ← read src
  some [("dependencies", .arr (root.iter.flatMap docDeps))]

/-- `get_tags`, recipes/generic.py:8-20, and what `getTags` makes of it. -/
def genericGetTags (script : String) (opts : Members) : Option Members := do
  let src ← (Kvs.lookup "source_file" opts).bind Json.asString
  if src = script then some [] else do
  let cfg ← (Kvs.lookup "compiler_cfg" opts).bind Json.asObj
  let ext ← (Kvs.lookup "target_filename_ext" cfg).bind Json.asString
  let cmd ← (Kvs.lookup "compilation_cmd" cfg).bind Json.asObj
  let exe ← Kvs.lookup "executable" cmd
  let origin ← Kvs.lookup "exec_origin" cmd
  some [("target", .obj [("name", .str (src ++ "." ++ ext))]), ("dependencies", .arr [.obj [("ref", exe), ("origin", origin)]])]

/-! ## Specification -/

/-- Some element of the document has an attribute `src` or `href` with this value. -/
inductive Refers : Element → String → Prop
  | attr {k attrs children ref} : k = "src" ∨ k = "href" → attrs.lookup k = some ref → Refers (.mk attrs children) ref
  | child {attrs children e ref} : e ∈ children → Refers e ref → Refers (.mk attrs children) ref

/-- The reference is to something on a server: a scheme of lower case letters, and `://`. -/
def External (ref : String) : Prop :=
  ∃ scheme rest : List Char, scheme ≠ [] ∧ (∀ c ∈ scheme, 'a' ≤ c ∧ c ≤ 'z') ∧ ref.toList = scheme ++ [':', '/', '/'] ++ rest

/-- Where names lead to when they are followed, starting in a directory of a tree (given by the names on the way to it), if the tree is not left. -/
def follow : List Str → List Str → Option (List Str)
  | dir, [] => some dir
  | dir, n :: ns =>
    if n = dot ∨ n = [] then follow dir ns
    else if n = dotdot then (if dir = [] then none else follow dir.dropLast ns)
    else follow (dir ++ [n]) ns

/-- The path is one of a file: its last part is a name, and there is no separator at the end. -/
def ToFile (p : Path) : Prop := p.trailing = false ∧ ∃ n, p.names.getLast? = some n ∧ IsName n

/-! ## Proof -/

theorem isUrl_iff (ref : String) : isUrl ref.toList = true ↔ External ref := by
  unfold isUrl External
  generalize ref.toList = s
  simp only [Bool.and_eq_true, ne_eq, decide_not, Bool.not_eq_true', decide_eq_false_iff_not, List.isPrefixOf_iff_prefix]
  constructor
  · rintro ⟨h1, rest, h2⟩
    refine ⟨_, rest, h1, fun c hc => ?_, ?_⟩
    · have h := List.all_takeWhile (l := s) (p := fun c => decide ('a' ≤ c ∧ c ≤ 'z'))
      simpa using List.all_eq_true.mp h c hc
    · conv => lhs; rw [← List.takeWhile_append_dropWhile (p := fun c => decide ('a' ≤ c ∧ c ≤ 'z')) (l := s), ← h2]
      simp
  · rintro ⟨scheme, rest, h1, h2, rfl⟩
    have hall : ∀ c ∈ scheme, decide ('a' ≤ c ∧ c ≤ 'z') = true := fun c hc => by simpa using h2 c hc
    rw [List.append_assoc, List.takeWhile_append_of_pos hall, List.dropWhile_append_of_pos hall]
    refine ⟨by simp [h1], rest, ?_⟩
    rw [List.cons_append, List.dropWhile_cons_of_neg (by decide)]

mutual
theorem mem_iter (root : Element) (ref : String) : (∃ attrs ∈ root.iter, attrs.lookup "src" = some ref ∨ attrs.lookup "href" = some ref) ↔ Refers root ref := by
  match root with
  | .mk attrs children =>
    simp only [Element.iter, List.mem_cons, exists_eq_or_imp]
    rw [mem_iterAll children ref]
    constructor
    · rintro (⟨h | h⟩ | ⟨e, he, h⟩)
      · exact .attr (.inl rfl) h
      · exact .attr (.inr rfl) (by assumption)
      · exact .child he h
    · intro h
      cases h with
      | attr hk h =>
        rcases hk with rfl | rfl
        · exact .inl (.inl h)
        · exact .inl (.inr h)
      | child he h => exact .inr ⟨_, he, h⟩

theorem mem_iterAll (es : List Element) (ref : String) :
    (∃ attrs ∈ iterAll es, attrs.lookup "src" = some ref ∨ attrs.lookup "href" = some ref) ↔ ∃ e ∈ es, Refers e ref := by
  match es with
  | [] => simp [iterAll]
  | e :: es =>
    simp only [iterAll, List.mem_append, List.mem_cons, or_and_right, exists_or, exists_eq_left]
    rw [mem_iter e ref, mem_iterAll es ref]
end

/-- What maike makes of a reference. -/
def resource (c : Ctxt) (ref : String) : TDep := ⟨prependSearchPath c (parse ref.toList) .generated, .generated, [("rel", "resource")]⟩

theorem getDependency_resource (c : Ctxt) (ref : String) :
    Tree.getDependency c [("ref", .str ref), ("origin", .str "generated"), ("rel", .str "resource")] .generated = some (resource c ref) := by
  simp [Tree.getDependency, getReq, getIf, Kvs.lookup, Json.asString, Text.originFromString, Tree.getProperties, resource]

theorem traverse_map {α β γ : Type} {f : β → Option γ} {g : α → β} {h : α → γ} (hf : ∀ a, f (g a) = some (h a)) (l : List α) :
    Tree.traverse f (l.map g) = some (l.map h) := by
  induction l with
  | nil => rfl
  | cons a l ih => simp [Tree.traverse, hf, ih]

/-- The references of a document that are not to something on a server. -/
def localRefs (attrs : List (String × String)) : List String :=
  ((attrs.lookup "src").filter fun r => !isUrl r.toList).toList ++ ((attrs.lookup "href").filter fun r => !isUrl r.toList).toList

theorem docDeps_eq (attrs : List (String × String)) :
    docDeps attrs = (localRefs attrs).map fun ref => Json.obj [("ref", .str ref), ("origin", .str "generated"), ("rel", .str "resource")] := by
  have h : ∀ o : Option String, (o.bind makeDepFromRef).toList =
      (o.filter fun r => !isUrl r.toList).toList.map fun ref => Json.obj [("ref", .str ref), ("origin", .str "generated"), ("rel", .str "resource")] := by
    intro o
    cases o with
    | none => rfl
    | some r =>
      simp only [Option.bind_some, makeDepFromRef, Option.filter_some]
      cases isUrl r.toList <;> rfl
  simp only [docDeps, localRefs, h, List.map_append]

theorem mem_localRefs (attrs : List (String × String)) (ref : String) :
    ref ∈ localRefs attrs ↔ (attrs.lookup "src" = some ref ∨ attrs.lookup "href" = some ref) ∧ ¬ External ref := by
  simp only [localRefs, List.mem_append, Option.mem_toList, Option.filter_eq_some_iff, Bool.not_eq_true', ← isUrl_iff]
  constructor
  · rintro (⟨h1, h2⟩ | ⟨h1, h2⟩)
    · exact ⟨.inl h1, by simp [h2]⟩
    · exact ⟨.inr h1, by simp [h2]⟩
  · rintro ⟨h1 | h1, h2⟩
    · exact .inl ⟨h1, by simpa using h2⟩
    · exact .inr ⟨h1, by simpa using h2⟩

theorem relativeTo_root (p base : Path) : (p.relativeTo base).root = false := by
  unfold Path.relativeTo
  split
  · rfl
  · dsimp only
    repeat' split
    all_goals rfl

theorem follow_walk {ns : List Str} : ∀ {dir S : List Str}, follow dir ns = some S → (∀ n ∈ dir, IsName n) →
    (∀ n ∈ S, IsName n) ∧ ∀ W, ns.foldl walkStep (dir.reverse ++ W) = S.reverse ++ W := by
  induction ns with
  | nil => intro dir S h hd; cases h; exact ⟨hd, fun W => rfl⟩
  | cons n ns ih =>
    intro dir S h hd
    simp only [follow] at h
    by_cases h1 : n = dot ∨ n = []
    · rw [if_pos h1] at h
      obtain ⟨a, b⟩ := ih h hd
      refine ⟨a, fun W => ?_⟩
      have hdd : n ≠ dotdot := by rcases h1 with rfl | rfl <;> decide
      rw [List.foldl_cons, walkStep, if_neg hdd, if_pos h1, b]
    · rw [if_neg h1] at h
      by_cases h2 : n = dotdot
      · rw [if_pos h2] at h
        split at h
        · cases h
        · rename_i hne
          obtain ⟨a, b⟩ := ih h fun m hm => hd m (List.dropLast_subset _ hm)
          refine ⟨a, fun W => ?_⟩
          obtain ⟨l, x, rfl⟩ := (List.eq_nil_or_concat dir).resolve_left hne
          rw [List.foldl_cons, walkStep, if_pos h2]
          simpa using b W
      · rw [if_neg h2] at h
        obtain ⟨a, b⟩ := ih h fun m hm => by
          rcases List.mem_append.mp hm with hm | hm
          · exact hd m hm
          · rw [List.mem_singleton.mp hm]; exact ⟨h2, fun e => h1 (.inl e), fun e => h1 (.inr e)⟩
        refine ⟨a, fun W => ?_⟩
        rw [List.foldl_cons, walkStep, if_neg h2, if_neg h1]
        simpa using b W

/-! ## Theorems -/

/-- **C89.** What maike makes of the report on a document: a dependency on each of the references that are not to something on a server, and nothing else. -/
theorem C89_exact {script : String} {read : String → Option Element} {src : String} {cfg : Json} {doc : Element} (hne : src ≠ script) (hread : read src = some doc) (c : Ctxt) :
    ∃ tags deps, docGetTags script read (tagsRequest src cfg) = some tags ∧ getTargets c tags = some [] ∧ getChildTargetUseDeps c tags = some [] ∧ getUseDeps c tags = some deps ∧
    ∀ x, x ∈ deps ↔ ∃ ref, Refers doc ref ∧ ¬ External ref ∧ x = ⟨prependSearchPath c (parse ref.toList) .generated, .generated, [("rel", "resource")]⟩ := by
  refine ⟨[("dependencies", .arr (doc.iter.flatMap docDeps))], (doc.iter.flatMap localRefs).map (resource c), ?_, ?_, ?_, ?_, ?_⟩
  · simp [docGetTags, tagsRequest, Kvs.lookup, Json.asString, hne, hread]
  · simp [getTargets, getIf, Kvs.lookup, Tree.getArray]
  · simp [getChildTargetUseDeps, getIf, Kvs.lookup, Tree.getArray]
  · have e : doc.iter.flatMap docDeps = (doc.iter.flatMap localRefs).map fun ref => Json.obj [("ref", .str ref), ("origin", .str "generated"), ("rel", .str "resource")] := by
      rw [List.map_flatMap]
      congr 1
      funext attrs
      exact docDeps_eq attrs
    simp only [getUseDeps, Tree.getArray, getIf, Kvs.lookup, if_true, Json.asArr, Option.map_some, Option.bind_some]
    rw [e]
    exact traverse_map (f := fun v : Json => v.asObj.bind fun d => Tree.getDependency c d .generated) (g := fun ref => Json.obj [("ref", .str ref), ("origin", .str "generated"), ("rel", .str "resource")])
      (fun ref => getDependency_resource c ref) _
  · intro x
    simp only [List.mem_map, List.mem_flatMap, mem_localRefs]
    constructor
    · rintro ⟨ref, ⟨attrs, h1, h2, h3⟩, rfl⟩
      exact ⟨ref, (mem_iter doc ref).mp ⟨attrs, h1, h2⟩, h3, rfl⟩
    · rintro ⟨ref, h1, h2, rfl⟩
      obtain ⟨attrs, h3, h4⟩ := (mem_iter doc ref).mpr h1
      exact ⟨ref, ⟨attrs, h3, h4, h2⟩, rfl⟩

/-- **C89.** The recipe itself, if it is asked about, is not read as a document, and nothing is reported about it. -/
theorem C89_self (script : String) (read : String → Option Element) (cfg : Json) (c : Ctxt) :
    ∃ tags, docGetTags script read (tagsRequest script cfg) = some tags ∧ getTargets c tags = some [] ∧ getChildTargetUseDeps c tags = some [] ∧ getUseDeps c tags = some [] := by
  refine ⟨[], by simp [docGetTags, tagsRequest, Kvs.lookup, Json.asString], ?_, ?_, ?_⟩
  · simp [getTargets, getIf, Kvs.lookup, Tree.getArray]
  · simp [getChildTargetUseDeps, getIf, Kvs.lookup, Tree.getArray]
  · simp [getUseDeps, getIf, Kvs.lookup, Tree.getArray]

/-- **C89.** A reference that starts with `./` is a dependency on the file that the reference leads to from where the result is put: `sub` is the directory of the document in the source directory, and
`dest` is where the reference leads to from there; the dependency is on `dest` in the target directory. For other references, see `C89_plain`. -/
theorem C89_where_partial (c : Ctxt) (sub : List Str) (entry : Str) (hf : Found c sub entry) {ref : String} (hrel : Relative (parse ref.toList)) (hdot : ['.', '/'] <+: ref.toList)
    {dest : List Str} (hd : follow sub (parse ref.toList).names = some dest) (hne : dest ≠ []) :
    (resource c ref).name.names = (c.targetDir / ⟨false, dest, false⟩).normal.names ∧
    (∀ cwd, walk cwd (resource c ref).name = dest.reverse ++ walk cwd c.targetDir) ∧
    (ToFile (parse ref.toList) → (resource c ref).name = (c.targetDir / ⟨false, dest, false⟩).normal) := by
  have hs := (Tree.C46_dotSlash ref.toList).mpr hdot
  show (prependSearchPath c (parse ref.toList) .generated).names = _ ∧ (∀ cwd, walk cwd (prependSearchPath c (parse ref.toList) .generated) = _) ∧
    (_ → prependSearchPath c (parse ref.toList) .generated = _)
  generalize parse ref.toList = p at *
  obtain ⟨hS, hw⟩ := follow_walk hd hf.names
  have hnn : ∀ n ∈ dest, n ≠ [] := fun n hn => (hS n hn).2.2
  have hin := Tree.inside_normal c.sourceDir hf.normal hf.nonempty dest hS
  have hin' : (Tree.inside c.sourceDir dest) ≠ Path.empty := by
    intro e
    have := congrArg Path.names e
    simp only [Tree.inside, Path.empty] at this
    split at this
    · exact hne this
    · exact hne (List.append_eq_nil_iff.mp this).2
  have h1 : (c.fileDir / p).normal.names = (Tree.inside c.sourceDir dest).names := by
    have := Paths.normal_unique (c.fileDir / p) (Tree.inside c.sourceDir dest) (Tree.relative_ne_empty _ _ hrel) hin' (by rw [Tree.relative_root _ _ hrel, hf.fileDir]; rfl) (fun cwd => by
      rw [Paths.walk_append, hf.fileDir, Tree.inside_walk, Tree.inside_walk, Paths.foldl_names sub hf.names, Paths.foldl_names dest hS]
      have := hw (walk cwd c.sourceDir)
      simpa [walk, hrel.1] using this)
    rwa [Paths.normal_eq_self hin] at this
  have h2 : (Tree.fromSource c p).names = dest ∧ (Tree.fromSource c p).root = false := by
    unfold Tree.fromSource
    rw [if_pos hs]
    have hn : [] ∉ (c.fileDir / p).normal.names := Tree.isNormal_names _ (Paths.normal_isNormal _)
    have hr : (c.fileDir / p).normal.root = (Tree.inside c.sourceDir dest).root := by
      rw [Paths.normal_root, Tree.relative_root _ _ hrel, hf.fileDir]; rfl
    have he := Tree.relativeTo_inside_eq c.sourceDir hf.normal dest hne hS
    have hroot : ((c.fileDir / p).normal.relativeTo c.sourceDir).root = false := relativeTo_root _ _
    refine ⟨?_, hroot⟩
    generalize (c.fileDir / p).normal = x at *
    obtain ⟨r, ns, t⟩ := x
    simp only at h1 hr hn
    subst h1 hr
    have := Paths.relativeTo_trailing (Tree.inside c.sourceDir dest).root (Tree.inside c.sourceDir dest).names t false hn c.sourceDir
    rw [this]
    have e : (⟨(Tree.inside c.sourceDir dest).root, (Tree.inside c.sourceDir dest).names, false⟩ : Path) = Tree.inside c.sourceDir dest := rfl
    rw [e, he]
  rw [Tree.generated_eq]
  have hrel' : Relative (Tree.fromSource c p) := ⟨h2.2, by rw [h2.1]; exact hne, by rw [h2.1]; exact fun h => hnn _ h rfl⟩
  have hrel'' : Relative ⟨false, dest, false⟩ := ⟨rfl, hne, fun h => hnn _ h rfl⟩
  have hnames : (c.targetDir / Tree.fromSource c p).normal.names = (c.targetDir / ⟨false, dest, false⟩).normal.names := by
    apply Paths.normal_unique _ _ (Tree.relative_ne_empty _ _ hrel') (Tree.relative_ne_empty _ _ hrel'')
    · rw [Tree.relative_root _ _ hrel', Tree.relative_root _ _ hrel'']
    · intro cwd
      rw [Paths.walk_append, Paths.walk_append]
      simp [walk, h2.1, h2.2]
  refine ⟨hnames, fun cwd => ?_, fun hfile => ?_⟩
  · rw [Paths.walk_normal, Paths.walk_append]
    simp only [walk, h2.1, h2.2]
    exact Paths.foldl_names dest hS _
  · obtain ⟨htr, n, hlast, hn⟩ := hfile
    have h3 : (c.fileDir / p).normal.trailing = false := by
      rw [Tree.relative_step _ _ hrel, htr]
      rcases List.eq_nil_or_concat p.names with e | ⟨l, x, e⟩
      · exact absurd e hrel.2.1
      · rw [List.concat_eq_append] at e
        rw [e] at hlast ⊢
        simp only [List.getLast?_append, List.getLast?_singleton, Option.some_or, Option.some.injEq] at hlast
        rw [hlast, ← List.append_assoc]
        exact Tree.normal_no_trailing _ _ _ hn
    have h4 : (c.fileDir / p).normal = Tree.inside c.sourceDir dest := by
      have hr : (c.fileDir / p).normal.root = (Tree.inside c.sourceDir dest).root := by
        rw [Paths.normal_root, Tree.relative_root _ _ hrel, hf.fileDir]; rfl
      generalize (c.fileDir / p).normal = x at *
      obtain ⟨r, ns, t⟩ := x
      simp only at h1 hr h3
      subst h1 hr h3
      rfl
    unfold Tree.fromSource
    rw [if_pos hs, h4, Tree.relativeTo_inside_eq c.sourceDir hf.normal dest hne hS]

/-- **C89.** Any other reference that does not use `.` or `..` is a dependency on the file that it leads to from the target directory, no matter where the document is. -/
theorem C89_plain (c : Ctxt) {ref : String} (hrel : Relative (parse ref.toList)) (hn : ∀ n ∈ (parse ref.toList).names, IsName n) :
    (resource c ref).name = (c.targetDir / parse ref.toList).normal := by
  show prependSearchPath c (parse ref.toList) .generated = _
  generalize parse ref.toList = p at *
  obtain ⟨r, ns, t⟩ := p
  obtain ⟨h1, h2, h3⟩ := hrel
  simp only at h1 h2 h3 hn
  subst h1
  have hnd : startsWithDotSlash ⟨false, ns, t⟩ = false := by
    unfold startsWithDotSlash
    cases ns with
    | nil => rfl
    | cons x ns => simp [(hn x (by simp)).2.1]
  rw [Tree.generated_eq]
  unfold Tree.fromSource
  rw [hnd, if_neg (by simp), Tree.relative_step c.sourceDir ⟨false, ns, t⟩ ⟨rfl, h2, h3⟩, Paths.relativeTo_inside _ _ _ h2 fun x hx => (hn x hx).2.2]

/-- **C89.** If the document refers to a file of the target directory like this, then it depends on a target of this name: `sub'` is the directory of the source file `entry'` that declares the target `n`. -/
theorem C89_target_partial (c c' : Ctxt) (sub sub' : List Str) (entry entry' : Str) (hf : Found c sub entry) (hf' : Found c' sub' entry') (ht : c.targetDir = c'.targetDir)
    (n : Str) (hn : IsName n) {ref : String} (hrel : Relative (parse ref.toList)) (hdot : ['.', '/'] <+: ref.toList) (hfile : ToFile (parse ref.toList))
    (hd : follow sub (parse ref.toList).names = some (sub' ++ [n])) : (resource c ref).name = makeTargetName c' ⟨false, [n], false⟩ := by
  rw [(C89_where_partial c sub entry hf hrel hdot hd (by simp)).2.2 hfile,
    Tree.C47_target_partial c' sub' entry' hf' ⟨false, [n], false⟩ ⟨rfl, by simp, by simpa using hn.2.2⟩, ht]

/-! ### Files with a general command -/

/-- **C90.** The recipe itself, if it is asked about, has no targets and no dependencies, whatever its configuration is. -/
theorem C90_self (script : String) (cfg : Json) (c : Ctxt) :
    ∃ tags, genericGetTags script (tagsRequest script cfg) = some tags ∧ getTargets c tags = some [] ∧ getChildTargetUseDeps c tags = some [] ∧ getUseDeps c tags = some [] := by
  refine ⟨[], by simp [genericGetTags, tagsRequest, Kvs.lookup, Json.asString], ?_, ?_, ?_⟩
  · simp [getTargets, getIf, Kvs.lookup, Tree.getArray]
  · simp [getChildTargetUseDeps, getIf, Kvs.lookup, Tree.getArray]
  · simp [getUseDeps, getIf, Kvs.lookup, Tree.getArray]

/-- **C90.** What maike makes of the report on a file with a general command: one target, whose name is made from the name of the file and the extension, a dependency on the executable, and
nothing else. -/
theorem C90_exact {script src ext exe origin : String} {cfg cmd : Members} {o : Db.Origin} (hne : src ≠ script) (hext : Kvs.lookup "target_filename_ext" cfg = some (.str ext))
    (hcmd : Kvs.lookup "compilation_cmd" cfg = some (.obj cmd)) (hexe : Kvs.lookup "executable" cmd = some (.str exe)) (horigin : Kvs.lookup "exec_origin" cmd = some (.str origin))
    (ho : Text.originFromString origin = some o) (c : Ctxt) :
    ∃ tags, genericGetTags script (tagsRequest src (.obj cfg)) = some tags ∧
      getTargets c tags = some [⟨makeTargetName c (parse (src ++ "." ++ ext).toList), []⟩] ∧
      getUseDeps c tags = some [⟨prependSearchPath c (parse exe.toList) o, o, []⟩] ∧ getChildTargetUseDeps c tags = some [] := by
  refine ⟨[("target", .obj [("name", .str (src ++ "." ++ ext))]), ("dependencies", .arr [.obj [("ref", .str exe), ("origin", .str origin)]])], ?_, ?_, ?_, ?_⟩
  · simp [genericGetTags, tagsRequest, Kvs.lookup, Json.asString, Json.asObj, hne, hext, hcmd, hexe, horigin]
  · simp [getTargets, Tree.getTarget, Tree.getArray, getIf, getReq, Kvs.lookup, Json.asObj, Json.asString]
  · simp [getUseDeps, Tree.getArray, Tree.getDependency, Tree.getProperties, Tree.traverse, getIf, getReq, Kvs.lookup, Json.asObj, Json.asString, Json.asArr, ho]
  · simp [getChildTargetUseDeps, Tree.getArray, getIf, Kvs.lookup]

end Maike.Recipes
