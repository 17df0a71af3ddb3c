import Verif.Main.RunExamples
import Verif.Kvs.Config
import Verif.Kvs.JsonLoad
import Verif.Loaders.Cxx
import Verif.Loaders.Inc

/-!
# From the bytes of source files to up-to-date targets (C75)

`Tree/Model.lean` has a parameter for what a loader finds in a file. This file defines it in terms of the bytes of the file, using the filters
of `Loaders`, the JSON reader of `Kvs/JsonLoad.lean`, and the settings of `Kvs/Config.lean`.
-/

namespace Maike.Main

open Fs Tree Paths Kvs
open Maike.Loaders (Line Item)

/-! ## Model -/

/-- What is outside of the code: the bytes of files (`none`: the file cannot be opened, core/io/input_file.hpp), the JSON decoder, and
`std::regex_search` for a regular expression and a text. Errors while a file is being read are not modelled. -/
structure Outside where
  content : Path → Option (List UInt8)
  decoder : JsonLoad.Decoder Json
  search : String → Str → Bool

/-- The values that `InputBuffer::getchar` returns, core/io/input_buffer.hpp; a `Char` stands for a byte with the same value. -/
def chars (bs : List UInt8) : List Char := bs.map fun b => Char.ofNat b.toNat

/-- `OutputBuffer::putchar`, core/io/output_buffer.hpp. -/
def bytes (cs : List Char) : List UInt8 := cs.map Char.toUInt8

/-- `Compound{reader, source}`, core/key_value_store/compound.hpp: the value must be an object; no value at all is treated like an empty
object. The buffer of jansson has 1024 bytes. -/
def readCompound (o : Outside) (text : List UInt8) : Option Members :=
  match JsonLoad.jsonLoad o.decoder 1024 text with
  | .value v => v.asObj
  | .nothing => some []
  | .error => none

/-- `get_origin`, core/source_file_info_loaders/cxx/source_file_loader.cpp:12-21. -/
def isGenerated (o : Outside) (gen : List String) (path : List Char) : Bool := gen.any fun r => o.search r path

/-- The origins that the C++ loader assigns. -/
def originOf : Loaders.Inc.Origin → Db.Origin
  | .project => .project
  | .generated => .generated
  | .system => .system

/-- `std::any_of` in `useTargetDeps`, core/source_file_info_loaders/cxx/source_file_loader.cpp:447-451. -/
def anyLink : List Json → Option Bool
  | [] => some false
  | v :: vs => v.asString.bind fun s => if s = "link" then some true else anyLink vs

/-- `useTargetDeps`: core/source_file_info_loaders/cxx/source_file_loader.cpp:442-454,
core/source_file_info_loaders/lib/source_file_loader.hpp, and `false` for the other loaders. -/
def useTargetDeps (l : Loader) : Option Bool :=
  match l.kind with
  | .cxx _ => (getIf Json.asArr "actions" l.compiler.config).bind fun
    | some vs => anyLink vs
    | none => some false
  | .lib => some true
  | _ => some false

/-- `getDependencies` for the source stream, which is a copy of the file for C++: core/source_file_info_loaders/cxx/source_file_loader.cpp:24-242, and
no dependencies for the other loaders. -/
def findDeps (o : Outside) (l : Loader) (text : List Char) : List TDep :=
  match l.kind with
  | .cxx gen => (Loaders.Inc.getDependencies (isGenerated o gen) (Loaders.Cxx.filterInput text).1).map fun x =>
      ⟨parse x.1, originOf x.2, []⟩
  | _ => []

/-- The tag stream. For the generic loader see core/source_file_info_loaders/generic/source_file_loader.cpp:46-59; what is printed there is
decoded to the object that is given here. Rule files are copied, core/source_file_info_loaders/maikerule/source_file_loader.cpp:10-25. -/
def findTags (o : Outside) (l : Loader) (p : Path) (text : List UInt8) : Option Members :=
  match l.kind with
  | .cxx _ => readCompound o (bytes (Loaders.Cxx.filterInput (chars text)).2)
  | .extension => readCompound o (bytes (Loaders.Ext.filterInput (chars text)).2)
  | .generic ext mode =>
    some [("target", .obj [("name", .str (String.ofList (genericTargetName p.filename ext.toList mode)))])]
  | .app | .maikerule | .lib => readCompound o text

/-- What `loadSourceFile` (core/source_tree_loader/source_file_load_ctxt.cpp:178-242) gets from the loader and the file. An exception that is
thrown by `useTargetDeps` at the end of `loadSourceFile` is thrown at the beginning here. -/
def sourceOf (o : Outside) (l : Loader) (p : Path) : Source where
  default := l.compiler
  useTargetDeps := (useTargetDeps l).getD false
  found := (useTargetDeps l).bind fun _ => (o.content p).map fun bs => findDeps o l (chars bs)
  tags := (o.content p).bind fun bs => findTags o l p bs

/-- The loaders of a run, core/bin/maike.cpp:337: a dictionary of extensions, and the files themselves. -/
def loaderOf (o : Outside) (loaders : List (String × Loader)) (ext : Str) : Option (Path → Source) :=
  (find (String.ofList ext) loaders).map fun l => sourceOf o l

/-! ## Specification -/

/-- The file is not a directory, and the longest extension for which there is a loader belongs to a C++ loader; these are its patterns for
generated files. -/
def IsCxx (loaders : List (String × Loader)) (d : Disk) (p : Path) (gen : List String) : Prop :=
  Build.isDir d.fs p.normal = false ∧ ∃ ext l, matchLongestExtension p.filename (fun e => find (String.ofList e) loaders) = some (ext, l) ∧
    l.kind = .cxx gen

/-- The file has a line `#include "path"`, possibly with blanks and followed by other text, and the scanner is not confused by the lines
before it (see C43). -/
def HasInclude (text : List Char) (path : Str) : Prop :=
  ∃ (before : List Line) (indent gap₁ gap₂ post rest : List Char), (∀ l ∈ before, Line.WellFormed l) ∧ (Line.includeProject indent gap₁ gap₂ path post).WellFormed ∧
    text = before.flatMap Line.render ++ (Line.includeProject indent gap₁ gap₂ path post).render ++ rest

/-- The file that is meant by `#include "path"` in file `p`: if the path starts with `./`, it is relative to the directory of `p`, otherwise to
the source directory; for a generated file, it is the same place in the target directory. -/
def included (j : Job) (p : Path) (path : Str) (generated : Bool) : Path :=
  let source := if ['.', '/'].isPrefixOf path then (p.parent.normal / parse path).normal else j.sourceDir / parse path
  if generated then (j.targetDir / source.relativeTo j.sourceDir).normal else source.normal

/-- A C++ file of the project includes the other file, which is supposed to be generated if one of the patterns matches its name. -/
def Includes (o : Outside) (loaders : List (String × Loader)) (j : Job) (d : Disk) (a b : Path) : Prop :=
  ∃ p i gen bs path generated, a = p.normal ∧ Scanned j d p i ∧ IsCxx loaders d p gen ∧ o.content p = some bs ∧ HasInclude (chars bs) path ∧
    (generated = true ↔ ∃ r ∈ gen, o.search r path = true) ∧ b = included j p path generated

/-- Directly, or through other files that are included. -/
inductive IncludesTrans (o : Outside) (loaders : List (String × Loader)) (j : Job) (d : Disk) : Path → Path → Prop
  | single {a b} : Includes o loaders j d a b → IncludesTrans o loaders j d a b
  | tail {a b c} : IncludesTrans o loaders j d a b → Includes o loaders j d b c → IncludesTrans o loaders j d a c

/-- The text is a JSON object with these members, or there is no value at all. -/
def Decodes (o : Outside) (text : List UInt8) (ms : Members) : Prop :=
  JsonLoad.jsonLoad o.decoder 1024 text = .value (.obj ms) ∨ JsonLoad.jsonLoad o.decoder 1024 text = .nothing ∧ ms = []

/-- The text from which the tags of a file are decoded: in C++ files, tag lines, in the same places, and blanks for everything else; in rule files, the
whole file. -/
def HasTagText (l : Loader) (bs : List UInt8) (text : List UInt8) : Prop :=
  ((l.kind = .app ∨ l.kind = .lib ∨ l.kind = .maikerule) ∧ text = bs) ∨
  ∃ (gen : List String) (items : List Item) (outs : List (List Char)), l.kind = .cxx gen ∧ (∀ it ∈ items, Item.WellFormed it) ∧ chars bs = items.flatMap Item.render ∧ text = bytes outs.flatten ∧
    outs.length = items.length ∧ ∀ (k : Nat) (it : Item) (out : List Char), items[k]? = some it → outs[k]? = some out → it.Contributes out

/-- The configuration of the compiler asks for programs to be linked. -/
def Links (c : Compiler) : Prop := ∃ vs, lookup "actions" c.config = some (.arr vs) ∧ .str "link" ∈ vs

/-! ## Lemmas -/

theorem decodes_iff {o : Outside} {text : List UInt8} {ms : Members} : readCompound o text = some ms ↔ Decodes o text ms := by
  unfold readCompound Decodes
  cases JsonLoad.jsonLoad o.decoder 1024 text with
  | value v => cases v <;> simp [Json.asObj]
  | nothing => simp [eq_comm]
  | error => simp

theorem searchExt_map {A B : Type} (f : A → B) (dict : Str → Option A) (s : Str) :
    searchExt (fun e => (dict e).map f) s = (searchExt dict s).map fun x => (x.1, f x.2) := by
  induction s with
  | nil => rfl
  | cons c s ih =>
    simp only [searchExt]
    split
    · cases dict (c :: s) with
      | some l => rfl
      | none => exact ih
    · exact ih

theorem match_map {A B : Type} (f : A → B) (dict : Str → Option A) (s : Str) :
    matchLongestExtension s (fun e => (dict e).map f) = (matchLongestExtension s dict).map fun x => (x.1, f x.2) :=
  searchExt_map f dict _

theorem included_eq (j : Job) (p : Path) (path : Str) (g : Bool) :
    prependSearchPath ⟨p, j.sourceDir, j.targetDir⟩ (parse path) (if g then .generated else .project) = included j p path g := by
  have h : startsWithDotSlash (parse path) = ['.', '/'].isPrefixOf path := by
    have := C46_dotSlash path
    rw [← List.isPrefixOf_iff_prefix] at this
    exact Bool.eq_iff_iff.mpr this
  cases g <;> simp [prependSearchPath, included, h, Ctxt.fileDir]

section

variable {o : Outside} {loaders : List (String × Loader)} {j : Job} {kind : Path → Bool} {d : Disk} {now : Nat}

/-- What is recorded about a file with a loader. -/
theorem load_of_loader (hj : j.loader = loaderOf o loaders) {p : Path} {i : FileInfo} (hs : Scanned j d p i)
    (hdir : Build.isDir d.fs p.normal = false) {ext : Str} {l : Loader}
    (hl : matchLongestExtension p.filename (fun e => find (String.ofList e) loaders) = some (ext, l)) :
    ∃ builtin, loadSourceFile j.resolver (fun k => j.getTags k p) ⟨p, j.sourceDir, j.targetDir⟩ builtin (sourceOf o l p) = some i := by
  have h := hs.2.2
  unfold Tree.load at h
  simp only [Job.env, hdir, Bool.false_eq_true, if_false] at h
  rw [hj, show loaderOf o loaders = fun e => (find (String.ofList e) loaders).map fun l => sourceOf o l from rfl, match_map, hl] at h
  exact ⟨_, h⟩

/-- An include is recorded. -/
theorem include_recorded (hj : j.loader = loaderOf o loaders) {p : Path} {i : FileInfo} (hs : Scanned j d p i) {gen : List String}
    (hc : IsCxx loaders d p gen) {bs : List UInt8} (hbs : o.content p = some bs) {path : Str} (hi : HasInclude (chars bs) path) :
    ∃ x ∈ i.useDeps, x.name = included j p path (isGenerated o gen path) ∧
      x.origin = if isGenerated o gen path then .generated else .project := by
  obtain ⟨hdir, ext, l, hl, hk⟩ := hc
  obtain ⟨builtin, h⟩ := load_of_loader hj hs hdir hl
  obtain ⟨found, ms, t, own, script, policy, h1, _, _, _, _, _, rfl⟩ := (C63_load _ _ _ _ _ _).mp h
  obtain ⟨before, indent, gap₁, gap₂, post, rest, hb, hln, htext⟩ := hi
  have hdep := Loaders.Inc.C43_partial (isGenerated o gen) before _ rest hb hln
    (path, if isGenerated o gen path then .generated else .project) (by simp [Line.dependency])
  rw [← htext] at hdep
  simp only [sourceOf, hbs, Option.map_some] at h1
  obtain ⟨_, _, h1⟩ := Option.bind_eq_some_iff.mp h1
  injection h1 with h1
  subst h1
  refine ⟨⟨included j p path (isGenerated o gen path), if isGenerated o gen path then .generated else .project, []⟩, ?_, rfl, rfl⟩
  refine List.mem_append_left _ (List.mem_append_left _ (List.mem_append_right _ (List.mem_map.mpr ?_)))
  refine ⟨⟨parse path, if isGenerated o gen path then .generated else .project, []⟩, ?_, ?_⟩
  · simp only [findDeps, hk, Loaders.Cxx.C40_source]
    refine List.mem_map.mpr ⟨_, hdep, ?_⟩
    cases isGenerated o gen path <;> rfl
  · simp only
    rw [included_eq]

/-! ## C75 -/

/-- **C75.** What a file includes, directly or indirectly, is needed for it. -/
theorem C75_needed (hj : j.loader = loaderOf o loaders) {a b : Path} (h : IncludesTrans o loaders j d a b) : Needs j d a b := by
  have one : ∀ {a b}, Includes o loaders j d a b → Needs j d a b := by
    rintro a b ⟨p, i, gen, bs, path, g, rfl, hs, hc, hbs, hi, hg, rfl⟩
    have : g = isGenerated o gen path := Bool.eq_iff_iff.mpr (hg.trans (by simp [isGenerated]))
    subst this
    obtain ⟨x, hx, hn, _⟩ := include_recorded hj hs hc hbs hi
    exact hn ▸ Needs.use hs hx
  induction h with
  | single h => exact one h
  | tail _ h ih => exact ih.trans (one h)

/-- **C75.** After a run that has succeeded, whatever is made from a C++ file is newer than all files that it includes, directly or through other
files, and than what these are made from, if they are generated. Directories, and what is declared to be external somewhere, are
excepted. -/
theorem C75_up_to_date {force : Bool} {files : List (Path × FileInfo)} {tree : Db.SourceTree Path} {s : Build.State Path}
    (hj : j.loader = loaderOf o loaders)
    (hp : Proper j kind d now) (hr : Runs j force kind d now files tree s) (hs : s.Succeeded) {p : Path} {i : FileInfo}
    (hsc : Scanned j d p i) {t : TTarget} (ht : t ∈ i.targets) (hk : kind t.name = false) {q : Path}
    (hi : IncludesTrans o loaders j d p.normal q) :
    (kind q = false → (∀ p' i', Scanned j d p' i' → ∀ x, Declares i' x → x.name = q → Db.isExternal x.origin = false) →
      Build.StrictlyNewer s.fs t.name q) ∧
    ∀ p' i', Scanned j d p' i' → (∃ t' ∈ i'.targets, t'.name = q) → kind q = false → kind p'.normal = false →
      (∀ p'' i'', Scanned j d p'' i'' → ∀ x, Declares i'' x → x.name = p'.normal → Db.isExternal x.origin = false) →
      Build.StrictlyNewer s.fs t.name p'.normal := by
  have h := ((C70_end_to_end hp hr hs hsc ht).2 hk).2
  refine ⟨h q (C75_needed hj hi), ?_⟩
  rintro p' i' hs' ⟨t', ht', rfl⟩ hkq hkp hext
  exact h _ ((C75_needed hj hi).trans (.source hs' ht' (hp.separate p' i' hs' t' ht' hkq))) hkp hext

/-- Files only become newer. -/
theorem newer_kept {b : Build.Build Path} {as : List (Build.Act Path)} {s s' : Build.State Path} (h : Build.exec b as s = some s')
    (hpast : ∀ p st, b.kind p = false → s.fs p = some st → st.mtime ≤ s.clock) :
    ∀ p st, b.kind p = false → s.fs p = some st → ∃ st', s'.fs p = some st' ∧ st.mtime ≤ st'.mtime := by
  refine (Build.exec_induction (Q := fun s' => (∀ p st, b.kind p = false → s'.fs p = some st → st.mtime ≤ s'.clock) ∧
    ∀ p st, b.kind p = false → s.fs p = some st → ∃ st', s'.fs p = some st' ∧ st.mtime ≤ st'.mtime) ?_
    ⟨hpast, fun p st _ h => ⟨st, h, Nat.le_refl _⟩⟩ h).2
  rintro s1 a s2 ⟨i1, i2⟩ hs
  rcases Build.step_cases hs with ⟨_, _, _, _, _, rfl⟩ | ⟨_, _, _, _, _, rfl⟩ | ⟨_, _, p', _, _, _, _, rfl⟩ | ⟨p', _, hk', rfl⟩ | ⟨_, rfl⟩
  · exact ⟨i1, i2⟩
  · exact ⟨i1, i2⟩
  · simp only [Build.update]
    grind
  · simp only [Build.update]
    grind
  · grind

/-- **C75.** If a C++ file includes a file that is newer than a target that is made from the former, then the target is made again. -/
theorem C75_made_again {files : List (Path × FileInfo)} {tree : Db.SourceTree Path} {s : Build.State Path} {force : Bool}
    (hj : j.loader = loaderOf o loaders)
    (hp : Proper j kind d now) (hr : Runs j force kind d now files tree s) (hs : s.Succeeded) {p : Path} {i : FileInfo}
    (hsc : Scanned j d p i) {t : TTarget} (ht : t ∈ i.targets) (hk : kind t.name = false) {q : Path}
    (hi : IncludesTrans o loaders j d p.normal q) (hkq : kind q = false)
    (hext : ∀ p' i', Scanned j d p' i' → ∀ x, Declares i' x → x.name = q → Db.isExternal x.origin = false)
    {st sq : Build.Stat} (_h1 : d.fs t.name = some st) (h2 : d.fs q = some sq) (hlate : st.mtime ≤ sq.mtime) :
    ∃ st', s.fs t.name = some st' ∧ st.mtime < st'.mtime := by
  obtain ⟨st', e, hn⟩ := (C75_up_to_date hj hp hr hs hsc ht hk hi).1 hkq hext
  obtain ⟨_, _, as, hx⟩ := hr
  obtain ⟨sq', e', hle⟩ := newer_kept hx (fun p st hk h => Nat.le_of_lt (hp.past p st hk h)) q sq hkq h2
  have := hn sq' e'
  exact ⟨st', e, by omega⟩

/-- **C75.** The tags of a C++ file: what is decoded is the text of its tag lines, in the same places, and blanks for everything else. -/
theorem C75_tags (hj : j.loader = loaderOf o loaders) {p : Path} {i : FileInfo} (hs : Scanned j d p i) {gen : List String}
    (hc : IsCxx loaders d p gen) {bs : List UInt8} (hbs : o.content p = some bs) {items : List Item} (hit : ∀ it ∈ items, it.WellFormed)
    (htext : chars bs = items.flatMap Item.render) :
    ∃ (outs : List (List Char)) (ms : Members) (t : FileTags), outs.length = items.length ∧
      (∀ (k : Nat) (it : Item) (out : List Char), items[k]? = some it → outs[k]? = some out → it.Contributes out) ∧
      Decodes o (bytes outs.flatten) ms ∧ FileTags.In ms t ∧
      (t.allTargets.map (TargetTag.meaning ⟨p, j.sourceDir, j.targetDir⟩)) <+: i.targets ∧
      ∀ x ∈ t.deps, DepTag.meaning ⟨p, j.sourceDir, j.targetDir⟩ .generated x ∈ i.useDeps := by
  obtain ⟨hdir, ext, l, hl, hk⟩ := hc
  obtain ⟨builtin, h⟩ := load_of_loader hj hs hdir hl
  obtain ⟨found, ms, t, own, script, policy, _, h2, h3, _, _, _, rfl⟩ := (C63_load _ _ _ _ _ _).mp h
  obtain ⟨outs, h4, h5, h6⟩ := Loaders.Cxx.C41_tags items hit
  refine ⟨outs, ms, t, h5, h6, ?_, h3, ?_, ?_⟩
  · simp only [sourceOf, hbs, Option.bind_some, findTags, hk] at h2
    rw [← h4, ← htext]; exact decodes_iff.mp h2
  · simp only [List.map_append]; exact List.prefix_append _ _
  · intro x hx
    refine List.mem_append_left _ (List.mem_append_right _ (List.mem_map.mpr ⟨x, ?_, rfl⟩))
    simp [hx]

/-- **C75.** A rule file consists of tags only. -/
theorem C75_rules (hj : j.loader = loaderOf o loaders) {p : Path} {i : FileInfo} (hs : Scanned j d p i)
    (hdir : Build.isDir d.fs p.normal = false) {ext : Str} {l : Loader}
    (hl : matchLongestExtension p.filename (fun e => find (String.ofList e) loaders) = some (ext, l))
    (hk : l.kind = .app ∨ l.kind = .lib ∨ l.kind = .maikerule) :
    ∃ (bs : List UInt8) (ms : Members) (t : FileTags), o.content p = some bs ∧ Decodes o bs ms ∧ FileTags.In ms t ∧
      (t.allTargets.map (TargetTag.meaning ⟨p, j.sourceDir, j.targetDir⟩)) <+: i.targets ∧
      ∀ x ∈ t.deps, DepTag.meaning ⟨p, j.sourceDir, j.targetDir⟩ .generated x ∈ i.useDeps := by
  obtain ⟨builtin, h⟩ := load_of_loader hj hs hdir hl
  obtain ⟨found, ms, t, own, script, policy, _, h2, h3, _, _, _, rfl⟩ := (C63_load _ _ _ _ _ _).mp h
  simp only [sourceOf] at h2
  obtain ⟨bs, hbs, h2⟩ := Option.bind_eq_some_iff.mp h2
  refine ⟨bs, ms, t, hbs, decodes_iff.mp ?_, h3, ?_, ?_⟩
  · rcases hk with hk | hk | hk <;> simpa only [findTags, hk] using h2
  · simp only [List.map_append]; exact List.prefix_append _ _
  · intro x hx
    refine List.mem_append_left _ (List.mem_append_right _ (List.mem_map.mpr ⟨x, ?_, rfl⟩))
    simp [hx]

/-- **C75.** With the generic loader, the target is in the corresponding directory, and its name follows from the name of the file. -/
theorem C75_generic (hj : j.loader = loaderOf o loaders) {p : Path} {i : FileInfo} (hs : Scanned j d p i)
    (hdir : Build.isDir d.fs p.normal = false) {ext : Str} {l : Loader}
    (hl : matchLongestExtension p.filename (fun e => find (String.ofList e) loaders) = some (ext, l))
    {suffix : String} {mode : Text.ExtMode} (hk : l.kind = .generic suffix mode) :
    ∃ t ∈ i.targets, t.name = makeTargetName ⟨p, j.sourceDir, j.targetDir⟩ (parse (genericTargetName p.filename suffix.toList mode)) := by
  obtain ⟨builtin, h⟩ := load_of_loader hj hs hdir hl
  unfold loadSourceFile at h
  obtain ⟨_, _, h⟩ := Option.bind_eq_some_iff.mp h
  obtain ⟨ms, h1, h⟩ := Option.bind_eq_some_iff.mp h
  obtain ⟨targets, h2, h⟩ := Option.bind_eq_some_iff.mp h
  obtain ⟨_, _, h⟩ := Option.bind_eq_some_iff.mp h
  obtain ⟨_, _, h⟩ := Option.bind_eq_some_iff.mp h
  obtain ⟨_, _, h⟩ := Option.bind_eq_some_iff.mp h
  obtain ⟨_, _, h⟩ := Option.bind_eq_some_iff.mp h
  obtain ⟨_, _, h⟩ := Option.bind_eq_some_iff.mp h
  obtain ⟨_, _, rfl⟩ := Option.map_eq_some_iff.mp h
  simp only [sourceOf] at h1
  obtain ⟨bs, _, h1⟩ := Option.bind_eq_some_iff.mp h1
  simp only [findTags, hk, Option.some.injEq] at h1
  subst h1
  refine ⟨⟨makeTargetName ⟨p, j.sourceDir, j.targetDir⟩ (parse (genericTargetName p.filename suffix.toList mode)), []⟩,
    List.mem_append_left _ ?_, rfl⟩
  simp [getTargets, getIf, lookup, Json.asObj, Tree.getTarget, getReq, Json.asString, getArray] at h2
  rw [← h2]; simp

/-- **C75.** If there is a file with a loader that cannot be read, or that has malformed tags, then the source tree is not loaded. -/
theorem C75_rejected (hj : j.loader = loaderOf o loaders) (hw : (j.world d).Ok) {p : Path} (hr : (j.world d).Reached p) (hps : (j.world d).Passes p)
    (hdir : Build.isDir d.fs p.normal = false) {ext : Str} {l : Loader}
    (hl : matchLongestExtension p.filename (fun e => find (String.ofList e) loaders) = some (ext, l))
    (hbad : o.content p = none ∨ ∃ bs, o.content p = some bs ∧ (∃ text, HasTagText l bs text) ∧ ∀ text, HasTagText l bs text → ∀ ms, ¬ Decodes o text ms) :
    ∀ files tree, ¬ Loads j d files tree := by
  rintro files tree ⟨⟨n, s, hs, ht⟩, _⟩
  cases hload : Tree.load (j.env d) p j.sourceDir j.targetDir with
  | none =>
    have := (C50_throws hw hs ht).mpr ⟨p, _, hr, .load hps (m := j.message p) (by simp [Job.world, hload])⟩
    simp at this
  | some i =>
    obtain ⟨builtin, h⟩ := load_of_loader hj ⟨hr, hps, hload⟩ hdir hl
    obtain ⟨found, ms, t, own, script, policy, h1, h2, _⟩ := (C63_load _ _ _ _ _ _).mp h
    simp only [sourceOf] at h2
    obtain ⟨bs, hbs, h2⟩ := Option.bind_eq_some_iff.mp h2
    rcases hbad with hbad | ⟨bs', hbs', ⟨text, hx⟩, hbad⟩
    · rw [hbs] at hbad; cases hbad
    · obtain rfl := Option.some.inj (hbs.symm.trans hbs')
      rcases hx with ⟨hk, rfl⟩ | ⟨gen, items, _, hk, hit, htext, _⟩
      · refine hbad text (.inl ⟨hk, rfl⟩) ms (decodes_iff.mp ?_)
        rcases hk with hk | hk | hk <;> simpa only [findTags, hk] using h2
      · obtain ⟨outs, h4, h5, h6⟩ := Loaders.Cxx.C41_tags items hit
        refine hbad _ (.inr ⟨gen, items, outs, hk, hit, htext, rfl, h5, h6⟩) ms (decodes_iff.mp ?_)
        simp only [findTags, hk] at h2
        rw [← h4, ← htext]; exact h2

theorem anyLink_true {vs : List Json} (h : anyLink vs = some true) : .str "link" ∈ vs := by
  induction vs with
  | nil => cases h
  | cons v vs ih =>
    obtain ⟨s, h1, h2⟩ := Option.bind_eq_some_iff.mp h
    split at h2
    · rename_i hs
      cases v <;> simp_all [Json.asString]
    · exact List.mem_cons_of_mem _ (ih h2)

theorem anyLink_false {vs : List Json} (h : anyLink vs = some false) : .str "link" ∉ vs := by
  induction vs with
  | nil => simp
  | cons v vs ih =>
    obtain ⟨s, h1, h2⟩ := Option.bind_eq_some_iff.mp h
    split at h2
    · cases h2
    · rename_i hs
      have := ih h2
      cases v <;> simp_all [Json.asString]
      exact fun h => hs h.symm

/-- **C75.** The compiler that is used unless the tags ask for another one is that of the loader, and what a target depends on is what the file depends on
if and only if programs or libraries are made directly from the file. -/
theorem C75_loader (hj : j.loader = loaderOf o loaders) {p : Path} {i : FileInfo} (hs : Scanned j d p i)
    (hdir : Build.isDir d.fs p.normal = false) {ext : Str} {l : Loader}
    (hl : matchLongestExtension p.filename (fun e => find (String.ofList e) loaders) = some (ext, l)) :
    i.default = some l.compiler ∧ (i.useTargetDeps = true ↔ (∃ gen, l.kind = .cxx gen) ∧ Links l.compiler ∨ l.kind = .lib) := by
  obtain ⟨builtin, h⟩ := load_of_loader hj hs hdir hl
  obtain ⟨found, ms, t, own, script, policy, h1, _, _, _, _, _, rfl⟩ := (C63_load _ _ _ _ _ _).mp h
  refine ⟨rfl, ?_⟩
  simp only [sourceOf] at h1 ⊢
  obtain ⟨b, hb, _⟩ := Option.bind_eq_some_iff.mp h1
  rw [hb, Option.getD_some]
  unfold useTargetDeps at hb
  cases hk : l.kind with
  | cxx gen =>
    rw [hk] at hb
    simp only at hb
    obtain ⟨x, hx, hb⟩ := Option.bind_eq_some_iff.mp hb
    unfold Links
    simp only [getIf] at hx
    cases hlk : lookup "actions" l.compiler.config with
    | none =>
      rw [hlk] at hx
      simp only [Option.some.injEq] at hx
      subst hx
      simp only [Option.some.injEq] at hb
      subst hb
      simp
    | some v =>
      rw [hlk] at hx
      simp only at hx
      obtain ⟨vs, hvs, rfl⟩ := Option.map_eq_some_iff.mp hx
      have : v = .arr vs := by cases v <;> simp_all [Json.asArr]
      subst this
      simp only at hb
      cases b with
      | true => simpa using anyLink_true hb
      | false => simpa using anyLink_false hb
  | lib => rw [hk] at hb; simp only [Option.some.injEq] at hb; simp [← hb]
  | app => rw [hk] at hb; simp only [Option.some.injEq] at hb; simp [← hb]
  | maikerule => rw [hk] at hb; simp only [Option.some.injEq] at hb; simp [← hb]
  | extension => rw [hk] at hb; simp only [Option.some.injEq] at hb; simp [← hb]
  | generic _ _ => rw [hk] at hb; simp only [Option.some.injEq] at hb; simp [← hb]

end

/-! ## Example: a C++ file with tags that includes a header -/

namespace SourceExample

/-- `//@{"target":{"name":"a.o"}}` and `#include "./h.hpp"`, each on a line. -/
def text : List Char :=
  (Item.tag [] ['{', '"', 't', 'a', 'r', 'g', 'e', 't', '"', ':', '{', '"', 'n', 'a', 'm', 'e', '"', ':', '"', 'a', '.', 'o', '"', '}', '}']).render ++
    (Line.includeProject [] [] [' '] ['.', '/', 'h', '.', 'h', 'p', 'p'] []).render

def json : List Char :=
  ['{', '"', 't', 'a', 'r', 'g', 'e', 't', '"', ':', '{', '"', 'n', 'a', 'm', 'e', '"', ':', '"', 'a', '.', 'o', '"', '}', '}']

/-- A decoder that knows one document. -/
def outside : Outside where
  content p :=
    if p.normal = parse ['a', '.', 'c', 'p', 'p'] then some (bytes text)
    else if p.normal = parse ['h', '.', 'h', 'p', 'p'] then some (bytes ['\n'])
    else none
  decoder :=
    { decide := fun t => if t.filter (fun c => !JsonLoad.isBlank c) = bytes json then some (some (.obj [("target", .obj [("name", .str "a.o")])]))
        else none
      atEnd := fun _ => none }
  search _ _ := false

def loaders : List (String × Loader) :=
  [(".cpp", ⟨.cxx [], { recipe := "cxx_compiler.py", origin := some .system }⟩),
   (".hpp", ⟨.cxx [], { recipe := "cxx_compiler.py", origin := some .system }⟩)]

def job : Job := { exampleJob with loader := loaderOf outside loaders }

def fs : Build.FileSys Path := fun p =>
  if p = parse ['.'] then some ⟨1, true⟩ else if p = parse ['a', '.', 'c', 'p', 'p'] then some ⟨2, false⟩
  else if p = parse ['h', '.', 'h', 'p', 'p'] then some ⟨3, false⟩ else none

def all : List Path := [parse ['.'], parse ['a', '.', 'c', 'p', 'p'], parse ['h', '.', 'h', 'p', 'p']]

def disk : Disk := diskOf fs all

def files : List (Path × FileInfo) := (scan job disk 60).shared.files

theorem fs_all (p : Path) (h : (fs p).isSome) : p ∈ all := by
  unfold fs at h
  split at h
  · rename_i e; rw [e]; decide +kernel
  · split at h
    · rename_i e; rw [e]; decide +kernel
    · split at h
      · rename_i e; rw [e]; decide +kernel
      · cases h

theorem disk_ok : disk.Ok := diskOf_ok (by decide +kernel) fs_all (slash_of fs_all (by decide +kernel))

theorem loads : Loads job disk files (treeOf files) :=
  loads_of 60 (by decide +kernel) (by decide +kernel) (treeOf_ok (by decide +kernel))

theorem proper : Proper job exampleKind disk 10 := by
  have h : ∀ p ∈ all, ∀ st ∈ fs p, st.mtime < 10 ∧ st.dir = exampleKind p := by decide +kernel
  refine proper_of disk_ok (by decide +kernel) (by decide +kernel) ?_ ?_ loads (by decide +kernel) (by decide +kernel) (by decide +kernel)
  · intro p st _ hst
    exact (h p (fs_all p (by rw [show fs p = some st from hst]; rfl)) st hst).1
  · intro p st hst
    exact (h p (fs_all p (by rw [show fs p = some st from hst]; rfl)) st hst).2

def build : Build.Build Path := theBuild job (treeOf files) false exampleKind

def state : Build.State Path :=
  stateOf build fs 10 (Build.auto build 60 (Build.init build fs 10) ++ [.touchDir (parse ['_', '_', 't'])])

theorem runs : Runs job false exampleKind disk 10 files (treeOf files) state :=
  ⟨loads, by decide +kernel, _, stateOf_exec (by decide +kernel)⟩

theorem succeeded : state.Succeeded := ⟨2, by decide +kernel⟩

/-- The C++ file, as it is passed to the loader. -/
def source : Path := (parse ['.']).normal / ⟨false, [['a', '.', 'c', 'p', 'p']], false⟩

def info : FileInfo := (Tree.load (job.env disk) source job.sourceDir job.targetDir).getD {}

theorem scanned : Scanned job disk source info := by
  have some_of : ∀ p, (Tree.load (job.env disk) p job.sourceDir job.targetDir).isSome = true →
      Tree.load (job.env disk) p job.sourceDir job.targetDir =
        some ((Tree.load (job.env disk) p job.sourceDir job.targetDir).getD {}) := by
    intro p h
    obtain ⟨i, hi⟩ := Option.isSome_iff_exists.mp h
    rw [hi]; rfl
  refine ⟨?_, ?_, some_of _ (by decide +kernel)⟩
  · refine .entry .root ⟨.inl rfl, ⟨_, world_load.mpr (some_of _ (by decide +kernel))⟩, ?_⟩ (by decide +kernel)
    show Except.ok _ = _
    congr 1
  · exact .inr ⟨.inl rfl, by decide +kernel, by decide +kernel⟩

theorem chars_bytes (cs : List Char) (h : ∀ c ∈ cs, c.toNat < 256) : chars (bytes cs) = cs := by
  unfold chars bytes
  rw [List.map_map]
  conv => rhs; rw [← List.map_id cs]
  refine List.map_congr_left fun c hc => ?_
  have := h c hc
  simp only [Function.comp_apply, Char.toUInt8, id_eq]
  show Char.ofNat (c.val.toUInt8.toNat) = c
  rw [UInt32.toNat_toUInt8, Nat.mod_eq_of_lt (by simpa using this)]
  exact Char.ofNat_toNat c


theorem isCxx : IsCxx SourceExample.loaders disk source [] := by
  have h : (matchLongestExtension source.filename fun e => find (String.ofList e) SourceExample.loaders).map (fun x => x.2.kind) =
      some (.cxx []) := by decide +kernel
  obtain ⟨⟨ext, l⟩, h1, h2⟩ := Option.map_eq_some_iff.mp h
  exact ⟨by decide +kernel, ext, l, h1, h2⟩

/-- The hypotheses of C75_loader are met. -/
example : info.default.map (fun c => c.recipe) = some "cxx_compiler.py" ∧ info.useTargetDeps = false := by
  have h : (matchLongestExtension source.filename fun e => find (String.ofList e) SourceExample.loaders).map (fun x => (x.2.kind, x.2.compiler.recipe, x.2.compiler.config.isEmpty)) =
      some (.cxx [], "cxx_compiler.py", true) := by decide +kernel
  obtain ⟨⟨ext, l⟩, h1, h4⟩ := Option.map_eq_some_iff.mp h
  simp only [Prod.mk.injEq, List.isEmpty_iff] at h4
  obtain ⟨h2, h3⟩ := C75_loader (j := job) rfl scanned (by decide +kernel) h1
  refine ⟨by simp [h2, h4], ?_⟩
  rw [← Bool.not_eq_true, h3]
  simp [Links, h4, lookup]

/-- The hypotheses of C75_rejected are met if the same files cannot be read. -/
def locked : Job := { exampleJob with loader := loaderOf { outside with content := fun _ => none } loaders }

example : ∀ files tree, ¬ Loads locked disk files tree := by
  obtain ⟨_, ext, l, h1, _⟩ := isCxx
  refine C75_rejected (p := source) rfl ⟨by decide +kernel, disk_ok.nodup, disk_ok.isName⟩ ?_ ?_ (by decide +kernel) h1 (.inl rfl)
  · have some_of : ∀ p, (Tree.load (locked.env disk) p locked.sourceDir locked.targetDir).isSome = true →
        Tree.load (locked.env disk) p locked.sourceDir locked.targetDir =
          some ((Tree.load (locked.env disk) p locked.sourceDir locked.targetDir).getD {}) := by
      intro p h
      obtain ⟨i, hi⟩ := Option.isSome_iff_exists.mp h
      rw [hi]; rfl
    refine .entry .root ⟨.inl rfl, ⟨_, world_load.mpr (some_of _ (by decide +kernel))⟩, ?_⟩ (by decide +kernel)
    show Except.ok _ = _
    congr 1
  · exact .inr ⟨.inl rfl, by decide +kernel, by decide +kernel⟩

theorem includes : Includes outside SourceExample.loaders job disk (parse ['a', '.', 'c', 'p', 'p']) (parse ['h', '.', 'h', 'p', 'p']) := by
  refine ⟨source, info, [], bytes text, ['.', '/', 'h', '.', 'h', 'p', 'p'], false, by decide +kernel, scanned, isCxx, ?_, ?_, by simp, by decide +kernel⟩
  · decide +kernel
  · rw [chars_bytes _ (by decide +kernel)]
    refine ⟨[.plain ('/' :: '/' :: '@' :: json)], [], [], [' '], [], [], ?_, ?_, by decide +kernel⟩
    · intro l hl
      simp only [List.mem_singleton] at hl
      subst hl
      exact ⟨⟨by decide, by decide +kernel, by decide +kernel⟩, by decide⟩
    · exact ⟨by simp [Loaders.Indent], by simp [Loaders.Indent], ⟨by decide, by decide⟩, by decide, by decide, by decide, by decide, by decide⟩

/-- C75 for this run: the object file is newer than the header. -/
example : Build.StrictlyNewer state.fs (parse ['_', '_', 't', '/', 'a', '.', 'o']) (parse ['h', '.', 'h', 'p', 'p']) := by
  have h : info.targets.map (fun t => t.name) = [parse ['_', '_', 't', '/', 'a', '.', 'o']] := by decide +kernel
  have ht : parse ['_', '_', 't', '/', 'a', '.', 'o'] ∈ info.targets.map (fun t => t.name) := by rw [h]; simp
  obtain ⟨t, ht, e⟩ := List.mem_map.mp ht
  have hinc : IncludesTrans outside SourceExample.loaders job disk source.normal (parse ['h', '.', 'h', 'p', 'p']) := by
    have : source.normal = parse ['a', '.', 'c', 'p', 'p'] := by decide +kernel
    rw [this]; exact .single includes
  rw [← e]
  refine (C75_up_to_date rfl proper runs succeeded scanned ht (by rw [e]; decide +kernel) hinc).1 (by decide +kernel) ?_
  intro p i hs x hx hn
  have h : ∀ y ∈ files, ∀ x ∈ y.2.useDeps ++ y.2.childTargetsUseDeps ++ y.2.targets.flatMap (fun t => t.useDeps),
      x.name = parse ['h', '.', 'h', 'p', 'p'] → Db.isExternal x.origin = false := by decide +kernel
  refine h _ ((mem_files proper loads _ _).mpr ⟨p, hs, rfl⟩) x ?_ hn
  simp only [List.mem_append, List.mem_flatMap]
  rcases hx with hx | hx | hx
  · exact .inl (.inl hx)
  · exact .inl (.inr hx)
  · exact .inr hx

end SourceExample

end Maike.Main
