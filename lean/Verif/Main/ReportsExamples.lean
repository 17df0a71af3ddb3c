import Verif.Main.Reports

/-!
# Examples of what recipes report

A project with a document `d/a.xml`, from which `__t/d/a.html` is made, and which refers to `b.css` in the same directory, which is made from `d/b.sass`. Also, documents and files for which the
properties C89 and C90 are false.
-/

namespace Maike.Main

open Fs Tree Paths
open Maike.Kvs (Json Members)
open Maike.Recipes (Element Refers External follow ToFile resource docGetTags genericGetTags tagsRequest)
open Maike.Build (FileSys Stat)

namespace Report

/-! ## A run -/

/-- `<document><link href="./b.css"/><a href="https://x.y">…</a></document>` -/
def document : Element := .mk [] [.mk [("href", "./b.css")] [], .mk [("href", "https://x.y")] []]

def docCompiler : Kvs.Compiler := { recipe := "doc2html.py", origin := some .system, useGetTags := true }

def docSource : Source where
  default := docCompiler
  useTargetDeps := false
  found := some []
  tags := some [("target", .obj [("name", .str "a.html")])]

def sassSource : Source where
  default := { recipe := "sass2css.py", origin := some .system }
  useTargetDeps := false
  found := some []
  tags := some [("target", .obj [("name", .str "b.css")])]

def theDocument : Str := ['d', '/', 'a', '.', 'x', 'm', 'l']

def theSheet : Str := ['d', '/', 'b', '.', 's', 'a', 's', 's']

def read (s : String) : Option Element := if s.toList = theDocument then some document else none

def job : Job where
  sourceDir := parse ['.']
  targetDir := parse ['_', '_', 't']
  recursive := true
  nameFilter n := ['_', '_'].isPrefixOf n
  dirFilter _ := false
  dirCompiler := { recipe := "make_directory.py", origin := some .system }
  loader e := if e = ['.', 'x', 'm', 'l'] then some fun _ => docSource else if e = ['.', 's', 'a', 's', 's'] then some fun _ => sassSource else none
  resolver := { get := fun _ => none }
  getTags k p := docGetTags "doc2html.py" read (tagsRequest (text p) (.obj k.config))
  message _ := []
  workers := 1

def files0 : List Path := [parse ['.'], parse ['d'], parse ['d', '/'], parse theDocument, parse theSheet]

def fs0 : FileSys Path := fun p =>
  if p ∈ [parse ['.'], parse ['d'], parse ['d', '/']] then some ⟨1, true⟩ else if p ∈ [parse theDocument, parse theSheet] then some ⟨2, false⟩ else none

def disk : Disk := diskOf fs0 files0

def allDirs : List Path :=
  [parse ['.'], parse ['d'], parse ['d', '/'], parse ['_', '_', 't'], parse ['_', '_', 't', '/'], parse ['_', '_', 't', '/', 'd'], parse ['_', '_', 't', '/', 'd', '/']]

def kind (p : Path) : Bool := decide (p ∈ allDirs)

def files : List (Path × FileInfo) := (scan job disk 80).shared.files

def tree : Db.SourceTree Path := treeOf files

theorem all0 : ∀ p, (fs0 p).isSome → p ∈ files0 := by
  intro p hp
  unfold fs0 at hp
  split at hp
  · rename_i e; exact List.mem_append_left [parse theDocument, parse theSheet] e
  · split at hp
    · rename_i e; exact List.mem_append_right [parse ['.'], parse ['d'], parse ['d', '/']] e
    · cases hp

theorem disk_ok : disk.Ok := diskOf_ok (by decide +kernel) all0 (slash_of all0 (by decide +kernel))

theorem loads : Loads job disk files tree := loads_of 80 (by decide +kernel) (by decide +kernel) (treeOf_ok (by decide +kernel))

theorem proper : Proper job kind disk 10 := by
  refine proper_of disk_ok (by decide +kernel) (by decide +kernel) ?_ ?_ loads (by decide +kernel) (by decide +kernel) (by decide +kernel)
  · intro p st _ h
    have : ∀ p ∈ files0, ∀ st ∈ fs0 p, st.mtime < 10 := by decide +kernel
    exact this p (all0 p (by change fs0 p = _ at h; rw [h]; rfl)) st h
  · intro p st h
    have : ∀ p ∈ files0, ∀ st ∈ fs0 p, st.dir = kind p := by decide +kernel
    exact this p (all0 p (by change fs0 p = _ at h; rw [h]; rfl)) st h

def acts : List (Build.Act Path) := Build.auto (theBuild job tree false kind) 100 (Build.init (theBuild job tree false kind) fs0 10)

def state : Build.State Path := stateOf (theBuild job tree false kind) fs0 10 acts

theorem runs : Runs job false kind disk 10 files tree state := ⟨loads, by decide +kernel, _, stateOf_exec (as := acts) (by decide +kernel)⟩

theorem succeeded : state.Succeeded := ⟨4, by decide +kernel⟩

theorem loader : Paths.matchLongestExtension (parse theDocument).filename job.loader = some (['.', 'x', 'm', 'l'], fun _ => docSource) := by
  have e : Paths.fullExtension (parse theDocument).filename = ['.', 'x', 'm', 'l'] := by decide +kernel
  unfold Paths.matchLongestExtension
  rw [e, Paths.searchExt]
  rfl

theorem asked : Asked job disk (parse theDocument) docCompiler :=
  ⟨by decide +kernel, rfl, ['.', 'x', 'm', 'l'], fun _ => docSource, _, none, loader, rfl, .inl ⟨by decide +kernel, rfl⟩, rfl⟩

theorem refers : Refers document "./b.css" := .child (e := .mk [("href", "./b.css")] []) (by simp) (.attr (.inr rfl) (by decide))

theorem found : Found ⟨parse theDocument, job.sourceDir, job.targetDir⟩ [['d']] ['a', '.', 'x', 'm', 'l'] := by
  refine ⟨?_, by decide +kernel, by decide +kernel, by decide +kernel, by decide +kernel⟩
  have : IsNormal (job.sourceDir.normal) := normal_isNormal _
  exact this

theorem load_ok {p : Path} (h : (Tree.load (job.env disk) p job.sourceDir job.targetDir).isSome = true) : ∃ i, (job.world disk).load p = .ok i := by
  obtain ⟨i, hi⟩ := Option.isSome_iff_exists.mp h
  exact ⟨i, by show (match Tree.load (job.env disk) p job.sourceDir job.targetDir with | some i => _ | none => _) = _; rw [hi]⟩

theorem reached : (job.world disk).Reached (parse theDocument) := by
  have h1 : (job.world disk).Enters job.sourceDir := ⟨.inl rfl, load_ok (by decide +kernel), congrArg Except.ok (by decide +kernel)⟩
  have h2 := World.Reached.entry (n := ['d']) (World.Reached.root (w := job.world disk)) h1 (by decide +kernel)
  have h3 : (job.world disk).Enters (job.sourceDir.normal / ⟨false, [['d']], false⟩) :=
    ⟨.inr ⟨.inl rfl, by decide +kernel, rfl⟩, load_ok (by decide +kernel), congrArg Except.ok (by decide +kernel)⟩
  have h4 := World.Reached.entry (n := ['a', '.', 'x', 'm', 'l']) h2 h3 (by decide +kernel)
  have e : (((job.world disk).root.normal / ⟨false, [['d']], false⟩ : Path).normal / ⟨false, [['a', '.', 'x', 'm', 'l']], false⟩ : Path) = parse theDocument := by decide +kernel
  exact e ▸ h4

theorem scanned : ∃ i, Scanned job disk (parse theDocument) i ∧ ∃ t ∈ i.targets, t.name = parse ['_', '_', 't', '/', 'd', '/', 'a', '.', 'h', 't', 'm', 'l'] := by
  have h : ∃ i ∈ Tree.load (job.env disk) (parse theDocument) job.sourceDir job.targetDir, ∃ t ∈ i.targets, t.name = parse ['_', '_', 't', '/', 'd', '/', 'a', '.', 'h', 't', 'm', 'l'] := by
    have : (Tree.load (job.env disk) (parse theDocument) job.sourceDir job.targetDir).any (fun i => i.targets.any fun t =>
      decide (t.name = parse ['_', '_', 't', '/', 'd', '/', 'a', '.', 'h', 't', 'm', 'l'])) = true := by decide +kernel
    obtain ⟨i, hi, h⟩ : ∃ i ∈ Tree.load (job.env disk) (parse theDocument) job.sourceDir job.targetDir, i.targets.any (fun t =>
        decide (t.name = parse ['_', '_', 't', '/', 'd', '/', 'a', '.', 'h', 't', 'm', 'l'])) = true := by
      cases hl : Tree.load (job.env disk) (parse theDocument) job.sourceDir job.targetDir with
      | none => rw [hl] at this; cases this
      | some i => rw [hl] at this; exact ⟨i, rfl, this⟩
    obtain ⟨t, ht, e⟩ := List.any_eq_true.mp h
    exact ⟨i, hi, t, ht, by simpa using e⟩
  obtain ⟨i, hi, ht⟩ := h
  exact ⟨i, ⟨reached, .inr ⟨.inl rfl, by decide +kernel, rfl⟩, hi⟩, ht⟩

/-- C89 for this run: the result is newer than the style sheet, which is made by the same run. -/
theorem current : Build.StrictlyNewer state.fs (parse ['_', '_', 't', '/', 'd', '/', 'a', '.', 'h', 't', 'm', 'l']) (parse ['_', '_', 't', '/', 'd', '/', 'b', '.', 'c', 's', 's']) := by
  obtain ⟨i, hs, t, ht, e⟩ := scanned
  have hint : ∀ x ∈ files, ∀ y ∈ x.2.useDeps ++ x.2.childTargetsUseDeps ++ x.2.targets.flatMap (fun t => t.useDeps),
      y.name = parse ['_', '_', 't', '/', 'd', '/', 'b', '.', 'c', 's', 's'] → Db.isExternal y.origin = false := by decide +kernel
  have ed : (job.targetDir / ⟨false, [['d'], ['b', '.', 'c', 's', 's']], false⟩ : Path).normal = parse ['_', '_', 't', '/', 'd', '/', 'b', '.', 'c', 's', 's'] := by decide +kernel
  have := C89_current_partial (dest := [['d'], ['b', '.', 'c', 's', 's']]) proper runs succeeded hs asked (script := "doc2html.py") (read := read) (fun _ => rfl) (by decide +kernel) found
    (doc := document) (if_pos (by decide +kernel)) refers ⟨by decide +kernel, by decide +kernel, by decide +kernel⟩ (by decide +kernel) ⟨by decide +kernel, ['b', '.', 'c', 's', 's'], by decide +kernel, by decide +kernel⟩ (by decide +kernel)
    (by decide +kernel) (by
      intro p' i' h' x hx
      have := hint _ ((mem_files proper loads _ _).mpr ⟨p', h', rfl⟩) x
      rw [ed]
      apply this
      rcases hx with hx | hx | ⟨t, ht, hx⟩
      · simp [hx]
      · simp [hx]
      · simp only [List.mem_append, List.mem_flatMap]; exact .inr ⟨t, ht, hx⟩) ht (by rw [e]; decide +kernel)
  rwa [ed, e] at this

/-! ## C89 is false -/

/-- C89 is false in general: a reference that does not start with `./` is not looked for in the directory of the document, where browsers look for it, but in the target directory. Here `d/a.xml` refers
to `b.css`. -/
theorem C89_false : ∃ (c : Ctxt) (sub : List Str) (entry : Str) (ref : String) (dest : List Str), Found c sub entry ∧ Relative (parse ref.toList) ∧ ToFile (parse ref.toList) ∧ ¬ External ref ∧
    follow sub (parse ref.toList).names = some dest ∧ (resource c ref).name ≠ (c.targetDir / ⟨false, dest, false⟩).normal ∧ (resource c ref).name = (c.targetDir / parse ref.toList).normal := by
  refine ⟨_, _, _, "b.css", [['d'], ['b', '.', 'c', 's', 's']], found, ⟨by decide +kernel, by decide +kernel, by decide +kernel⟩, ⟨by decide +kernel, ['b', '.', 'c', 's', 's'], by decide +kernel, by decide +kernel⟩, ?_, by decide +kernel,
    by decide +kernel, by decide +kernel⟩
  rw [← Recipes.isUrl_iff]
  decide +kernel

/-- References to parts of a document and to addresses of other kinds are dependencies on files too, which do not exist. -/
theorem C89_false_fragment : (∀ ref ∈ ["#top", "mailto:x@y", "//x.y/z"], ¬ External ref) ∧
    ["#top", "mailto:x@y", "//x.y/z"].map (fun ref => (resource ⟨parse theDocument, job.sourceDir, job.targetDir⟩ ref).name.str) =
      [['_', '_', 't', '/', '#', 't', 'o', 'p'], ['_', '_', 't', '/', 'm', 'a', 'i', 'l', 't', 'o', ':', 'x', '@', 'y'], ['_', '_', 't', '/']] := by
  refine ⟨?_, by decide +kernel⟩
  intro ref
  rw [← Recipes.isUrl_iff]
  revert ref
  decide +kernel

/-! ## C90 is false -/

/-- C90 is false in general: the target of `d/a.xml`, in the current directory, is not put into `d`, but into `d/d`. -/
theorem C90_false : ∃ (j : Job) (p : Path) (sub : List Str) (entry : Str) (ext : String), Found ⟨p, j.sourceDir, j.targetDir⟩ sub entry ∧
    makeTargetName ⟨p, j.sourceDir, j.targetDir⟩ (parse (text p ++ "." ++ ext).toList) ≠ (j.targetDir / ⟨false, sub ++ [entry ++ '.' :: ext.toList], false⟩).normal ∧
    makeTargetName ⟨p, j.sourceDir, j.targetDir⟩ (parse (text p ++ "." ++ ext).toList) = (j.targetDir / ⟨false, sub ++ sub ++ [entry ++ '.' :: ext.toList], false⟩).normal :=
  ⟨job, parse theDocument, _, _, "o", found, by decide +kernel, by decide +kernel⟩

/-- The hypotheses of `C90_target_partial`, for a file in the source directory, and for one in a directory with an absolute name. -/
example : makeTargetName ⟨parse ['.', '/', 'x'], job.sourceDir, job.targetDir⟩ (parse (text (parse ['.', '/', 'x']) ++ "." ++ "o").toList) = parse ['_', '_', 't', '/', 'x', '.', 'o'] := by
  have := C90_target_partial (j := job) (p := parse ['.', '/', 'x']) (sub := []) (entry := ['x']) ⟨found.normal, by decide +kernel, by decide +kernel, by decide +kernel, by decide +kernel⟩ (ext := "o")
    (by decide +kernel) (by decide +kernel) (.inr ⟨by decide +kernel, rfl⟩)
  exact this.trans (by decide +kernel)

example : makeTargetName ⟨parse ['/', 's', '/', 'd', '/', 'x'], parse ['/', 's'], job.targetDir⟩ (parse (text (parse ['/', 's', '/', 'd', '/', 'x']) ++ "." ++ "o").toList) =
    parse ['_', '_', 't', '/', 'd', '/', 'x', '.', 'o'] := by
  have hn : IsNormal (parse ['/', 's']) := by
    have : IsNormal (parse ['/', 's']).normal := normal_isNormal _
    exact this
  have := C90_target_partial (j := { job with sourceDir := parse ['/', 's'] }) (p := parse ['/', 's', '/', 'd', '/', 'x']) (sub := [['d']]) (entry := ['x'])
    ⟨hn, by decide +kernel, by decide +kernel, by decide +kernel, by decide +kernel⟩ (ext := "o") (by decide +kernel) (by decide +kernel) (.inl (by decide +kernel))
  exact this.trans (by decide +kernel)

end Report

end Maike.Main
