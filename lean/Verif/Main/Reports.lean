import Verif.Main.Request
import Verif.Main.RunExamples
import Verif.Main.Targets
import Verif.Recipes.Report

/-!
# What recipes report, in whole runs (C89, C90)
-/

namespace Maike.Main

open Fs Tree Paths
open Maike.Kvs (Json Members)
open Maike.Recipes (Element Refers External follow ToFile resource docGetTags genericGetTags tagsRequest)
open Maike.Build (FileSys Stat)

variable {j : Job} {kind : Path → Bool} {d : Disk} {now : Nat}

/-! ## Specification -/

/-- The file is compiled by `k`, which is asked for tags. -/
def Asked (j : Job) (d : Disk) (p : Path) (k : Kvs.Compiler) : Prop :=
  Build.isDir d.fs p.normal = false ∧ k.useGetTags = true ∧
  ∃ e l ms own, Paths.matchLongestExtension p.filename j.loader = some (e, l) ∧ (l p).tags = some ms ∧ OwnCompiler j.resolver ms own ∧ k = own.getD (l p).default

/-- The recipe of `k` is doc2html.py, which is located at `script`; `read` reads a document. -/
def DocRecipe (j : Job) (script : String) (read : String → Option Element) (k : Kvs.Compiler) : Prop :=
  ∀ p, j.getTags k p = docGetTags script read (tagsRequest (text p) (.obj k.config))

/-- The recipe of `k` uses generic.py, and is located at `script`. -/
def GenericRecipe (j : Job) (script : String) (k : Kvs.Compiler) : Prop :=
  ∀ p, j.getTags k p = genericGetTags script (tagsRequest (text p) (.obj k.config))

/-! ## Proof -/

/-- What a recipe reports is part of what is known about the file. -/
theorem reported {p : Path} {i : FileInfo} (hsc : Scanned j d p i) {k : Kvs.Compiler} (hk : Asked j d p k) :
    ∃ ms ts ds es, j.getTags k p = some ms ∧ getTargets ⟨p, j.sourceDir, j.targetDir⟩ ms = some ts ∧ getUseDeps ⟨p, j.sourceDir, j.targetDir⟩ ms = some ds ∧
      getChildTargetUseDeps ⟨p, j.sourceDir, j.targetDir⟩ ms = some es ∧ (∀ x ∈ ts, x ∈ i.targets) ∧ ∀ x ∈ ds, x ∈ i.useDeps := by
  obtain ⟨_, _, hl⟩ := hsc
  obtain ⟨hdir, hget, e, l, ms, own, hm, htags, hown, rfl⟩ := hk
  unfold load at hl
  simp only [Job.env, hdir, Bool.false_eq_true, if_false, hm] at hl
  obtain ⟨found, ms', t, own', script, policy, _, h2, _, h4, h5, _, rfl⟩ := (C63_load _ _ _ _ _ _).mp hl
  rw [htags] at h2
  cases h2
  have e1 : own' = own := by
    have a := (own_iff _ _ _).mpr h4
    have b := (own_iff _ _ _).mpr hown
    exact Option.some.inj (a.symm.trans b)
  subst e1
  unfold ScriptTags at h5
  rw [if_pos hget] at h5
  obtain ⟨ms', h6, h7⟩ := h5
  obtain ⟨h8, h9, h10⟩ := (C63_tags ⟨p, j.sourceDir, j.targetDir⟩ ms' _ _ _).mpr ⟨script, h7, rfl, rfl, rfl⟩
  refine ⟨ms', _, _, _, h6, h8, h9, h10, ?_, ?_⟩
  · intro x hx
    simp only [List.map_append, List.mem_append]
    exact .inr hx
  · intro x hx
    simp only [List.map_append, List.mem_append]
    exact .inl (.inr (.inr hx))

/-- A suffix without separators ends up in the last name. -/
theorem parse_suffix (r : Bool) (ns : List Str) (e suffix : Str) (h : ∀ n ∈ ns, n ≠ [] ∧ '/' ∉ n) (he : e ≠ [] ∧ '/' ∉ e) (hs : '/' ∉ suffix) :
    parse (Path.str ⟨r, ns ++ [e], false⟩ ++ suffix) = ⟨r, ns ++ [e ++ suffix], false⟩ := by
  have hj : ∀ ns : List Str, joinNames (ns ++ [e]) ++ suffix = joinNames (ns ++ [e ++ suffix]) := by
    intro ns
    induction ns with
    | nil => rfl
    | cons a ns ih =>
      cases ns with
      | nil => simp [joinNames]
      | cons b ns => simpa [joinNames] using ih
  have : Path.str ⟨r, ns ++ [e], false⟩ ++ suffix = Path.str ⟨r, ns ++ [e ++ suffix], false⟩ := by
    unfold Path.str
    simp only [Bool.false_eq_true, if_false, List.append_nil, List.append_assoc, hj]
  rw [this]
  apply parse_str
  · intro n hn
    rcases List.mem_append.mp hn with hn | hn
    · exact h n hn
    · rw [List.mem_singleton.mp hn]
      refine ⟨by simp [he.1], fun h => ?_⟩
      rcases List.mem_append.mp h with h | h
      · exact he.2 h
      · exact hs h
  · simp

/-! ## Theorems -/

/-- **C89.** Each document that maike has accepted could be read, and each reference in it that is not to something on a server is a dependency. -/
theorem C89_run {p : Path} {i : FileInfo} (hsc : Scanned j d p i) {k : Kvs.Compiler} (hk : Asked j d p k) {script : String} {read : String → Option Element}
    (hdoc : DocRecipe j script read k) (hne : text p ≠ script) :
    ∃ doc, read (text p) = some doc ∧ ∀ ref, Refers doc ref → ¬ External ref → resource ⟨p, j.sourceDir, j.targetDir⟩ ref ∈ i.useDeps := by
  obtain ⟨ms, ts, ds, es, h1, h2, h3, h4, _, h6⟩ := reported hsc hk
  rw [hdoc p] at h1
  cases hr : read (text p) with
  | none => simp [docGetTags, tagsRequest, Kvs.lookup, Json.asString, hne, hr] at h1
  | some doc =>
    refine ⟨doc, rfl, fun ref hr' he => h6 _ ?_⟩
    obtain ⟨tags, deps, g1, _, _, g4, g5⟩ := Recipes.C89_exact (cfg := .obj k.config) hne hr ⟨p, j.sourceDir, j.targetDir⟩
    rw [g1] at h1
    cases h1
    rw [g4] at h3
    cases h3
    exact (g5 _).mpr ⟨ref, hr', he, rfl⟩

/-- **C89.** After a successful run, what is made from a document is newer than the files that the document refers to, if the references start with `./`. `sub` is the directory of the document. -/
theorem C89_current_partial {force : Bool} {files : List (Path × FileInfo)} {tree : Db.SourceTree Path} {s : Build.State Path} (hp : Proper j kind d now)
    (hr : Runs j force kind d now files tree s) (hs : s.Succeeded) {p : Path} {i : FileInfo} (hsc : Scanned j d p i) {k : Kvs.Compiler} (hk : Asked j d p k)
    {script : String} {read : String → Option Element} (hdoc : DocRecipe j script read k) (hne : text p ≠ script)
    {sub : List Str} {entry : Str} (hf : Found ⟨p, j.sourceDir, j.targetDir⟩ sub entry) {doc : Element} (hread : read (text p) = some doc) {ref : String} (href : Refers doc ref)
    (hrel : Relative (parse ref.toList)) (hdot : ['.', '/'] <+: ref.toList) (hfile : ToFile (parse ref.toList)) {dest : List Str} (hd : follow sub (parse ref.toList).names = some dest)
    (hkind : kind (j.targetDir / ⟨false, dest, false⟩).normal = false)
    (hint : ∀ p' i', Scanned j d p' i' → ∀ x, Declares i' x → x.name = (j.targetDir / ⟨false, dest, false⟩).normal → Db.isExternal x.origin = false)
    {t : TTarget} (ht : t ∈ i.targets) (hkt : kind t.name = false) : Build.StrictlyNewer s.fs t.name (j.targetDir / ⟨false, dest, false⟩).normal := by
  obtain ⟨doc', h1, h2⟩ := C89_run hsc hk hdoc hne
  rw [hread] at h1
  cases h1
  have hext : ¬ External ref := by
    rintro ⟨scheme, rest, hne, hall, e⟩
    obtain ⟨tl, htl⟩ := hdot
    rw [e] at htl
    obtain ⟨c, scheme, rfl⟩ := List.exists_cons_of_ne_nil hne
    simp only [List.cons_append, List.cons.injEq] at htl
    have := hall c (by simp)
    rw [← htl.1] at this
    exact absurd this (by decide)
  have hne' : dest ≠ [] := by
    rintro rfl
    obtain ⟨_, n, hlast, hn⟩ := hfile
    obtain ⟨l, x, e⟩ := (List.eq_nil_or_concat (parse ref.toList).names).resolve_left hrel.2.1
    rw [List.concat_eq_append] at e
    rw [e] at hlast hd
    simp only [List.getLast?_append, List.getLast?_singleton, Option.some_or, Option.some.injEq] at hlast
    subst hlast
    have : ∀ (l dir : List Str), follow dir (l ++ [x]) ≠ some [] := by
      intro l
      induction l with
      | nil => intro dir; simp [follow, hn.1, hn.2.1, hn.2.2]
      | cons a l ih =>
        intro dir h
        simp only [List.cons_append, follow] at h
        repeat' split at h
        all_goals first | cases h | exact ih _ h
    exact this _ _ hd
  have hw := (Recipes.C89_where_partial ⟨p, j.sourceDir, j.targetDir⟩ sub entry hf hrel hdot hd hne').2.2 hfile
  have hmem := h2 ref href hext
  have hneeds : Needs j d p.normal (j.targetDir / ⟨false, dest, false⟩).normal := by
    have := Needs.use hsc hmem
    rwa [hw] at this
  exact ((C70_end_to_end hp hr hs hsc ht).2 hkt).2 _ hneeds hkind hint

/-- The text of a file that has been found, with an extension. -/
theorem text_ext {p : Path} {sub : List Str} {entry : Str} (hf : Found ⟨p, j.sourceDir, j.targetDir⟩ sub entry) {ext : String}
    (hslash : '/' ∉ ext.toList) (hnames : ∀ n ∈ j.sourceDir.names ++ sub ++ [entry], '/' ∉ n) :
    parse (text p ++ "." ++ ext).toList = ⟨j.sourceDir.root, (inside j.sourceDir sub).names ++ [entry ++ '.' :: ext.toList], false⟩ := by
  have hnorm := inside_normal j.sourceDir hf.normal hf.nonempty sub hf.names
  obtain ⟨e1, e2⟩ := normal_inside j.sourceDir hf.normal hf.nonempty sub hf.names
  have hp : p = ⟨j.sourceDir.root, (inside j.sourceDir sub).names ++ [entry], false⟩ := by
    have := hf.path
    simp only at this
    rw [this, relative_step _ _ ⟨rfl, by simp, by simpa using hf.isName.2.2⟩, e1, e2]
  have ht : (text p ++ "." ++ ext).toList = p.str ++ '.' :: ext.toList := by
    unfold text
    simp
  rw [ht, hp]
  apply parse_suffix
  · intro n hn
    refine ⟨fun e => isNormal_names _ hnorm (e ▸ hn), ?_⟩
    apply hnames
    unfold inside at hn
    simp only at hn
    split at hn
    · simp [hn]
    · rcases List.mem_append.mp hn with hn | hn <;> simp [hn]
  · exact ⟨hf.isName.2.2, hnames entry (by simp)⟩
  · simp [hslash]

theorem isName_ext {entry ext : Str} (h : IsName entry) : IsName (entry ++ '.' :: ext) := by
  obtain ⟨h1, h2, h3⟩ := h
  cases entry with
  | nil => exact absurd rfl h3
  | cons a l =>
    cases l with
    | nil =>
      refine ⟨fun e => ?_, fun e => ?_, by simp⟩
      · simp only [List.cons_append, List.nil_append, dotdot, List.cons.injEq] at e
        exact h2 (by rw [e.1]; rfl)
      · simp [dot] at e
    | cons b l => exact ⟨fun e => by simp [dotdot] at e, fun e => by simp [dot] at e, by simp⟩

/-- **C90.** Where the target of a file with a general command is put, if the source directory is relative to the current directory: `sub` is the directory of the file in the source directory, and the
place of the file in the current directory is appended to it. -/
theorem C90_where {p : Path} {sub : List Str} {entry : Str} (hf : Found ⟨p, j.sourceDir, j.targetDir⟩ sub entry) (hroot : j.sourceDir.root = false) {ext : String}
    (hslash : '/' ∉ ext.toList) (hnames : ∀ n ∈ j.sourceDir.names ++ sub ++ [entry], '/' ∉ n) :
    makeTargetName ⟨p, j.sourceDir, j.targetDir⟩ (parse (text p ++ "." ++ ext).toList) =
      (j.targetDir / ⟨false, sub ++ (j.sourceDir / ⟨false, sub, false⟩).normal.names ++ [entry ++ '.' :: ext.toList], false⟩).normal := by
  have hnorm := inside_normal j.sourceDir hf.normal hf.nonempty sub hf.names
  rw [text_ext hf hslash hnames, hroot, C47_target_partial _ sub entry hf _ ⟨rfl, by simp, ?_⟩, (normal_inside j.sourceDir hf.normal hf.nonempty sub hf.names).1]
  · simp only [List.append_assoc]
  · intro h
    rcases List.mem_append.mp h with h | h
    · exact isNormal_names _ hnorm h
    · exact (isName_ext hf.isName).2.2 (List.mem_singleton.mp h).symm

/-- **C90.** The target of a file with a general command is put where the file is, in the target directory, if the source directory is the current directory and contains the file, or if the source
directory is absolute. -/
theorem C90_target_partial {p : Path} {sub : List Str} {entry : Str} (hf : Found ⟨p, j.sourceDir, j.targetDir⟩ sub entry) {ext : String}
    (hslash : '/' ∉ ext.toList) (hnames : ∀ n ∈ j.sourceDir.names ++ sub ++ [entry], '/' ∉ n)
    (hwhere : j.sourceDir.root = true ∨ (j.sourceDir = ⟨false, [dot], false⟩ ∧ sub = [])) :
    makeTargetName ⟨p, j.sourceDir, j.targetDir⟩ (parse (text p ++ "." ++ ext).toList) =
      (j.targetDir / ⟨false, sub ++ [entry ++ '.' :: ext.toList], false⟩).normal := by
  rcases hwhere with hroot | ⟨hs, rfl⟩
  · have hall : ∀ n ∈ sub ++ [entry ++ '.' :: ext.toList], IsName n := by
      intro n hn
      rcases List.mem_append.mp hn with hn | hn
      · exact hf.names n hn
      · rw [List.mem_singleton.mp hn]; exact isName_ext hf.isName
    have hdot : j.sourceDir.names ≠ [dot] := by
      have := hf.normal
      simp only at this
      generalize j.sourceDir = b at *
      cases this with
      | empty => cases hroot
      | dot => cases hroot
      | rel => cases hroot
      | abs ns t hn ht => rintro rfl; exact (hn dot (by simp)).2.1 rfl
    rw [text_ext hf hslash hnames]
    have e : (⟨j.sourceDir.root, (inside j.sourceDir sub).names ++ [entry ++ '.' :: ext.toList], false⟩ : Path) =
        inside j.sourceDir (sub ++ [entry ++ '.' :: ext.toList]) := by
      unfold inside
      rw [if_neg fun h => hdot h.1, if_neg fun h => hdot h.1, List.append_assoc]
    unfold makeTargetName
    have habs : ∀ a : Path, a / inside j.sourceDir (sub ++ [entry ++ '.' :: ext.toList]) = inside j.sourceDir (sub ++ [entry ++ '.' :: ext.toList]) := by
      intro a
      show a.append _ = _
      unfold Path.append
      exact if_pos hroot
    rw [e, habs, relativeTo_inside_eq _ hf.normal _ (by simp) hall]
  · have hroot : j.sourceDir.root = false := by rw [hs]
    rw [C90_where hf hroot hslash hnames, hs]
    have : (⟨false, [dot], false⟩ / ⟨false, [], false⟩ : Path).normal.names = [dot] := by decide
    rw [this]
    have hn := isName_ext (ext := ext.toList) hf.isName
    have hr : ∀ l : List Str, (∀ n ∈ l, n ≠ []) → Relative ⟨false, l ++ [entry ++ '.' :: ext.toList], false⟩ := by
      intro l hl
      refine ⟨rfl, by simp, fun h => ?_⟩
      rcases List.mem_append.mp h with h | h
      · exact hl _ h rfl
      · exact hn.2.2 (List.mem_singleton.mp h).symm
    have h1 := hr [dot] (by simp [dot])
    have h2 := hr [] (by simp)
    have hnames : (j.targetDir / ⟨false, [dot] ++ [entry ++ '.' :: ext.toList], false⟩ : Path).normal.names =
        (j.targetDir / ⟨false, [] ++ [entry ++ '.' :: ext.toList], false⟩ : Path).normal.names := by
      apply normal_unique _ _ (relative_ne_empty _ _ h1) (relative_ne_empty _ _ h2)
      · rw [relative_root _ _ h1, relative_root _ _ h2]
      · intro cwd
        rw [walk_append, walk_append]
        simp [walk, foldl_dot]
    have hr1 : (j.targetDir / ⟨false, [dot] ++ [entry ++ '.' :: ext.toList], false⟩ : Path).normal.root =
        (j.targetDir / ⟨false, [] ++ [entry ++ '.' :: ext.toList], false⟩ : Path).normal.root := by
      rw [normal_root, normal_root, relative_root _ _ h1, relative_root _ _ h2]
    have ht1 : ∀ l : List Str, Relative ⟨false, l ++ [entry ++ '.' :: ext.toList], false⟩ →
        (j.targetDir / ⟨false, l ++ [entry ++ '.' :: ext.toList], false⟩ : Path).normal.trailing = false := by
      intro l hl
      rw [relative_step _ _ hl]
      simp only
      rw [← List.append_assoc]
      exact normal_no_trailing _ _ _ hn
    have e1 := ht1 _ h1
    have e2 := ht1 _ h2
    simp only [List.nil_append] at *
    generalize (j.targetDir / ⟨false, [dot] ++ [entry ++ '.' :: ext.toList], false⟩ : Path).normal = a at *
    generalize (j.targetDir / ⟨false, [entry ++ '.' :: ext.toList], false⟩ : Path).normal = b at *
    obtain ⟨_, _, _⟩ := a
    obtain ⟨_, _, _⟩ := b
    simp_all

/-- **C90.** Each file with a general command that maike has accepted has the target that its recipe reports, and depends on the executable that makes it. -/
theorem C90_run {p : Path} {i : FileInfo} (hsc : Scanned j d p i) {k : Kvs.Compiler} (hk : Asked j d p k) {script ext exe origin : String} {cmd : Members} {o : Db.Origin}
    (hrec : GenericRecipe j script k) (hne : text p ≠ script) (hext : Kvs.lookup "target_filename_ext" k.config = some (.str ext))
    (hcmd : Kvs.lookup "compilation_cmd" k.config = some (.obj cmd)) (hexe : Kvs.lookup "executable" cmd = some (.str exe)) (horigin : Kvs.lookup "exec_origin" cmd = some (.str origin))
    (ho : Text.originFromString origin = some o) :
    (∃ t ∈ i.targets, t.name = makeTargetName ⟨p, j.sourceDir, j.targetDir⟩ (parse (text p ++ "." ++ ext).toList)) ∧
    ⟨prependSearchPath ⟨p, j.sourceDir, j.targetDir⟩ (parse exe.toList) o, o, []⟩ ∈ i.useDeps := by
  obtain ⟨ms, ts, ds, es, h1, h2, h3, h4, h5, h6⟩ := reported hsc hk
  obtain ⟨tags, g1, g2, g3, _⟩ := Recipes.C90_exact hne hext hcmd hexe horigin ho ⟨p, j.sourceDir, j.targetDir⟩
  rw [hrec p, g1] at h1
  cases h1
  rw [g2] at h2
  rw [g3] at h3
  cases h2
  cases h3
  exact ⟨⟨_, h5 _ (List.mem_singleton.mpr rfl), rfl⟩, h6 _ (List.mem_singleton.mpr rfl)⟩

end Maike.Main
