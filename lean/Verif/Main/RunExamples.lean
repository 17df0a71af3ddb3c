import Verif.Main.Run

/-!
# Examples of whole runs

A project of one source file in the current directory, with the settings that are used by default, for which the hypotheses of C70 and C71 are
met; and one with a target directory that the next scan enters, for which C71 fails (`C71_hidden_needed`).
-/

namespace Maike.Main

open Fs Tree Paths
open Maike.Build (FileSys Stat)

/-! ## File systems with finitely many files -/

/-- Whether the file is an entry of the directory. -/
def isEntry (fs : FileSys Path) (p q : Path) : Bool :=
  (fs q).isSome && decide (q.filename ≠ dotdot ∧ q.filename ≠ dot ∧ q.filename ≠ []) &&
    decide ((p / ⟨false, [q.filename], false⟩).normal = q)

/-- A disk with the given files; `l` lists the paths of all of them. -/
def diskOf (fs : FileSys Path) (l : List Path) : Disk := ⟨fs, fun p => ((l.filter (isEntry fs p)).map Path.filename, none)⟩

theorem filename_entry (p : Path) (hp : IsNormal p) (hne : p ≠ Path.empty) (n : Str) (hn : IsName n) :
    (p / ⟨false, [n], false⟩ : Path).normal.filename = n := by
  have h1 := (normal_inside p hp hne [n] (by simpa using hn)).1
  have h2 : (p / ⟨false, [n], false⟩ : Path).normal.trailing = false := by
    rw [entry_eq _ _ hn]; exact normal_trailing hn
  unfold Path.filename
  rw [h2, h1]
  unfold inside
  simp only [Bool.false_eq_true, if_false]
  split <;> simp

theorem diskOf_ok {fs : FileSys Path} {l : List Path} (hl : l.Nodup) (hall : ∀ p, (fs p).isSome → p ∈ l)
    (hslash : ∀ r ns, ns ≠ [] → IsNormal ⟨r, ns, true⟩ → ((fs ⟨r, ns, true⟩).isSome ↔ Build.isDir fs ⟨r, ns, false⟩ = true)) :
    (diskOf fs l).Ok where
  nodup p := by
    unfold diskOf
    simp only
    have : ∀ (m : List Path), m.Nodup → (∀ q ∈ m, (p / ⟨false, [q.filename], false⟩ : Path).normal = q) → (m.map Path.filename).Nodup := by
      intro m
      induction m with
      | nil => intro _ _; simp
      | cons a m ih =>
        intro h1 h2
        simp only [List.nodup_cons] at h1
        simp only [List.map_cons, List.nodup_cons]
        refine ⟨?_, ih h1.2 (fun q hq => h2 q (by simp [hq]))⟩
        intro h
        obtain ⟨b, hb, e⟩ := List.mem_map.mp h
        have ha := h2 a (by simp)
        have hb' := h2 b (by simp [hb])
        rw [e, ha] at hb'
        exact h1.1 (hb' ▸ hb)
    refine this _ (hl.filter _) ?_
    intro q hq
    have := (List.mem_filter.mp hq).2
    simp only [isEntry, Bool.and_eq_true, decide_eq_true_eq] at this
    exact this.2
  isName p n hn := by
    obtain ⟨q, hq, rfl⟩ := List.mem_map.mp hn
    have := (List.mem_filter.mp hq).2
    simp only [isEntry, Bool.and_eq_true, decide_eq_true_eq] at this
    exact this.1.2
  listed p n hn := by
    obtain ⟨q, hq, rfl⟩ := List.mem_map.mp hn
    have := (List.mem_filter.mp hq).2
    simp only [isEntry, Bool.and_eq_true, decide_eq_true_eq] at this
    rw [this.2]
    exact this.1.1
  complete p n hp hne _ hn hex := by
    have hf := filename_entry p hp hne n hn
    refine List.mem_map.mpr ⟨_, List.mem_filter.mpr ⟨hall _ hex, ?_⟩, hf⟩
    simp only [isEntry, Bool.and_eq_true, decide_eq_true_eq, hf]
    exact ⟨⟨hex, hn⟩, trivial⟩
  slash := hslash

/-! ## A schedule for the scan -/

/-- The first task that is not done makes a step. -/
def drive {I : Type} (w : World I) : Nat → Scan I → Scan I
  | 0, s => s
  | k + 1, s =>
    match s.tasks.dropWhile (fun t => t.2 = .done) with
    | (p, ph) :: post =>
      match advance w s.shared p ph with
      | some (sh, ph', new) =>
        drive w k ⟨s.tasks.takeWhile (fun t => t.2 = .done) ++ (p, ph') :: post ++ new.map (·, .pending), sh⟩
      | none => s
    | [] => s

theorem drive_steps {I : Type} (w : World I) (k : Nat) (s : Scan I) : ∃ n, Steps w n s (drive w k s) := by
  induction k generalizing s with
  | zero => exact ⟨0, .refl⟩
  | succ k ih =>
    simp only [drive]
    split
    · rename_i p ph post hsp
      split
      · rename_i sh ph' new ha
        obtain ⟨n, hn⟩ := ih ⟨s.tasks.takeWhile (fun t => t.2 = .done) ++ (p, ph') :: post ++ new.map (·, .pending), sh⟩
        refine ⟨n + 1, hn.head ?_⟩
        have e := List.takeWhile_append_dropWhile (p := fun t : Path × Phase => decide (t.2 = .done)) (l := s.tasks)
        rw [hsp] at e
        have : Step w ⟨s.tasks.takeWhile (fun t => t.2 = .done) ++ (p, ph) :: post, s.shared⟩
            ⟨s.tasks.takeWhile (fun t => t.2 = .done) ++ (p, ph') :: post ++ new.map (·, .pending), sh⟩ := .mk ha
        rw [e] at this
        exact this
      · exact ⟨0, .refl⟩
    · exact ⟨0, .refl⟩

/-- What a scan finds. -/
def scan (j : Job) (d : Disk) (k : Nat) : Scan FileInfo := drive (j.world d) k (Scan.init (j.world d))

/-- Loading, step by step. -/
theorem loads_of {j : Job} {d : Disk} (k : Nat) (hc : (scan j d k).shared.counter = 0) (he : (scan j d k).shared.errlog = [])
    {tree : Db.SourceTree Path} (ht : Db.load (srcList (scan j d k).shared.files) = .ok tree) :
    Loads j d (scan j d k).shared.files tree := by
  obtain ⟨n, hn⟩ := drive_steps (j.world d) k (Scan.init (j.world d))
  refine ⟨⟨n, _, hn, ?_⟩, ht⟩
  change takeResult (scan j d k) = _
  simp [takeResult, hc, he]

/-- The source tree of an example. -/
def treeOf (files : List (Path × FileInfo)) : Db.SourceTree Path :=
  match Db.load (srcList files) with
  | .ok t => t
  | .error _ => ⟨[], ⟨[]⟩⟩

theorem treeOf_ok {files : List (Path × FileInfo)} (h : (Db.load (srcList files)).toOption.isSome = true) :
    Db.load (srcList files) = .ok (treeOf files) := by
  unfold treeOf
  cases hl : Db.load (srcList files) with
  | ok t => rfl
  | error e => rw [hl] at h; cases h

/-- Hypotheses about files, as a list can be checked for them. -/
theorem proper_of {j : Job} {kind : Path → Bool} {d : Disk} {now : Nat} (hd : d.Ok) (hne : j.sourceDir ≠ Path.empty)
    (hroot : (d.fs j.sourceDir.normal).isSome) (hpast : ∀ p st, kind p = false → d.fs p = some st → st.mtime < now)
    (hkinds : ∀ p st, d.fs p = some st → st.dir = kind p) {files : List (Path × FileInfo)} {tree : Db.SourceTree Path} (hl : Loads j d files tree)
    (h1 : ∀ x ∈ files, kind x.1 = true → ∀ t ∈ x.2.targets, kind t.name = true)
    (h2 : ∀ x ∈ files, ∀ t ∈ x.2.targets, kind t.name = false → ∀ y ∈ files, t.name ≠ y.1)
    (h3 : ∀ x ∈ files, (∀ t ∈ x.2.targets, t.name ≠ Path.empty ∧ ∀ y ∈ t.useDeps, y.name ≠ Path.empty) ∧
      ∀ y ∈ x.2.useDeps ++ x.2.childTargetsUseDeps, y.name ≠ Path.empty) : Proper j kind d now := by
  have hm : ∀ p i, Scanned j d p i → (p.normal, i) ∈ files := fun p i h =>
    (mem_files_of_ok ⟨hne, hd.nodup, hd.isName⟩ hl _ _).mpr ⟨p, h, rfl⟩
  refine ⟨hd, hne, hroot, hpast, hkinds, fun p i h => h1 _ (hm p i h), fun p i h t ht hk q k hq => h2 _ (hm p i h) t ht hk _ (hm q k hq), ?_⟩
  intro p i h
  have := h3 _ (hm p i h)
  refine ⟨fun t ht => (this.1 t ht).1, fun x hx => ?_⟩
  rcases hx with hx | hx | ⟨t, ht, hx⟩
  · exact this.2 x (List.mem_append_left _ hx)
  · exact this.2 x (List.mem_append_right _ hx)
  · exact (this.1 t ht).2 x hx

/-- The state that a schedule leads to. -/
def stateOf (b : Build.Build Path) (fs : FileSys Path) (now : Nat) (as : List (Build.Act Path)) : Build.State Path :=
  (Build.exec b as (Build.init b fs now)).getD (Build.init b fs now)

theorem stateOf_exec {b : Build.Build Path} {fs : FileSys Path} {now : Nat} {as : List (Build.Act Path)}
    (h : (Build.exec b as (Build.init b fs now)).isSome = true) : Build.exec b as (Build.init b fs now) = some (stateOf b fs now as) := by
  unfold stateOf
  obtain ⟨s, hs⟩ := Option.isSome_iff_exists.mp h
  rw [hs]; rfl

/-! ## One source file, with the default settings -/

section Default

/-- `.cpp` files are compiled to one object file. -/
def cppSource : Source where
  default := { recipe := "cxx_compiler.py", origin := some .system }
  useTargetDeps := false
  found := some []
  tags := some [("target", .obj [("name", .str "a.o")])]

/-- The current directory is scanned, and targets are put into `__targets`. -/
def exampleJob : Job where
  sourceDir := parse ['.']
  targetDir := parse ['_', '_', 't']
  recursive := true
  nameFilter n := ['_', '_'].isPrefixOf n
  dirFilter _ := false
  dirCompiler := { recipe := "make_directory.py", origin := some .system }
  loader e := if e = ['.', 'c', 'p', 'p'] then some fun _ => cppSource else none
  resolver := { get := fun _ => none }
  getTags _ _ := none
  message _ := []
  workers := 1

def dirs : List Path := [parse ['.'], parse ['_', '_', 't'], parse ['_', '_', 't', '/']]

def exampleFs : FileSys Path := fun p =>
  if p = parse ['.'] then some ⟨1, true⟩ else if p = parse ['a', '.', 'c', 'p', 'p'] then some ⟨2, false⟩ else none

def exampleDisk : Disk := diskOf exampleFs [parse ['.'], parse ['a', '.', 'c', 'p', 'p']]

def exampleKind (p : Path) : Bool := decide (p ∈ dirs)

end Default


def exampleFiles : List (Path × FileInfo) := (scan exampleJob exampleDisk 40).shared.files

def exampleTree : Db.SourceTree Path := treeOf exampleFiles

theorem exampleDisk_ok : exampleDisk.Ok := by
  refine diskOf_ok (by decide +kernel) ?_ ?_
  · intro p hp
    unfold exampleFs at hp
    split at hp
    · rename_i e; simp [e]
    · split at hp
      · rename_i e; simp [e]
      · cases hp
  · intro r ns hne hn
    have e1 : exampleFs ⟨r, ns, true⟩ = none := by
      unfold exampleFs
      rw [if_neg, if_neg]
      · intro e; injection e with _ _ e; exact absurd e (by decide +kernel)
      · intro e; injection e with _ _ e; exact absurd e (by decide +kernel)
    rw [e1]
    simp only [Option.isSome_none, Bool.false_eq_true, false_iff, Bool.not_eq_true]
    unfold Build.isDir exampleFs
    split
    · rfl
    · rename_i st hst
      split at hst
      · rename_i e
        injection e with e0 e2 _
        have : ns = [dot] := e2.trans (by decide +kernel)
        subst this
        have hr : r = false := e0.trans (by decide +kernel)
        subst hr
        have := normal_eq_self hn
        exact absurd this (by decide +kernel)
      · split at hst
        · injection hst with hst; rw [← hst]
        · cases hst

theorem exampleLoads : Loads exampleJob exampleDisk exampleFiles exampleTree :=
  loads_of 40 (by decide +kernel) (by decide +kernel) (treeOf_ok (by decide +kernel))

theorem exampleProper : Proper exampleJob exampleKind exampleDisk 10 := by
  refine proper_of exampleDisk_ok (by decide +kernel) (by decide +kernel) ?_ ?_ exampleLoads (by decide +kernel) (by decide +kernel) (by decide +kernel)
  · intro p st _ h
    change exampleFs p = _ at h
    unfold exampleFs at h
    split at h
    · injection h with h; subst h; decide
    · split at h
      · injection h with h; subst h; decide
      · cases h
  · intro p st h
    change exampleFs p = _ at h
    unfold exampleFs at h
    split at h
    · rename_i e; injection h with h; subst h e; decide +kernel
    · split at h
      · rename_i e; injection h with h; subst h e; decide +kernel
      · cases h

/-- The first run: a schedule; the directory that is made is known by two names. -/
def exampleActs (tree : Db.SourceTree Path) (fs : FileSys Path) (now : Nat) : List (Build.Act Path) :=
  Build.auto (theBuild exampleJob tree false exampleKind) 60 (Build.init (theBuild exampleJob tree false exampleKind) fs now) ++
    [.touchDir (parse ['_', '_', 't'])]

def exampleState : Build.State Path :=
  stateOf (theBuild exampleJob exampleTree false exampleKind) exampleFs 10 (exampleActs exampleTree exampleFs 10)

theorem exampleRuns : Runs exampleJob false exampleKind exampleDisk 10 exampleFiles exampleTree exampleState :=
  ⟨exampleLoads, by decide +kernel, _, stateOf_exec (as := exampleActs exampleTree exampleFs 10) (by decide +kernel)⟩

theorem exampleSucceeded : exampleState.Succeeded := ⟨2, by decide +kernel⟩

/-- The source file, as the scan finds it. -/
theorem exampleScanned : ∃ p i, Scanned exampleJob exampleDisk p i ∧ p.normal = parse ['a', '.', 'c', 'p', 'p'] ∧
    i.targets.map (fun t => t.name) = [parse ['_', '_', 't', '/', 'a', '.', 'o']] := by
  have h : ∃ x ∈ exampleFiles, x.1 = parse ['a', '.', 'c', 'p', 'p'] ∧
      x.2.targets.map (fun t => t.name) = [parse ['_', '_', 't', '/', 'a', '.', 'o']] := by decide +kernel
  obtain ⟨⟨k, i⟩, hx, h1, h2⟩ := h
  obtain ⟨p, hs, e⟩ := (mem_files exampleProper exampleLoads _ _).mp hx
  exact ⟨p, i, hs, e.symm.trans h1, h2⟩

/-- C70 for this run: the object file is newer than the source file. -/
example : Build.StrictlyNewer exampleState.fs (parse ['_', '_', 't', '/', 'a', '.', 'o']) (parse ['a', '.', 'c', 'p', 'p']) := by
  obtain ⟨p, i, hs, e1, e2⟩ := exampleScanned
  have ht : parse ['_', '_', 't', '/', 'a', '.', 'o'] ∈ i.targets.map (fun t => t.name) := by rw [e2]; simp
  obtain ⟨t, ht, e⟩ := List.mem_map.mp ht
  have := (C70_end_to_end exampleProper exampleRuns exampleSucceeded hs ht).2 (by rw [e]; decide +kernel)
  rw [e, e1] at this
  exact this.1

/-- What is made is left out by the next scan. -/
theorem exampleHidden : Hidden exampleJob exampleKind exampleDisk := by
  refine C71_hidden_filtered (T := ['_', '_', 't']) (world_ok exampleProper) (by decide +kernel) (by decide +kernel) ?_
  intro q hnone hwhy
  rcases hwhy with hk | ⟨p, i, hs, t, ht, rfl⟩
  · have : ∀ q ∈ dirs, exampleFs q = none → ['_', '_', 't'] ∈ q.names := by decide +kernel
    exact this q (by simpa [exampleKind] using hk) hnone
  · have : ∀ x ∈ exampleFiles, ∀ t ∈ x.2.targets, ['_', '_', 't'] ∈ t.name.names := by decide +kernel
    exact this _ ((mem_files exampleProper exampleLoads _ _).mpr ⟨p, hs, rfl⟩) t ht

/-- Everything that there is after the first run. -/
def exampleAll : List Path := dirs ++ [parse ['a', '.', 'c', 'p', 'p'], parse ['_', '_', 't', '/', 'a', '.', 'o']]

/-- Where files are after a run. -/
theorem all_of_run {j : Job} {kind : Path → Bool} {d : Disk} {now : Nat} {force : Bool} {files : List (Path × FileInfo)} {tree : Db.SourceTree Path}
    {s : Build.State Path} (hp : Proper j kind d now) (hr : Runs j force kind d now files tree s) {l : List Path}
    (h1 : ∀ p, (d.fs p).isSome → p ∈ l) (h2 : ∀ p, kind p = true → p ∈ l) (h3 : ∀ x ∈ files, ∀ t ∈ x.2.targets, t.name ∈ l) :
    ∀ p, (s.fs p).isSome → p ∈ l := by
  intro p h
  obtain ⟨hl, _, as, hx⟩ := hr
  rcases (exec_exists hx).2 p h with h | h | ⟨t, ht⟩
  · exact h1 p h
  · exact h2 p h
  · obtain ⟨q, i0, ti, _, _, hq, hti, rfl⟩ := Build.builds_origin (loadable hp hl) hl.2 ht
    obtain ⟨⟨k, i⟩, hx, e⟩ := List.mem_map.mp hq
    injection e with _ e
    subst e
    obtain ⟨t', ht', rfl⟩ := List.mem_map.mp hti
    exact h3 _ hx t' ht'

theorem slash_of {fs : FileSys Path} {l : List Path} (hall : ∀ p, (fs p).isSome → p ∈ l)
    (h : ∀ p ∈ l, p.names ≠ [] → (Path.normal { p with trailing := true } = { p with trailing := true }) →
      ((fs { p with trailing := true }).isSome ↔ Build.isDir fs { p with trailing := false } = true)) :
    ∀ r ns, ns ≠ [] → IsNormal ⟨r, ns, true⟩ → ((fs ⟨r, ns, true⟩).isSome ↔ Build.isDir fs ⟨r, ns, false⟩ = true) := by
  intro r ns hne hn
  constructor
  · intro hs
    exact (h _ (hall _ hs) hne (normal_eq_self hn)).mp hs
  · intro hs
    have : (fs ⟨r, ns, false⟩).isSome := by
      unfold Build.isDir at hs
      split at hs
      · cases hs
      · rename_i st hst; rw [hst]; rfl
    exact (h _ (hall _ this) hne (normal_eq_self hn)).mpr hs

def exampleDisk₂ : Disk := diskOf exampleState.fs exampleAll

theorem exampleAll_all : ∀ p, (exampleState.fs p).isSome → p ∈ exampleAll := by
  refine all_of_run exampleProper exampleRuns ?_ ?_ (by decide +kernel)
  · intro p hp
    change (exampleFs p).isSome = true at hp
    unfold exampleFs at hp
    split at hp
    · rename_i e; rw [e]; decide +kernel
    · split at hp
      · rename_i e; rw [e]; decide +kernel
      · cases hp
  · intro p hk
    have : p ∈ dirs := by simpa [exampleKind] using hk
    exact List.mem_append_left _ this

theorem exampleDisk₂_ok : exampleDisk₂.Ok :=
  diskOf_ok (by decide +kernel) exampleAll_all (slash_of exampleAll_all (by decide +kernel))

def exampleFiles₂ : List (Path × FileInfo) := (scan exampleJob exampleDisk₂ 40).shared.files

theorem exampleLoads₂ : Loads exampleJob exampleDisk₂ exampleFiles₂ (treeOf exampleFiles₂) :=
  loads_of 40 (by decide +kernel) (by decide +kernel) (treeOf_ok (by decide +kernel))

/-- The second run, a minute later. -/
def exampleState₂ : Build.State Path :=
  stateOf (theBuild exampleJob (treeOf exampleFiles₂) false exampleKind) exampleDisk₂.fs 100
    (Build.auto (theBuild exampleJob (treeOf exampleFiles₂) false exampleKind) 60
      (Build.init (theBuild exampleJob (treeOf exampleFiles₂) false exampleKind) exampleDisk₂.fs 100))

theorem exampleRuns₂ : Runs exampleJob false exampleKind exampleDisk₂ 100 exampleFiles₂ (treeOf exampleFiles₂) exampleState₂ :=
  ⟨exampleLoads₂, by decide +kernel, _, stateOf_exec (by decide +kernel)⟩

theorem exampleNeverAlways : ∀ p i, Scanned exampleJob exampleDisk p i → i.policy ≠ .always := by
  intro p i hs
  have : ∀ x ∈ exampleFiles, x.2.policy ≠ .always := by decide +kernel
  exact this _ ((mem_files exampleProper exampleLoads _ _).mpr ⟨p, hs, rfl⟩)

/-- C71 for these two runs. The second one succeeds too. -/
example : exampleFiles₂ = exampleFiles ∧ treeOf exampleFiles₂ = exampleTree :=
  let h := C71_second_run exampleProper exampleRuns exampleSucceeded exampleHidden exampleDisk₂_ok rfl exampleRuns₂
  ⟨h.1, h.2.1⟩

example : ∀ p, exampleKind p = false → exampleState₂.fs p = exampleState.fs p :=
  (C71_nothing exampleProper exampleRuns exampleSucceeded exampleHidden exampleNeverAlways exampleDisk₂_ok rfl exampleRuns₂).2

example : exampleState₂.Succeeded := ⟨2, by decide +kernel⟩

example : Proper exampleJob exampleKind exampleDisk₂ 100 :=
  (C71_again exampleProper exampleRuns exampleHidden exampleDisk₂_ok rfl exampleLoads₂ (by decide +kernel)).1

/-! ## A target directory that is scanned -/

/-- No filters, and targets are put into `out`, inside of the source directory. -/
def nestedJob : Job := { exampleJob with targetDir := parse ['o', 'u', 't'], nameFilter := fun _ => false }

def nestedDirs : List Path := [parse ['.'], parse ['o', 'u', 't'], parse ['o', 'u', 't', '/'], parse ['o', 'u', 't', '/', 'o', 'u', 't']]

def nestedKind (p : Path) : Bool := decide (p ∈ nestedDirs)

def nestedFs : FileSys Path := fun p => if p = parse ['.'] then some ⟨1, true⟩ else none

def nestedDisk : Disk := diskOf nestedFs [parse ['.']]

def nestedFiles : List (Path × FileInfo) := (scan nestedJob nestedDisk 40).shared.files

theorem nestedDisk_ok : nestedDisk.Ok := by
  have hall : ∀ p, (nestedFs p).isSome → p ∈ [parse ['.']] := by
    intro p hp
    unfold nestedFs at hp
    split at hp
    · rename_i e; simp [e]
    · cases hp
  exact diskOf_ok (by decide +kernel) hall (slash_of hall (by decide +kernel))

theorem nestedLoads : Loads nestedJob nestedDisk nestedFiles (treeOf nestedFiles) :=
  loads_of 40 (by decide +kernel) (by decide +kernel) (treeOf_ok (by decide +kernel))

theorem nestedProper : Proper nestedJob nestedKind nestedDisk 10 := by
  have h : ∀ p st, nestedFs p = some st → p = parse ['.'] ∧ st = ⟨1, true⟩ := by
    intro p st h
    unfold nestedFs at h
    split at h
    · rename_i e; injection h with h; exact ⟨e, h.symm⟩
    · cases h
  refine proper_of nestedDisk_ok (by decide +kernel) (by decide +kernel) ?_ ?_ nestedLoads (by decide +kernel) (by decide +kernel) (by decide +kernel)
  · intro p st _ hst
    rw [(h p st hst).2]; decide
  · intro p st hst
    rw [(h p st hst).1, (h p st hst).2]; decide +kernel

def nestedBuild (files : List (Path × FileInfo)) : Build.Build Path := theBuild nestedJob (treeOf files) false nestedKind

def nestedState : Build.State Path :=
  stateOf (nestedBuild nestedFiles) nestedFs 10
    (Build.auto (nestedBuild nestedFiles) 60 (Build.init (nestedBuild nestedFiles) nestedFs 10) ++ [.touchDir (parse ['o', 'u', 't'])])

theorem nestedRuns : Runs nestedJob false nestedKind nestedDisk 10 nestedFiles (treeOf nestedFiles) nestedState :=
  ⟨nestedLoads, by decide +kernel, _, stateOf_exec (by decide +kernel)⟩

def nestedDisk₂ : Disk := diskOf nestedState.fs nestedDirs

theorem nestedDisk₂_ok : nestedDisk₂.Ok := by
  have hall : ∀ p, (nestedState.fs p).isSome → p ∈ nestedDirs := by
    refine all_of_run nestedProper nestedRuns ?_ ?_ (by decide +kernel)
    · intro p hp
      change (nestedFs p).isSome = true at hp
      unfold nestedFs at hp
      split at hp
      · rename_i e; rw [e]; decide +kernel
      · cases hp
    · intro p hk
      simpa [nestedKind] using hk
  exact diskOf_ok (by decide +kernel) hall (slash_of hall (by decide +kernel))

def nestedFiles₂ : List (Path × FileInfo) := (scan nestedJob nestedDisk₂ 40).shared.files

def nestedState₂ : Build.State Path :=
  stateOf (nestedBuild nestedFiles₂) nestedDisk₂.fs 100
    (Build.auto (nestedBuild nestedFiles₂) 60 (Build.init (nestedBuild nestedFiles₂) nestedDisk₂.fs 100))

/-- **C71.** The condition on the filters is needed. Here the target directory is scanned by the next run, which makes a
directory for it inside of it, although nothing has been changed in the meantime. -/
theorem C71_hidden_needed : ∃ j kind d now files tree s d₂ later files₂ tree₂ s₂, Proper j kind d now ∧
    Runs j false kind d now files tree s ∧ s.Succeeded ∧ (∀ p i, Scanned j d p i → i.policy ≠ .always) ∧ d₂.Ok ∧ d₂.fs = s.fs ∧
    Runs j false kind d₂ later files₂ tree₂ s₂ ∧ files₂ ≠ files ∧
    ∃ p : Path, s.fs p = none ∧ (s₂.fs p).isSome ∧ ∃ t, tree₂.graph.Builds t ∧ s₂.Executed t := by
  refine ⟨nestedJob, nestedKind, nestedDisk, 10, nestedFiles, _, nestedState, nestedDisk₂, 100, nestedFiles₂, treeOf nestedFiles₂, nestedState₂,
    nestedProper, nestedRuns, ⟨1, by decide +kernel⟩, ?_, nestedDisk₂_ok, rfl,
    ⟨loads_of 40 (by decide +kernel) (by decide +kernel) (treeOf_ok (by decide +kernel)), by decide +kernel, _, stateOf_exec (by decide +kernel)⟩,
    fun e => absurd (congrArg List.length e) (by decide +kernel), parse ['o', 'u', 't', '/', 'o', 'u', 't'], by decide +kernel, by decide +kernel, ?_⟩
  · intro p i hs
    have : ∀ x ∈ nestedFiles, x.2.policy ≠ .always := by decide +kernel
    exact this _ ((mem_files nestedProper nestedLoads _ _).mpr ⟨p, hs, rfl⟩)
  · refine ⟨2, ?_, by unfold Build.State.Executed; decide +kernel⟩
    exact Db.hasTargets_iff.mp (by decide +kernel)

end Maike.Main
