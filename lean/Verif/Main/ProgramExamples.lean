import Verif.Main.Program

/-!
# Examples of runs of the program

A project of two files that is built with the default configuration, and what follows from the theorems in `Main/Program.lean` for it.
-/

namespace Maike.Main

open Fs Tree Paths Kvs

namespace ProgramExample

/-- The list of recipes. -/
def recipes : List Str :=
  [['m', 'a', 'k', 'e', '_', 'd', 'i', 'r', 'e', 'c', 't', 'o', 'r', 'y', '.', 'p', 'y'], ['c', 'x', 'x', '_', 'l', 'i', 'n', 'k', 'e', 'r', '.', 'p', 'y'],
   ['c', 'x', 'x', '_', 'c', 'o', 'm', 'p', 'i', 'l', 'e', 'r', '.', 'p', 'y'], ['c', 'o', 'p', 'y', '_', 'f', 'i', 'l', 'e', '.', 'p', 'y'],
   ['m', 'a', 'k', 'e', '_', 'l', 'i', 'b', '.', 'p', 'y'], ['s', 'a', 's', 's', '2', 'c', 's', 's', '.', 'p', 'y']]

def systemDir : Path := parse ['/', 'r']

/-- All files: the project, and the recipes that are installed. -/
def list : List (Path × Build.Stat) :=
  [(parse ['.'], ⟨1, true⟩), (parse ['a', '.', 'c', 'p', 'p'], ⟨2, false⟩), (parse ['h', '.', 'h', 'p', 'p'], ⟨3, false⟩),
   (parse ['/'], ⟨1, true⟩), (parse ['/', 'r'], ⟨1, true⟩), (parse ['/', 'r', '/'], ⟨1, true⟩)] ++
    recipes.map fun n => (systemDir / ⟨false, [n], false⟩, ⟨1, false⟩)

def fs : Build.FileSys Path := fun p => list.lookup p

def disk : Disk := diskOf fs (list.map Prod.fst)

/-- The filters that are used by default. -/
def search (r : String) (s : Str) : Bool :=
  if r.toList = ['^', '_', '_'] then ['_', '_'].isPrefixOf s else if r.toList = ['^', '\\', '.'] then ['.'].isPrefixOf s else false

def machine : Machine where
  outside := { SourceExample.outside with search }
  valid _ := true
  systemDir := systemDir
  configure _ c := some c
  getTags _ _ := none
  message _ := []
  nprocs := 4

def args : List Str := [['-', '-', 'c', 'o', 'n', 'f', 'i', 'g', '-', 'd', 'e', 'f', 'a', 'u', 'l', 't']]

def settings : Settings := match plan machine disk args with
  | .run s => s
  | _ => ⟨exampleJob, [], .all, false, false⟩

def isRun : Plan → Bool
  | .run _ => true
  | _ => false

theorem planned : plan machine disk args = .run settings := by
  have h : isRun (plan machine disk args) = true := by decide +kernel
  unfold settings
  cases hp : plan machine disk args with
  | run s => rfl
  | print | abort => rw [hp] at h; cases h

def files : List (Path × FileInfo) := (scan settings.job disk 60).shared.files

def kind (p : Path) : Bool :=
  decide (p ∈ [parse ['.'], parse ['/'], parse ['/', 'r'], parse ['/', 'r', '/'], settings.job.targetDir, settings.job.targetDir / Path.empty])

theorem fs_all (p : Path) (h : (fs p).isSome) : p ∈ list.map Prod.fst := by
  obtain ⟨st, hst⟩ := Option.isSome_iff_exists.mp h
  obtain ⟨l1, l2, e, _⟩ := List.lookup_eq_some_iff.mp hst
  rw [e]; simp

theorem disk_ok : disk.Ok := diskOf_ok (by decide +kernel) fs_all (slash_of fs_all (by decide +kernel))

theorem loads : Loads settings.job disk files (treeOf files) :=
  loads_of 60 (by decide +kernel) (by decide +kernel) (treeOf_ok (by decide +kernel))

theorem proper : Proper settings.job kind disk 10 := by
  have h : ∀ p ∈ list.map Prod.fst, ∀ st ∈ fs p, st.mtime < 10 ∧ st.dir = kind p := by decide +kernel
  refine proper_of disk_ok (by decide +kernel) (by decide +kernel) ?_ ?_ loads (by decide +kernel) (by decide +kernel) (by decide +kernel)
  · intro p st _ hst
    exact (h p (fs_all p (by rw [show fs p = some st from hst]; rfl)) st hst).1
  · intro p st hst
    exact (h p (fs_all p (by rw [show fs p = some st from hst]; rfl)) st hst).2

def build : Build.Build Path := settings.build (treeOf files) kind

def state : Build.State Path :=
  stateOf build fs 10 (Build.auto build 60 (Build.init build fs 10) ++ [.touchDir settings.job.targetDir])

theorem ends : Ends machine kind disk 10 args 0 .nothing state.fs :=
  .built planned loads (by decide +kernel) (by decide +kernel) (as := Build.auto build 60 (Build.init build fs 10) ++ [.touchDir settings.job.targetDir])
    (stateOf_exec (by decide +kernel)) (show state.sched.pc = .returned 2 by decide +kernel)

/-- An option that is not on this command line. -/
theorem not_given {name : String} {index : Nat} (hi : HasIndex name index)
    (h : ((Cli.collect Cli.maikeOptions args).map fun c => c.isSet index) = some false) : ¬ Given args name := by
  obtain ⟨c, hc, e⟩ := Option.map_eq_some_iff.mp h
  rw [← given_iff hc hi, e]; simp

/-- The C++ file, as it is passed to the loader. -/
def source : Path := settings.job.sourceDir.normal / ⟨false, [['a', '.', 'c', 'p', 'p']], false⟩

def info : FileInfo := (Tree.load (settings.job.env disk) source settings.job.sourceDir settings.job.targetDir).getD {}

theorem scanned : Scanned settings.job disk source info := by
  have some_of : ∀ p, (Tree.load (settings.job.env disk) p settings.job.sourceDir settings.job.targetDir).isSome = true →
      Tree.load (settings.job.env disk) p settings.job.sourceDir settings.job.targetDir =
        some ((Tree.load (settings.job.env disk) p settings.job.sourceDir settings.job.targetDir).getD {}) := by
    intro p h
    obtain ⟨i, hi⟩ := Option.isSome_iff_exists.mp h
    rw [hi]; rfl
  refine ⟨?_, ?_, some_of _ (by decide +kernel)⟩
  · refine .entry (p := settings.job.sourceDir) .root ⟨.inl rfl, ⟨_, world_load.mpr (some_of _ (by decide +kernel))⟩, ?_⟩ (by decide +kernel)
    show Except.ok _ = _
    congr 1
    decide +kernel
  · refine .inr ⟨.inr ?_, by decide +kernel, by decide +kernel⟩
    show Except.ok _ = Except.ok _
    congr 1
    decide +kernel

/-- `C76_success` for this run: the object file is newer than the source file. -/
example : Build.StrictlyNewer state.fs (settings.job.targetDir / parse ['a', '.', 'o']) (parse ['a', '.', 'c', 'p', 'p']) := by
  have h : info.targets.map (fun t => t.name) = [settings.job.targetDir / parse ['a', '.', 'o']] := by decide +kernel
  have ht : settings.job.targetDir / parse ['a', '.', 'o'] ∈ info.targets.map (fun t => t.name) := by rw [h]; simp
  obtain ⟨t, ht, e⟩ := List.mem_map.mp ht
  rw [← e]
  have := ((C76_success planned proper (not_given hasIndex_list (by decide +kernel)) (not_given hasIndex_graph (by decide +kernel))
    (not_given hasIndex_targets (by decide +kernel)) (not_given hasIndex_dry (by decide +kernel)) ends scanned ht).2 (by rw [e]; decide +kernel)).1
  rwa [show source.normal = parse ['a', '.', 'c', 'p', 'p'] from by decide +kernel] at this

/-- `C76_twice` for this run: nothing is rebuilt. What has been made is hidden by its name. -/
theorem hidden : Hidden settings.job kind disk := by
  refine C71_hidden_filtered (T := ['_', '_', 't', 'a', 'r', 'g', 'e', 't', 's']) (world_ok proper) (by decide +kernel) (by decide +kernel) ?_
  intro q hnone hwhy
  rcases hwhy with hk | ⟨p, i, hs, t, ht, rfl⟩
  · have : ∀ q ∈ [parse ['.'], parse ['/'], parse ['/', 'r'], parse ['/', 'r', '/'], settings.job.targetDir, settings.job.targetDir / Path.empty],
        fs q = none → ['_', '_', 't', 'a', 'r', 'g', 'e', 't', 's'] ∈ q.names := by decide +kernel
    exact this q (by simpa [kind] using hk) hnone
  · have : ∀ x ∈ files, ∀ t ∈ x.2.targets, ['_', '_', 't', 'a', 'r', 'g', 'e', 't', 's'] ∈ t.name.names := by decide +kernel
    exact this _ ((mem_files proper loads _ _).mpr ⟨p, hs, rfl⟩) t ht

theorem not_always (p : Path) (i : FileInfo) (h : Scanned settings.job disk p i) : i.policy ≠ .always := by
  have : ∀ x ∈ files, x.2.policy ≠ .always := by decide +kernel
  exact this _ ((mem_files proper loads _ _).mpr ⟨p, h, rfl⟩)

/-- Other command lines. -/
def query : List Str := [['-', '-', 'c', 'o', 'n', 'f', 'i', 'g', '-', 'd', 'e', 'f', 'a', 'u', 'l', 't'], ['-', '-', 'l', 'i', 's', 't', '-', 't']]

def querySettings : Settings := match plan machine disk query with
  | .run s => s
  | _ => ⟨exampleJob, [], .all, false, false⟩

theorem queryPlanned : plan machine disk query = .run querySettings := by
  have h : isRun (plan machine disk query) = true := by decide +kernel
  unfold querySettings
  cases hp : plan machine disk query with
  | run s => rfl
  | print | abort => rw [hp] at h; cases h

def queryFiles : List (Path × FileInfo) := (scan querySettings.job disk 60).shared.files

theorem queryLoads : Loads querySettings.job disk queryFiles (treeOf queryFiles) :=
  loads_of 60 (by decide +kernel) (by decide +kernel) (treeOf_ok (by decide +kernel))

/-- A query, with an abbreviated option. -/
theorem queryEnds : Ends machine kind disk 10 query 0 (.lines (listing querySettings.job.targetDir (treeOf queryFiles).targets)) fs :=
  .listed queryPlanned queryLoads (by decide +kernel)

theorem queryGiven : Given query "--list-targets" := by
  have h : ((Cli.collect Cli.maikeOptions query).map fun c => c.isSet 6) = some true := by decide +kernel
  obtain ⟨c, hc, e⟩ := Option.map_eq_some_iff.mp h
  exact (given_iff hc hasIndex_list).mp e

/-- The hypotheses of `C76_deterministic` are met. -/
example {status : Int} {out : Output} {fs' : Build.FileSys Path} (h : Ends machine kind disk 20 query status out fs') : status = 0 :=
  (C76_deterministic disk_ok (.inl queryGiven) queryEnds h).1

/-- The hypotheses of `C76_rejected` are met: there is no such option. -/
example (status : Int) (out : Output) (fs' : Build.FileSys Path) :
    Ends machine kind disk 10 [['-', '-', 'f', 'o', 'o']] status out fs' ↔ status = -1 ∧ out = .nothing ∧ fs' = fs := by
  refine C76_rejected (str := ['-', '-', 'f', 'o', 'o']) (by simp) (fun ha => ?_) status out fs'
  have h : (Cli.collect Cli.maikeOptions [['-', '-', 'f', 'o', 'o']]).isSome = false := by decide +kernel
  have := (Cli.C51_accepted _ Cli.maikeOptions_proper [['-', '-', 'f', 'o', 'o']]).mpr (by
    intro str hs hne
    simp only [List.mem_singleton] at hs
    subst hs
    exact ha hne)
  rw [this] at h; cases h

/-- The hypotheses of `C76_info` and `C76_config` are met. -/
example : ∀ str ∈ args, Acceptable str :=
  (Cli.C51_accepted _ Cli.maikeOptions_proper args).mp (by decide +kernel)

end ProgramExample

end Maike.Main
