import Verif.Main.Settings
import Verif.Main.IncrementalExamples

/-!
# Example: options for the compiler are changed

A project with a source file `a.cpp` and a header. Contents are numbers. The recipe writes the sum of what it reads, and of the
number of options in the configuration.
-/

namespace Maike.Main.SettingsExample

open Fs Tree Paths
open Maike.Build (World FileSys Stat Performs)
open IncrementalExample (kind area outside fresh fresh_all fresh_past fresh_kinds disjoint paths stats)
open RequestExample (fsOf fsOf_mem)

/-- Without options, and with one. -/
def options (n : Nat) : Kvs.Members := if n = 0 then [] else [("optimize", .str "yes")]

def cpp (n : Nat) : Source where
  default := { recipe := "cc.py", origin := some .system, config := options n }
  useTargetDeps := false
  found := some [⟨parse ['b', '.', 'h'], .project, []⟩]
  tags := some [("target", .obj [("name", .str "a.o")])]

def loading (n : Nat) : Loading Nat where
  base := { RequestExample.job with loader := fun _ => none }
  read e := if e = ['.', 'c', 'p', 'p'] then some fun _ _ => cpp n
    else if e = ['.', 'h'] then some fun _ _ => IncrementalExample.header
    else none
  tags _ _ _ := none

/-- Adds up what is read, and the number of options. -/
def tools : Tools Nat kind where
  make o c _ := (match o.default with | some k => k.config.length | none => 0) +
    if kind o.src = false then ((o.deps.filter fun x => !kind x.name && !Db.isExternal x.origin).map fun x => c x.name).sum + c o.src + 1 else 0
  pure := by
    intro o c c' p h
    have h1 : kind o.src = false → c o.src = c' o.src := fun hk => h _ ⟨hk, .inl rfl⟩
    have h2 : (o.deps.filter fun x => !kind x.name && !Db.isExternal x.origin).map (fun x => c x.name) =
        (o.deps.filter fun x => !kind x.name && !Db.isExternal x.origin).map (fun x => c' x.name) := by
      refine List.map_congr_left fun x hx => ?_
      obtain ⟨hx, hk⟩ := List.mem_filter.mp hx
      simp only [Bool.and_eq_true, Bool.not_eq_true'] at hk
      exact h _ ⟨hk.1, .inr ⟨x, hx, rfl, hk.2⟩⟩
    by_cases hk : kind o.src = false
    · simp only [if_pos hk, h1 hk, h2]
    · simp only [if_neg hk]

def filesOf (n : Nat) (w : World Path Nat) : List (Path × FileInfo) := (scan ((loading n).job (w.view kind)) (diskOf w.fs paths) 60).shared.files

def buildOf (n : Nat) (force : Bool) (w : World Path Nat) : Build.Build Path :=
  Build.ofGraph (treeOf (filesOf n w)).graph (Db.taskListAll (treeOf (filesOf n w)).graph).2 1 force kind true

/-- A schedule; the directory that is made is known by two names. -/
def actsOf (n : Nat) (force : Bool) (w : World Path Nat) : List (Build.Act Path) :=
  Build.auto (buildOf n force w) 60 (Build.init (buildOf n force w) w.fs w.clock) ++ [.touchDir (parse ['_', '_', 't'])]

def built (n : Nat) (force : Bool) (w : World Path Nat) : Build.State Path × World Path Nat :=
  after tools.recipes (buildOf n force w) (orderOf (filesOf n w) (treeOf (filesOf n w))) (actsOf n force w) w

/-- Only the options differ. -/
theorem onlyOptions (c : Path → Option Nat) : OnlyOptions ((loading 0).job c) ((loading 1).job c) where
  sourceDir := rfl
  targetDir := rfl
  recursive := rfl
  nameFilter := rfl
  dirFilter := rfl
  resolver := rfl
  workers := rfl
  dirCompiler := ⟨rfl, rfl, rfl⟩
  getTags := by
    intro k k' p _
    simp [Loading.job, loading]
  loader := by
    intro e
    simp only [Loading.job, loading]
    by_cases h1 : e = ['.', 'c', 'p', 'p']
    · simp only [h1, if_true, Option.map_some]
      intro p
      cases c p.normal <;> exact ⟨⟨rfl, rfl, rfl⟩, rfl, rfl, rfl⟩
    · by_cases h2 : e = ['.', 'h']
      · simp only [h2]
        intro p
        cases c p.normal <;> exact ⟨⟨rfl, rfl, rfl⟩, rfl, rfl, rfl⟩
      · simp [h1, h2]

/-- The first build, without options. -/
def w₁ : World Path Nat := fresh 0 5

theorem opens₁ : Opens (loading 0) kind area outside w₁ (diskOf w₁.fs paths).names (filesOf 0 w₁) (treeOf (filesOf 0 w₁)) :=
  opens_of 60 rfl (fresh_all 0 5) (by decide +kernel) (by decide +kernel) (by decide +kernel) (by decide +kernel) (by decide +kernel) (by decide +kernel)
    (by decide +kernel) (by decide +kernel) (fresh_past 0 5) (fresh_kinds 0 5) (by decide +kernel) (by decide +kernel) (by decide +kernel) (by decide +kernel)
    (by decide +kernel) (by decide +kernel) disjoint (by decide +kernel) (by decide +kernel)

theorem performs₁ : Performs tools.recipes (buildOf 0 false w₁) (orderOf (filesOf 0 w₁) (treeOf (filesOf 0 w₁))) w₁ (built 0 false w₁).1 (built 0 false w₁).2 :=
  after_performs (by decide +kernel)

theorem life₁ : Life (loading 0) kind area outside tools w₁ := by
  refine .start (fun p hp _ => ?_) (fresh_past 0 5) (fresh_kinds 0 5)
  cases hf : w₁.fs p with
  | none => rfl
  | some st =>
    have : ∀ x ∈ stats, area x.1 = false := by decide +kernel
    rw [this _ (fsOf_mem hf)] at hp; cases hp

/-- What the first build has left behind. -/
def w₂ : World Path Nat := (built 0 false w₁).2

theorem life₂ : Life (loading 0) kind area outside tools w₂ := .build life₁ opens₁ (fun _ _ => rfl) (.inl rfl) performs₁

theorem kept₂ : Build.Kept (project (loading 0) kind area outside tools) w₂ := Build.past_kept (life_past life₂)

theorem all₂ : ∀ p, (w₂.fs p).isSome → p ∈ paths := by
  obtain ⟨as, hx, hfs, _⟩ := performs₁
  have hfs : w₂.fs = (built 0 false w₁).1.fs := hfs
  rw [hfs]
  refine all_of_run (force := false) opens₁.proper ⟨opens₁.loads, opens₁.acyclic, as, Build.execContents_exec hx⟩ (fresh_all 0 5) (fun p hk => ?_) (by decide +kernel)
  have : p ∈ RequestExample.dirs := by simpa [kind, IncrementalExample.kind, RequestExample.kind] using hk
  exact List.mem_append_left _ this

/-- The next run, with an option. -/
theorem opens₂ : Opens (loading 1) kind area outside w₂ (diskOf w₂.fs paths).names (filesOf 1 w₂) (treeOf (filesOf 1 w₂)) :=
  opens_of 60 rfl all₂ (by decide +kernel) (by decide +kernel) (by decide +kernel) (by decide +kernel) (by decide +kernel) (by decide +kernel)
    (by decide +kernel) (by decide +kernel) kept₂.past kept₂.kinds (by decide +kernel) (by decide +kernel) (by decide +kernel) (by decide +kernel)
    (by decide +kernel) (by decide +kernel) disjoint (by decide +kernel) (by decide +kernel)

theorem performs₂ (force : Bool) :
    Performs tools.recipes (buildOf 1 force w₂) (orderOf (filesOf 1 w₂) (treeOf (filesOf 1 w₂))) w₂ (built 1 force w₂).1 (built 1 force w₂).2 := by
  cases force <;> exact after_performs (by decide +kernel)

/-- **C91.** A project has been built without options. Then there is a run with a configuration that has got an option for the recipe. It succeeds, but the target is
not what the recipe computes with this option. -/
theorem C91_false : ∃ (L L' : Loading Nat) (w w' : World Path Nat) (names : Path → List Str × Option Str) (files : List (Path × FileInfo)) (tree : Db.SourceTree Path)
    (s : Build.State Path) (u : Nat) (p : Path), Life L kind area outside tools w ∧ (∀ c, OnlyOptions (L.job c) (L'.job c)) ∧
    Opens L' kind area outside w names files tree ∧
    Performs tools.recipes (Build.ofGraph tree.graph (Db.taskListAll tree.graph).2 1 false kind true) (orderOf files tree) w s w' ∧ s.Succeeded ∧
    u ∈ (Db.taskListAll tree.graph).2 ∧ p ∈ (orderOf files tree u).targets ∧ kind p = false ∧ w'.content p ≠ tools.make (orderOf files tree u) w'.content p :=
  ⟨loading 0, loading 1, w₂, _, _, _, _, (built 1 false w₂).1, 3, parse ['_', '_', 't', '/', 'a', '.', 'o'], life₂, onlyOptions, opens₂, performs₂ false,
    ⟨2, by decide +kernel⟩, by decide +kernel, by decide +kernel, by decide +kernel, by decide +kernel⟩

/-- What the target contains after the first build, after another one with the option, and after a forced one. -/
example : (built 0 false w₁).2.content (parse ['_', '_', 't', '/', 'a', '.', 'o']) = 6 ∧ (built 1 false w₂).2.content (parse ['_', '_', 't', '/', 'a', '.', 'o']) = 6 ∧
    (built 1 true w₂).2.content (parse ['_', '_', 't', '/', 'a', '.', 'o']) = 7 := by decide +kernel

/-- The hypotheses of `C91_current_partial` are met by the forced build. -/
example : ∃ p i t o, Scanned ((loading 1).job (w₂.view kind)) ⟨w₂.fs, (diskOf w₂.fs paths).names⟩ p i ∧ t ∈ i.targets ∧ t.name = parse ['_', '_', 't', '/', 'a', '.', 'o'] ∧
    o.default = i.default ∧ (built 1 true w₂).2.content t.name = tools.make o (built 1 true w₂).2.content t.name := by
  have h : ∃ x ∈ filesOf 1 w₂, (treeOf (filesOf 1 w₂)).graph.files[3]?.map Prod.fst = some x.1 ∧ ∃ t ∈ x.2.targets, t.name = parse ['_', '_', 't', '/', 'a', '.', 'o'] := by
    decide +kernel
  obtain ⟨⟨k, i⟩, hx, h1, t, ht, e⟩ := h
  obtain ⟨p, hs, rfl⟩ := (mem_files opens₂.proper opens₂.loads _ _).mp hx
  have hup : (treeOf (filesOf 1 w₂)).graph.PathOf 3 p.normal := by
    obtain ⟨⟨y, z⟩, hy, e⟩ := Option.map_eq_some_iff.mp h1
    have e : y = p.normal := e
    exact ⟨z, by rw [hy, e]⟩
  obtain ⟨_, o, _, h2, _, _, _, _, h3⟩ := (C91_current_partial kept₂.past kept₂.kinds opens₂ (.inl rfl) (performs₂ true) ⟨2, by decide +kernel⟩ hs hup (by decide +kernel)).2 t ht
    (by rw [e]; decide +kernel) (.inl rfl)
  exact ⟨p, i, t, o, hs, ht, e, h2, h3⟩

/-! ## Nothing is executed -/

/-- The job of `RunExamples.lean`, with an option. -/
def job' : Job := { exampleJob with
  loader := fun e => if e = ['.', 'c', 'p', 'p'] then some fun _ => { cppSource with default := { cppSource.default with config := options 1 } } else none }

theorem onlyOptions' : OnlyOptions exampleJob job' where
  sourceDir := rfl
  targetDir := rfl
  recursive := rfl
  nameFilter := rfl
  dirFilter := rfl
  resolver := rfl
  workers := rfl
  dirCompiler := ⟨rfl, rfl, rfl⟩
  getTags := fun _ _ _ _ => rfl
  loader := by
    intro e
    by_cases h1 : e = ['.', 'c', 'p', 'p']
    · simp only [exampleJob, job', if_pos h1]
      exact fun p => ⟨⟨rfl, rfl, rfl⟩, by trivial, by trivial, by trivial⟩
    · simp only [exampleJob, job', if_neg h1]

def files' : List (Path × FileInfo) := (scan job' exampleDisk₂ 40).shared.files

def state' : Build.State Path :=
  stateOf (theBuild job' (treeOf files') false exampleKind) exampleDisk₂.fs 100 (exampleActs (treeOf files') exampleDisk₂.fs 100)

theorem runs' : Runs job' false exampleKind exampleDisk₂ 100 files' (treeOf files') state' :=
  ⟨loads_of 40 (by decide +kernel) (by decide +kernel) (treeOf_ok (by decide +kernel)), by decide +kernel, _, stateOf_exec (by decide +kernel)⟩

/-- The hypotheses of `C91_ignored` are met. The option is passed to the recipe if it is executed, and the run succeeds. -/
example : (∀ t, (treeOf files').graph.Builds t → ¬ state'.Executed t) ∧ ∀ p, exampleKind p = false → state'.fs p = exampleState.fs p :=
  C91_ignored onlyOptions' exampleProper exampleRuns exampleSucceeded exampleHidden exampleNeverAlways exampleDisk₂_ok rfl runs'

example : state'.Succeeded ∧ ∃ x ∈ files', (x.2.default.map fun k => k.config.length) = some 1 := ⟨⟨2, by decide +kernel⟩, by decide +kernel⟩

end Maike.Main.SettingsExample
