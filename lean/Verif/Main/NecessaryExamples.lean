import Verif.Main.Necessary
import Verif.Main.IncrementalExamples

/-! # Example: which commands are executed after an edit -/

namespace Maike.Build

/-- A directory, 1, that is made from a directory, 0. -/
def oneDir : Build Nat where
  job := ⟨[0], fun _ => [], 1⟩
  task := fun _ => { src := 0, targets := [1], deps := [] }
  force := false
  kind := fun _ => true
  fine := true

def oneDirFs : FileSys Nat := fun p => if p = 0 then some ⟨1, true⟩ else none

/-- **C86.** That directories exist is needed for the second half of C86: here the directory is made by somebody else before the command has had a chance to do so, and the build succeeds
without executing it. -/
theorem C86_dirs_needed : ∃ (b : Build Nat) (fs : FileSys Nat) (now : Nat) (as : List (Act Nat)) (s : State Nat), b.Sane ∧ b.fine = true ∧ b.dryrun = false ∧ b.force = false ∧
    Plausible b fs now ∧ exec b as (init b fs now) = some s ∧ s.Succeeded ∧ 0 ∈ b.job.tasks ∧ Necessary b fs 0 ∧ ¬ s.Executed 0 := by
  have hx : (exec oneDir ([.touchDir 1, .sched .main, .sched .main, .sched .take, .check 0] ++ [.sched (.work 0 .success), .sched (.work 0 .success), .sched (.work 0 .success),
      .sched .main, .sched .main, .sched .main]) (init oneDir oneDirFs 10)).map (fun s => (s.sched.pc, s.decision 0)) = some (.returned 1, some .skip) := by decide +kernel
  cases h : exec oneDir ([.touchDir 1, .sched .main, .sched .main, .sched .take, .check 0] ++ [.sched (.work 0 .success), .sched (.work 0 .success), .sched (.work 0 .success),
      .sched .main, .sched .main, .sched .main]) (init oneDir oneDirFs 10) with
  | none => rw [h] at hx; cases hx
  | some s =>
    rw [h] at hx
    simp only [Option.map_some, Option.some.injEq, Prod.mk.injEq] at hx
    refine ⟨oneDir, oneDirFs, 10, _, s, ?_, rfl, rfl, rfl, ?_, h, ⟨1, hx.1⟩, by decide, .missing (p := 1) (by decide) (by rintro ⟨_, h⟩; cases h), ?_⟩
    · refine ⟨?_, ?_, ?_, ?_, ?_⟩
      · exact ⟨by decide, fun _ _ _ _ d h => by cases h⟩
      · intro t ht u hu p _ _ h; cases h
      · intro t _ q _ h; cases h
      · intro t _ u _ v _ h; cases h
      · intro _ _ _ _ _; rfl
    · refine ⟨fun p st h => (by cases h), fun p st h => ?_⟩
      unfold oneDirFs at h
      split at h
      · injection h with h; subst h; rfl
      · cases h
    · rw [State.Executed, hx.2]; simp

end Maike.Build

namespace Maike.Main.IncrementalExample

open Fs Tree Paths
open Maike.Build (World FileSys Stat Performs)

/-- Where the source file is in the graph, and what has been found. -/
theorem node₂ : (treeOf (filesOf w₂)).graph.PathOf 3 (parse ['a', '.', 'c', 'p', 'p']) ∧ 3 ∈ (Db.taskListAll (treeOf (filesOf w₂)).graph).2 := by
  refine ⟨?_, by decide +kernel⟩
  have h : ((treeOf (filesOf w₂)).graph.files[3]?).map Prod.fst = some (parse ['a', '.', 'c', 'p', 'p']) := by decide +kernel
  cases hf : (treeOf (filesOf w₂)).graph.files[3]? with
  | none => rw [hf] at h; cases h
  | some x =>
    obtain ⟨a, b⟩ := x
    rw [hf] at h
    simp only [Option.map_some, Option.some.injEq] at h
    subst h
    exact ⟨b, hf⟩

/-- The hypotheses of `C86_run_exactly` and of `C86_after_changes` are met: after the edits the command of `a.cpp` is executed, and the reason is that one of the files has been
changed. -/
example : Outdated kind outside (loading.job (w₂.view kind)) ⟨w₂.fs, (diskOf w₂.fs paths).names⟩ w₂.fs (parse ['a', '.', 'c', 'p', 'p']) ∧
    ∃ a k, Scanned (loading.job (w₂.view kind)) ⟨w₂.fs, (diskOf w₂.fs paths).names⟩ a k ∧
      (a.normal = parse ['a', '.', 'c', 'p', 'p'] ∨
        Requires (loading.job (w₂.view kind)) ⟨w₂.fs, (diskOf w₂.fs paths).names⟩ (parse ['a', '.', 'c', 'p', 'p']) a.normal) ∧
      Reason kind outside (loading.job (w₂.view kind)) ⟨w₂.fs, (diskOf w₂.fs paths).names⟩ w₁ (built w₁).2 w₂ a.normal k := by
  obtain ⟨p, i, hs, e, t, ht, _⟩ := scanned
  obtain ⟨hn, hu⟩ := node₂
  have hex : (built w₂).1.Executed 3 := by unfold Build.State.Executed; decide +kernel
  rw [← e] at hn ⊢
  refine ⟨(C86_run_exactly opens₂ (.inl rfl) kept₂.kinds kept₂.past ?_ performs₂ ⟨2, by decide +kernel⟩ hs hn hu).mp hex,
    C86_after_changes (life_fresh 0 5) opens₁ (fun _ _ => rfl) performs₁ ⟨2, by decide +kernel⟩ kept₂.kinds opens₂ (fun _ _ => rfl) (.inl rfl) performs₂ hs hn hu hex⟩
  intro p i hs t ht hk
  have : ∀ x ∈ filesOf w₂, ∀ t ∈ x.2.targets, kind t.name = true → (w₂.fs t.name).isSome := by decide +kernel
  exact this _ ((mem_files opens₂.proper opens₂.loads _ _).mpr ⟨p, hs, rfl⟩) t ht hk

end Maike.Main.IncrementalExample
