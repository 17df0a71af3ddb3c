import Verif.Main.EndsExamples
import Verif.Main.SerialExamples
import Verif.Main.Threads

/-!
# Examples for C107: the program is run by threads
-/

namespace Maike.Main

open Fs Tree Paths
open Maike.Build.Threaded (Reaches plain TState)

namespace ProgramExample

/-- The project of `ProgramExamples.lean` is built by threads. -/
theorem threadEnds : ThreadEnds machine kind disk 10 args 0 .nothing state.fs := (C107_same disk_ok finite _ _ _).mpr ends

/-- `C107_success` for this run: the object file is newer than the source file. -/
example : Build.StrictlyNewer state.fs (settings.job.targetDir / parse ['a', '.', 'o']) (parse ['a', '.', 'c', 'p', 'p']) := by
  have h : info.targets.map (fun t => t.name) = [settings.job.targetDir / parse ['a', '.', 'o']] := by decide +kernel
  have ht : settings.job.targetDir / parse ['a', '.', 'o'] ∈ info.targets.map (fun t => t.name) := by rw [h]; simp
  obtain ⟨t, ht, e⟩ := List.mem_map.mp ht
  rw [← e]
  have := ((C107_success planned proper (not_given hasIndex_list (by decide +kernel)) (not_given hasIndex_graph (by decide +kernel))
    (not_given hasIndex_targets (by decide +kernel)) (not_given hasIndex_dry (by decide +kernel)) threadEnds scanned ht).2 (by rw [e]; decide +kernel)).1
  rwa [show source.normal = parse ['a', '.', 'c', 'p', 'p'] from by decide +kernel] at this

theorem threadLoads : ThreadLoads settings.job disk files (treeOf files) := by
  obtain ⟨⟨n, t, h1, h2⟩, h3⟩ := loads
  exact ⟨threads_scan disk_ok finite planned h1 h2, h3⟩

/-- There is a run in which the threads are in the middle of the build; `C107_progress` says that they can go on, and `C107_all` that the program can end with zero. -/
example : ∃ s : TState (plain build), Reaches (plain build) build.job (Build.init build fs 10) s ∧ (∃ (k t : Nat), s.th.wpcs[k]? = some (TaskList.Threads.WPc.body t)) ∧ ¬ s.th.Ended ∧
    ((∃ a s', a.isSpurious = false ∧ Build.Threaded.TStep (plain build) build.job (some a) s s') ∨ ∃ s', Build.Threaded.TStep (plain build) build.job none s s') ∧
    ∃ as s', Build.Threaded.TExec (plain build) build.job as s s' ∧ s'.th.Ended ∧ ThreadEnds machine kind disk 10 args 0 .nothing s'.env.fs := by
  have hx : Build.exec build ((Build.auto build 60 (Build.init build fs 10)).take 6) (Build.init build fs 10) = some early := stateOf_exec (by decide +kernel)
  have hh : early.sched.hist.all (fun | .finish _ _ => false | _ => true) = true := by decide +kernel
  have hrun : early.sched.running.any (fun x => x.2 == .body) = true := by decide +kernel
  obtain ⟨s, h1, h2, _⟩ := (Build.Threaded.steps_plain hx).threads (Build.Threaded.plain_lawful build) (Build.Threaded.plain_separate build) rfl
  have hnone : ∀ t o, .finish t o ∉ s.th.hist := fun t o h => by
    rw [← h2.rel.hist] at h
    have := List.all_eq_true.mp hh _ h
    cases this
  obtain ⟨⟨t, st⟩, hm, hst⟩ := List.any_eq_true.mp hrun
  have hst : st = .body := by simpa using hst
  subst hst
  obtain ⟨l₁, l₂, e⟩ := List.append_of_mem hm
  obtain ⟨k, p, hk, rfl, _⟩ := h2.worker e
  have hne : ¬ s.th.Ended := by
    have : (match early.sched.pc with | .returned _ => true | .rethrown _ => true | _ => false) = false := by decide +kernel
    have hmain := h2.main
    rintro (⟨n, hn⟩ | ⟨n, hn⟩) <;> rw [hn] at hmain <;> change _ = TaskList.Threads.canonPc early.sched.pc at hmain <;> revert this hmain <;>
      cases early.sched.pc <;> simp [TaskList.Threads.canonPc]
  refine ⟨s, h1, ⟨k, t, hk⟩, hne, ?_, ?_⟩
  rotate_left
  · obtain ⟨as, s', status, g1, _, g2, g3, g4⟩ := C107_all disk_ok planned (by decide +kernel) threadLoads (by decide +kernel) (by decide +kernel) h1 (fun t => hnone t _)
    cases g4 fun t => hnone t _
    exact ⟨as, s', g1, g2, g3⟩
  have htop : build.job.Topological := all_topological (kind := kind) disk_ok planned loads (by decide +kernel)
  rcases Build.Threaded.C107_progress build htop (by decide +kernel) h1 (fun t => hnone t _) with h | h | ⟨k, t, s', _, _, h, _⟩
  · exact absurd h hne
  · exact .inl h
  · exact .inr ⟨s', h⟩

end ProgramExample

namespace SerialExample

open CompiledExample ProcessesExample

/-- The hypotheses of `C107_workers` are met: with one worker and with three workers, the same is in the object file. -/
example : ∃ c₁ c₂ : Path → Nat, ThreadMakes job true kind tools eff recipe info .plainText disk content 10 files tree 1 c₁ ∧
    ThreadMakes job true kind tools eff recipe info .plainText disk content 10 files tree 3 c₂ ∧ c₁ aObj = 42 ∧ c₁ = c₂ := by
  have key : ∀ {n : Nat} {s : Build.CState Path Nat}, RunsOn job true kind tools eff recipe info .plainText disk content 10 files tree n s → s.base.base.Succeeded →
      ThreadMakes job true kind tools eff recipe info .plainText disk content 10 files tree n s.content := by
    rintro n s ⟨h1, h2, as, h3⟩ ⟨k, h4⟩
    obtain ⟨st, g1, g2, _, _, _, g3, _⟩ := Build.Threaded.C107_contents_realised _ tools _ eff h3
    exact ⟨h1, h2, st, k, g1, g3 k h4, g2⟩
  obtain ⟨s, h1, h2, h3⟩ := possible (force := true) (n := 1) (by decide +kernel)
  obtain ⟨s', h1', h2', _⟩ := possible (force := true) (n := 3) (by decide +kernel)
  exact ⟨_, _, key h1 h2, key h1' h2', h3, C107_workers proper uses known (.inl rfl) (key h1 h2) (key h1' h2')⟩

end SerialExample

end Maike.Main
