import Verif.Main.Ends
import Verif.Main.ProgramExamples

/-!
# Examples for C87: a run that is interrupted in the middle, and one that never ends
-/

namespace Maike.Main

open Fs Tree Paths

namespace ProgramExample

theorem finite : disk.Finite := finite_of_list fs_all

/-- A state in the middle of the build: the first task is being executed. -/
def early : Build.State Path := stateOf build fs 10 ((Build.auto build 60 (Build.init build fs 10)).take 6)

/-- `C87_all` for this state: it is not an end, and from here the program can end with status 0. -/
example : ¬ early.sched.Ended ∧ early.sched.running ≠ [] ∧ ∃ fs', Ends machine kind disk 10 args 0 .nothing fs' := by
  have hx : Build.exec build ((Build.auto build 60 (Build.init build fs 10)).take 6) (Build.init build fs 10) = some early := stateOf_exec (by decide +kernel)
  have hh : early.sched.hist.all (fun | .finish _ _ => false | _ => true) = true := by decide +kernel
  have hnone : ∀ t o, .finish t o ∉ early.sched.hist := fun t o h => by
    have := List.all_eq_true.mp hh _ h
    cases this
  refine ⟨?_, by decide +kernel, ?_⟩
  · have : (match early.sched.pc with | .returned _ => true | .rethrown _ => true | _ => false) = false := by decide +kernel
    rintro (⟨n, hn⟩ | ⟨n, hn⟩) <;> rw [hn] at this <;> cases this
  · obtain ⟨_, as', st', status, _, _, he, hs⟩ := (C87_all (kind := kind) (now := 10) disk_ok planned (by decide +kernel) loads (by decide +kernel)
      (by decide +kernel)).2 _ _ hx (fun t => hnone t _)
    rw [hs fun t => hnone t _] at he
    exact ⟨_, he⟩

/-- What happens when the recipe for directories cannot be launched. -/
def noLaunch : List (Build.Act Path) :=
  [.sched .main, .sched .main, .sched .main, .sched .main, .sched .take, .check 0] ++ List.replicate 4 (.sched (.work 0 .threw)) ++
    List.replicate 8 (.sched .main)

def hanging : Build.State Path := stateOf build fs 10 noLaunch

end ProgramExample

/-- Once the threads are stuck, they remain so. -/
theorem stuck_forever {b : Build.Build Path} {as : List (Build.Act Path)} {s s' : Build.State Path} (h : TaskList.Stuck b.job s.sched)
    (hx : Build.exec b as s = some s') : s'.sched = s.sched := by
  refine Build.exec_induction (Q := fun s' => s'.sched = s.sched) ?_ rfl hx
  intro s1 a s2 ih hs
  rcases Build.step_cases hs with ⟨a', _, rfl, _, h', rfl⟩ | ⟨_, _, rfl, _, _, rfl⟩ | ⟨_, _, _, rfl, _, _, _, rfl⟩ | ⟨_, rfl, _, rfl⟩ | ⟨rfl, rfl⟩
  · rw [ih, h a'] at h'; cases h'
  all_goals exact ih

open ProgramExample in
/-- **C87, the reason for `NoException`.** When a recipe cannot be launched, the program may hang: in this run of the program the recipe that makes the target directory throws an exception,
and whatever happens afterwards, the build does not end. -/
theorem C87_exception_false : ∃ (m : Machine) (kind : Path → Bool) (d : Disk) (args : List Str) (s : Settings) (files : List (Path × FileInfo))
    (tree : Db.SourceTree Path) (as : List (Build.Act Path)) (st : Build.State Path),
    plan m d args = .run s ∧ Proper s.job kind d 10 ∧ d.Finite ∧ Loads s.job d files tree ∧ s.what = .all ∧ (Db.taskListAll tree.graph).1 = .ok ∧
    Build.exec (s.build tree kind) as (Build.init (s.build tree kind) d.fs 10) = some st ∧
    ∀ as' st', Build.exec (s.build tree kind) as' st = some st' → ¬ st'.sched.Ended := by
  refine ⟨machine, kind, disk, args, settings, files, treeOf files, noLaunch, hanging, planned, proper, finite, loads, by decide +kernel, by decide +kernel,
    stateOf_exec (by decide +kernel), fun as' st' hx => ?_⟩
  have hq : hanging.sched.queue = [] := by decide +kernel
  have hr : hanging.sched.running = [] := by decide +kernel
  have hpc : hanging.sched.pc = .waiting := by decide +kernel
  have hev : hanging.sched.event = false := by decide +kernel
  have hstuck : TaskList.Stuck (settings.build (treeOf files) kind).job hanging.sched := by
    intro a
    cases a with
    | main => simp [TaskList.step, TaskList.stepMain, hpc, hev]
    | take => simp [TaskList.step, TaskList.stepTake, hq]
    | work k o => simp [TaskList.step, TaskList.stepWork, hr]
  have := stuck_forever hstuck hx
  rintro (⟨n, hn⟩ | ⟨n, hn⟩) <;> rw [this, hpc] at hn <;> cases hn

end Maike.Main
