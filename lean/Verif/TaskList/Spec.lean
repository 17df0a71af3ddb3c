import Verif.TaskList.Model

/-! # Vocabulary for statements about `TaskList::process` -/

namespace Maike.TaskList

/-- The job comes from a task list in topological order: tasks are distinct, and a
dependency of a task which is itself a task comes earlier in the list. -/
structure Job.Topological (j : Job) : Prop where
  nodup : j.tasks.Nodup
  ordered : ∀ l₁ t l₂, j.tasks = l₁ ++ t :: l₂ → ∀ d ∈ j.deps t, d ∈ j.tasks → d ∈ l₁

/-- `s` can be reached by some schedule. -/
def Reachable (j : Job) (s : State) : Prop := ∃ as, exec j as (init j) = some s

/-- `process` has returned or thrown. -/
def State.Ended (s : State) : Prop := (∃ n, s.pc = .returned n) ∨ (∃ t, s.pc = .rethrown t)

/-- No thread can do anything. -/
def Stuck (j : Job) (s : State) : Prop := ∀ a, step j a s = none

/-- The task `u` needs the task `d`, directly or through other tasks. -/
inductive Needs (j : Job) : Nat → Nat → Prop
  | direct {u d : Nat} : d ∈ j.deps u → d ∈ j.tasks → Needs j u d
  | trans {u v d : Nat} : v ∈ j.deps u → v ∈ j.tasks → Needs j v d → Needs j u d

end Maike.TaskList
