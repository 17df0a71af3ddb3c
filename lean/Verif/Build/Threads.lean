import Verif.TaskList.ThreadTheorems
import Verif.Build.Serial

/-!
# Builds, one operation of a thread at a time (C107)

In `Build/Model.lean`, `Build/Processes.lean` and `Build/Serial.lean`, tasks are executed by the scheduler of `TaskList/Model.lean`, in which critical sections are single actions. Here they are executed by the threads of
`TaskList/Threads.lean`. While a worker is in the body of a task, what this task and its recipe do (core/db/task.cpp:15-29) is interleaved with the operations of all other threads.

Simplification: as in `Build/Model.lean`, the comparison of time stamps for one task is one action.
-/

namespace Maike.Build.Threaded

open Maike.TaskList (Job Outcome)
open Maike.TaskList.Threads (Start Good)

/-! ## Model -/

/-- A kind of builds. `S` are its states; `sched` and `put` are for the part that is the state of the scheduler; `act` is what can happen apart from the actions of the scheduler;
`ends s t o` says that the body of task `t` may end with `o`. -/
structure Kind where
  S : Type
  sched : S → TaskList.State
  put : S → TaskList.State → S
  act : S → S → Prop
  ends : S → Nat → Outcome → Prop

/-- The threads, and everything else. -/
structure TState (K : Kind) where
  th : TaskList.Threads.State
  env : K.S

/-- What is running when it is asked for the task that is executed by the `k`th worker. -/
def view (j : Job) (th : TaskList.Threads.State) : TaskList.State :=
  { TaskList.init j with running := th.wpcs.map fun | .body t => (t, .body) | _ => (0, .exiting) }

/-- What can happen: a thread performs an operation, and if this is the end of the body of a task then it must be possible for the task to end like this; or a task that is executed by some worker does something; or something
happens in the environment. -/
inductive TStep (K : Kind) (j : Job) : Option TaskList.Threads.Act → TState K → TState K → Prop
  | thread {a s th} : TaskList.Threads.step j a s.th = some th → (∀ k o t, a = .work k o → s.th.wpcs[k]? = some (.body t) → K.ends s.env t o) → TStep K j (some a) s ⟨th, s.env⟩
  | act {s env} : K.act (K.put s.env (view j s.th)) env → TStep K j none s ⟨s.th, env⟩

/-- A sequence of steps; `as` are the operations of the threads. -/
inductive TExec (K : Kind) (j : Job) : List TaskList.Threads.Act → TState K → TState K → Prop
  | nil {s} : TExec K j [] s s
  | cons {a as s s₁ s'} : TStep K j a s s₁ → TExec K j as s₁ s' → TExec K j (a.toList ++ as) s s'

/-- The state is reached by a build that begins with `e` when `process` is called, whatever the idle workers of the pool are doing at that time. -/
def Reaches (K : Kind) (j : Job) (e : K.S) (s : TState K) : Prop := ∃ th as, Start j th ∧ TExec K j as ⟨th, e⟩ s

section

variable {P V : Type} [DecidableEq P]

/-- The builds of `Build/Model.lean`. -/
def plain (b : Build P) : Kind where
  S := State P
  sched := State.sched
  put s σ := { s with sched := σ }
  act s s' := ∃ a, (∀ x, a ≠ .sched x) ∧ step b a s = some s'
  ends s t o := mayEnd b s t o = true

/-- The builds of `Build/Processes.lean`: recipes are scripts. -/
def scripts (b : Build P) (tools : Tools P) (script : Nat → Recipes.Script) : Kind where
  S := PState P
  sched s := s.base.sched
  put s σ := { s with base := { s.base with sched := σ } }
  act s s' := ∃ a, (∀ x, a ≠ .sched x) ∧ pstep b tools script a s = some s'
  ends s t o := pmayEnd b s t o = true

/-- The builds of `Build/Serial.lean`: recipes are scripts, and files have contents. -/
def contents (b : Build P) (tools : Tools P) (script : Nat → Recipes.Script) (eff : Effects P V tools) : Kind where
  S := CState P V
  sched s := s.base.base.sched
  put s σ := { s with base := { s.base with base := { s.base.base with sched := σ } } }
  act s s' := ∃ a, (∀ x, a ≠ .sched x) ∧ CStep b tools script eff a s s'
  ends s t o := pmayEnd b s.base t o = true

end

/-! ## Critical sections as single actions -/

/-- What is needed for a kind of builds: what a task does does not depend on the scheduler, apart from that the task is being executed. -/
structure Kind.Lawful (K : Kind) : Prop where
  sched_put : ∀ s σ, K.sched (K.put s σ) = σ
  put_put : ∀ s σ σ', K.put (K.put s σ) σ' = K.put s σ'
  put_sched : ∀ s, K.put s (K.sched s) = s
  ends_put : ∀ s σ t o, K.ends (K.put s σ) t o ↔ K.ends s t o
  act_put : ∀ s s' σ, (∀ t, (t, .body) ∈ (K.sched s).running → (t, .body) ∈ σ.running) → K.act s s' → K.act (K.put s σ) (K.put s' σ)

/-- One step of a build with the scheduler of `TaskList/Model.lean`. -/
inductive Kind.Step (K : Kind) (j : Job) : K.S → K.S → Prop
  | sched {a s σ} : TaskList.step j a (K.sched s) = some σ → (∀ k o t, a = .work k o → (K.sched s).running[k]? = some (t, .body) → K.ends s t o) → K.Step j s (K.put s σ)
  | act {s s'} : K.act s s' → K.Step j s s'

inductive Kind.Steps (K : Kind) (j : Job) : K.S → K.S → Prop
  | nil {s} : K.Steps j s s
  | snoc {s s₁ s'} : K.Steps j s s₁ → K.Step j s₁ s' → K.Steps j s s'

theorem mem_view {j : Job} {th : TaskList.Threads.State} {t : Nat} (h : (t, TaskList.Stage.body) ∈ (view j th).running) : ∃ k : Nat, th.wpcs[k]? = some (.body t) := by
  simp only [view, List.mem_map] at h
  obtain ⟨p, hp, e⟩ := h
  obtain ⟨k, hk⟩ := List.getElem?_of_mem hp
  refine ⟨k, hk.trans ?_⟩
  split at e
  · cases e; rfl
  · cases e

theorem body_running {j : Job} {th : TaskList.Threads.State} {σ : TaskList.State} (h : Good j th σ) {t : Nat} (hm : (t, TaskList.Stage.body) ∈ (view j th).running) : (t, TaskList.Stage.body) ∈ σ.running := by
  obtain ⟨k, hk⟩ := mem_view hm
  exact h.rel.running.mem_iff.mpr (List.mem_filterMap.mpr ⟨_, List.mem_of_getElem? hk, rfl⟩)

/-- What an operation of a thread adds to the history. -/
theorem thread_hist {j : Job} {a : TaskList.Threads.Act} {s s' : TaskList.Threads.State} (h : TaskList.Threads.step j a s = some s') :
    s'.hist = s.hist ∨ (∃ t, s'.hist = s.hist ++ [.submit t]) ∨ (∃ t, s'.hist = s.hist ++ [.start t]) ∨
    ∃ k o t, a = .work k o ∧ s.wpcs[k]? = some (.body t) ∧ s'.hist = s.hist ++ [.finish t o] := by
  cases a with
  | main wake =>
    simp only [TaskList.Threads.step, TaskList.Threads.stepMain, TaskList.Threads.acquire, TaskList.Threads.notifyPool] at h
    repeat' split at h
    all_goals first
      | (cases h; done)
      | (simp only [Option.map_some, Option.some.injEq] at h; subst h; first | exact .inl rfl | exact .inr (.inl ⟨_, rfl⟩))
      | (simp at h; done)
  | work k o =>
    simp only [TaskList.Threads.step, TaskList.Threads.stepWork, TaskList.Threads.acquire, TaskList.Threads.State.at, TaskList.Threads.notifyEvent, TaskList.Threads.notifyCounter] at h
    repeat' split at h
    all_goals first
      | (cases h; done)
      | (simp only [Option.map_some, Option.some.injEq] at h; subst h
         first
          | exact .inl rfl
          | exact .inr (.inr (.inl ⟨_, rfl⟩))
          | exact .inr (.inr (.inr ⟨_, _, _, rfl, by assumption, rfl⟩))
          | (left; dsimp only; split <;> rfl))
      | (simp at h; done)
  | spurious tid =>
    simp only [TaskList.Threads.step, TaskList.Threads.stepSpurious] at h
    repeat' split at h
    all_goals first
      | (cases h; done)
      | (simp only [Option.some.injEq] at h; subst h; exact .inl rfl)

theorem work_hist {j : Job} {k : Nat} {o : Outcome} {σ σ' : TaskList.State} {t : Nat} (hk : σ.running[k]? = some (t, .body)) (h : TaskList.step j (.work k o) σ = some σ') :
    σ'.hist = σ.hist ++ [.finish t o] := by
  simp only [TaskList.step, TaskList.stepWork, hk] at h
  cases o <;> simp only [Option.some.injEq] at h <;> subst h <;> rfl

variable {K : Kind}

/-- One step: nothing happens, or one step of the scheduler or of the environment. -/
theorem TStep.refines (hK : K.Lawful) {j : Job} (hj : j.Topological) {a : Option TaskList.Threads.Act} {s s' : TState K} {σ : TaskList.State} (hg : Good j s.th σ) (h : TStep K j a s s') :
    ∃ σ', Good j s'.th σ' ∧ (K.put s'.env σ' = K.put s.env σ ∨ K.Step j (K.put s.env σ) (K.put s'.env σ')) := by
  cases h with
  | @thread a _ th hs hends =>
    obtain ⟨σ', h1, _, h3⟩ := hg.step hj hs
    refine ⟨σ', h1, ?_⟩
    rcases h3 with rfl | h3
    · exact .inl rfl
    right
    obtain ⟨x, hx⟩ := TaskList.Step_step h3
    rw [← hK.put_put s.env σ σ']
    refine .sched (a := x) (by rw [hK.sched_put]; exact hx) ?_
    rintro k o t rfl hk
    rw [hK.sched_put] at hk
    rw [hK.ends_put]
    have e := work_hist hk hx
    rw [h1.rel.hist, hg.rel.hist] at e
    rcases thread_hist hs with e' | ⟨u, e'⟩ | ⟨u, e'⟩ | ⟨k', o', u, rfl, hu, e'⟩
    · rw [e'] at e
      exact absurd (congrArg List.length e) (by simp)
    · rw [e'] at e
      simp at e
    · rw [e'] at e
      simp at e
    · rw [e'] at e
      simp only [List.append_cancel_left_eq, List.cons.injEq, TaskList.Ev.finish.injEq, and_true] at e
      obtain ⟨rfl, rfl⟩ := e
      exact hends _ _ _ rfl hu
  | act h =>
    refine ⟨σ, hg, .inr (.act ?_)⟩
    have := hK.act_put _ _ σ (fun t ht => body_running hg (by rwa [hK.sched_put] at ht)) h
    rwa [hK.put_put] at this

theorem TExec.refines (hK : K.Lawful) {j : Job} (hj : j.Topological) {as : List TaskList.Threads.Act} {s s' : TState K} (h : TExec K j as s s') :
    ∀ {σ : TaskList.State} {e : K.S}, Good j s.th σ → K.Steps j e (K.put s.env σ) → ∃ σ', Good j s'.th σ' ∧ K.Steps j e (K.put s'.env σ') := by
  induction h with
  | nil => exact fun hg he => ⟨_, hg, he⟩
  | cons h1 _ ih =>
    intro σ e hg he
    obtain ⟨σ', g1, g2⟩ := h1.refines hK hj hg
    rcases g2 with g2 | g2
    · exact ih g1 (by rw [g2]; exact he)
    · exact ih g1 (.snoc he g2)

/-- The operations of the threads alone. -/
theorem TExec.threads {j : Job} {as : List TaskList.Threads.Act} {s s' : TState K} (h : TExec K j as s s') : TaskList.Threads.exec j as s.th = some s'.th := by
  induction h with
  | nil => rfl
  | cons h1 _ ih =>
    cases h1 with
    | thread hs _ => simp only [Option.toList_some, List.cons_append, List.nil_append, TaskList.Threads.exec, hs, ih]
    | act _ => exact ih

theorem Reaches.threads {j : Job} {e : K.S} {s : TState K} (h : Reaches K j e s) : TaskList.Threads.Reachable j s.th := by
  obtain ⟨th, as, h0, h⟩ := h
  exact ⟨th, as, h0, h.threads⟩

theorem Reaches.refines (hK : K.Lawful) {j : Job} (hj : j.Topological) {e : K.S} (he : K.sched e = TaskList.init j) {s : TState K} (h : Reaches K j e s) :
    ∃ σ, Good j s.th σ ∧ K.Steps j e (K.put s.env σ) := by
  obtain ⟨th, as, h0, h⟩ := h
  refine h.refines hK hj h0.good ?_
  rw [← he, hK.put_sched]
  exact .nil

/-! ## The three kinds -/

section

variable {P V : Type} [DecidableEq P]

theorem exec_snoc {b : Build P} (as : List (Act P)) (a : Act P) {s s₁ s' : State P} (h : exec b as s = some s₁) (h' : step b a s₁ = some s') : exec b (as ++ [a]) s = some s' := by
  induction as generalizing s with
  | nil => simp only [exec, Option.some.injEq] at h; subst h; simp [exec, h']
  | cons x as ih =>
    simp only [exec, List.cons_append] at h ⊢
    split at h
    · exact ih h
    · cases h

/-- The `k`th running task is executing its body. -/
def At (σ : TaskList.State) (k t : Nat) : Prop := σ.running[k]? = some (t, .body)

theorem at_of {σ σ' : TaskList.State} (h : ∀ t, (t, TaskList.Stage.body) ∈ σ.running → (t, TaskList.Stage.body) ∈ σ'.running) {k t : Nat} (hk : At σ k t) : ∃ k', At σ' k' t :=
  List.getElem?_of_mem (h _ (List.mem_of_getElem? hk))

/-- The same action for another index. -/
def moveAct (k' : Nat) : Act P → Act P
  | .sched a => .sched a
  | .check _ => .check k'
  | .write _ p => .write k' p
  | .touchDir p => .touchDir p
  | .tick => .tick

theorem step_at {b : Build P} {a : Act P} {s s' : State P} (ha : ∀ x, a ≠ .sched x) (h : step b a s = some s') :
    s'.sched = s.sched ∧ ((∃ k t, At s.sched k t ∧ ∀ k' σ, At σ k' t → step b (moveAct k' a) { s with sched := σ } = some { s' with sched := σ }) ∨
      ∀ σ, step b a { s with sched := σ } = some { s' with sched := σ }) := by
  cases a with
  | sched x => exact absurd rfl (ha x)
  | check k =>
    simp only [step] at h
    split at h
    · rename_i t hk
      split at h
      · rename_i hd
        cases h
        exact ⟨rfl, .inl ⟨k, t, hk, fun k' σ hσ => by simp only [step, moveAct, show σ.running[k']? = some (t, TaskList.Stage.body) from hσ, hd, if_true]⟩⟩
      · cases h
    · cases h
  | write k p =>
    simp only [step] at h
    split at h
    · rename_i t hk
      split at h
      · rename_i hd
        cases h
        exact ⟨rfl, .inl ⟨k, t, hk, fun k' σ hσ => by simp only [step, moveAct, show σ.running[k']? = some (t, TaskList.Stage.body) from hσ, if_pos hd]⟩⟩
      · cases h
    · cases h
  | touchDir p =>
    simp only [step] at h
    split at h
    · rename_i hd
      cases h
      exact ⟨rfl, .inr fun σ => by simp only [step, if_pos hd]⟩
    · cases h
  | tick => cases h; exact ⟨rfl, .inr fun σ => rfl⟩

theorem plain_lawful (b : Build P) : (plain b).Lawful where
  sched_put _ _ := rfl
  put_put _ _ _ := rfl
  put_sched _ := rfl
  ends_put _ _ _ _ := Iff.rfl
  act_put := by
    rintro s s' σ hσ ⟨a, ha, h⟩
    rcases (step_at ha h).2 with ⟨k, t, hk, h⟩ | h
    · obtain ⟨k', hk'⟩ := at_of hσ hk
      exact ⟨moveAct k' a, fun x => by cases a <;> first | exact absurd rfl (ha _) | simp [moveAct], h k' σ hk'⟩
    · exact ⟨a, ha, h σ⟩

/-- A build with the scheduler of `TaskList/Model.lean` is a build in the sense of `Build/Model.lean`. -/
theorem plain_steps {b : Build P} {s s' : (plain b).S} (h : (plain b).Steps b.job s s') : ∃ as, exec b as s = some s' := by
  induction h with
  | nil => exact ⟨[], rfl⟩
  | snoc _ h ih =>
    obtain ⟨as, has⟩ := ih
    cases h with
    | @sched a _ σ hs he =>
      rename_i s₁ _
      refine ⟨as ++ [.sched a], exec_snoc as _ has ?_⟩
      have hal : allowed b s₁ a = true := by
        unfold allowed
        split
        · split
          · rename_i k o _ t hk; exact he k o t rfl hk
          · rfl
        · rfl
      simp only [step, hal, if_true]
      rw [show TaskList.step b.job a s₁.sched = some σ from hs]
      rfl
    | act h =>
      obtain ⟨a, _, h⟩ := h
      exact ⟨as ++ [a], exec_snoc as _ has h⟩

/-- The same action for another index. -/
def movePAct (k' : Nat) : PAct P → PAct P
  | .sched a => .sched a
  | .check _ => .check k'
  | .output _ p => .output k' p
  | .ended _ rc => .ended k' rc
  | .copied _ => .copied k'
  | .copyFailed _ part => .copyFailed k' part
  | .mkdir _ r => .mkdir k' r
  | .wrote _ => .wrote k'
  | .writeFailed _ part => .writeFailed k' part
  | .attempted _ ok => .attempted k' ok
  | .touchDir p => .touchDir p
  | .tick => .tick

def indexOf : PAct P → Option Nat
  | .sched _ | .touchDir _ | .tick => none
  | .check k | .output k _ | .ended k _ | .copied k | .copyFailed k _ | .mkdir k _ | .wrote k | .writeFailed k _ | .attempted k _ => some k

/-- The state with another scheduler. -/
def pput (s : PState P) (σ : TaskList.State) : PState P := { s with base := { s.base with sched := σ } }

theorem mapIte {α β : Type} (f : α → β) (c : Prop) [Decidable c] (x y : Option α) : (if c then x else y).map f = if c then x.map f else y.map f := by
  split <;> rfl

theorem pstep_move {b : Build P} {tools : Tools P} {script : Nat → Recipes.Script} {a : PAct P} (ha : ∀ x, a ≠ .sched x) {s : PState P} {σ : TaskList.State} {k' : Nat}
    (h : ∀ k, indexOf a = some k → s.base.sched.running[k]? = σ.running[k']?) :
    pstep b tools script (movePAct k' a) (pput s σ) = (pstep b tools script a s).map (pput · σ) := by
  have hproc : ∀ k, indexOf a = some k → procOf (pput s σ) k' = procOf s k := fun k hk => by
    unfold procOf
    rw [h k hk]
    rfl
  cases a with
  | sched x => exact absurd rfl (ha x)
  | tick => rfl
  | touchDir p => simp only [movePAct, pstep, mapIte]; rfl
  | check k =>
    have e : (pput s σ).base.sched.running[k']? = s.base.sched.running[k]? := (h k rfl).symm
    simp only [movePAct, pstep, e]
    split
    · rw [mapIte]; rfl
    · rfl
  | attempted k ok =>
    simp only [movePAct, pstep, hproc k rfl]
    split <;> rfl
  | ended k rc =>
    simp only [movePAct, pstep, hproc k rfl]
    split
    · cases rc <;> (dsimp only; rw [mapIte]; rfl)
    · rfl
  | output k p | copied k =>
    simp only [movePAct, pstep, hproc k rfl]
    split
    · rw [mapIte]; rfl
    · rfl
  | copyFailed k part | wrote k | writeFailed k part =>
    simp only [movePAct, pstep, hproc k rfl]
    split
    · rw [mapIte, mapIte]; rfl
    · rfl
  | mkdir k r =>
    simp only [movePAct, pstep, hproc k rfl]
    split
    · rw [mapIte]
      cases r
      · dsimp only; rw [mapIte]; rfl
      · dsimp only; rw [mapIte]; rfl
      · rfl
    · rfl

theorem pstep_index {b : Build P} {tools : Tools P} {script : Nat → Recipes.Script} {a : PAct P} {s s' : PState P} (h : pstep b tools script a s = some s') {k : Nat} (hk : indexOf a = some k) :
    ∃ t, At s.base.sched k t := by
  have hp : ∀ x, procOf s k = some x → ∃ t, At s.base.sched k t := fun x hx => ⟨_, (procOf_eq (t := x.1) (q := x.2) hx).1⟩
  cases a <;> simp only [indexOf, reduceCtorEq, Option.some.injEq] at hk <;> subst hk <;> simp only [pstep] at h <;> split at h <;> first | (cases h; done) | exact ⟨_, by assumption⟩ | exact hp _ (by assumption)

omit [DecidableEq P] in
theorem movePAct_sched {a : PAct P} (ha : ∀ x, a ≠ .sched x) (k' : Nat) (x : TaskList.Act) : movePAct k' a ≠ .sched x := by
  cases a <;> first | exact absurd rfl (ha _) | simp [movePAct]

/-- What a recipe does can be done with another scheduler. -/
theorem pstep_other {b : Build P} {tools : Tools P} {script : Nat → Recipes.Script} {a : PAct P} (ha : ∀ x, a ≠ .sched x) {s s' : PState P} {σ : TaskList.State}
    (hσ : ∀ t, (t, TaskList.Stage.body) ∈ s.base.sched.running → (t, TaskList.Stage.body) ∈ σ.running) (h : pstep b tools script a s = some s') :
    ∃ k', (∀ k, indexOf a = some k → s.base.sched.running[k]? = σ.running[k']?) ∧ pstep b tools script (movePAct k' a) (pput s σ) = some (pput s' σ) := by
  have hk : ∃ k' : Nat, ∀ k, indexOf a = some k → s.base.sched.running[k]? = σ.running[k']? := by
    cases hi : indexOf a with
    | none => exact ⟨0, by simp⟩
    | some k =>
      obtain ⟨t, ht⟩ := pstep_index h hi
      obtain ⟨k', hk'⟩ := at_of hσ ht
      refine ⟨k', fun k₁ e => ?_⟩
      cases e
      exact Eq.trans (b := some (t, TaskList.Stage.body)) ht hk'.symm
  obtain ⟨k', hk'⟩ := hk
  exact ⟨k', hk', by rw [pstep_move ha hk', h]; rfl⟩

theorem scripts_lawful (b : Build P) (tools : Tools P) (script : Nat → Recipes.Script) : (scripts b tools script).Lawful where
  sched_put _ _ := rfl
  put_put _ _ _ := rfl
  put_sched _ := rfl
  ends_put _ _ _ _ := Iff.rfl
  act_put := by
    rintro s s' σ hσ ⟨a, ha, h⟩
    obtain ⟨k', _, h⟩ := pstep_other ha hσ h
    exact ⟨_, movePAct_sched ha k', h⟩

theorem pexec_snoc {b : Build P} {tools : Tools P} {script : Nat → Recipes.Script} (as : List (PAct P)) (a : PAct P) {s s₁ s' : PState P} (h : pexec b tools script as s = some s₁)
    (h' : pstep b tools script a s₁ = some s') : pexec b tools script (as ++ [a]) s = some s' := by
  induction as generalizing s with
  | nil => simp only [pexec, Option.some.injEq] at h; subst h; simp [pexec, h']
  | cons x as ih =>
    simp only [pexec, List.cons_append] at h ⊢
    split at h
    · exact ih h
    · cases h

omit [DecidableEq P] in
theorem pallowed_of {b : Build P} {s : PState P} {a : TaskList.Act} (he : ∀ k o t, a = .work k o → s.base.sched.running[k]? = some (t, .body) → pmayEnd b s t o = true) : pallowed b s a = true := by
  unfold pallowed
  split
  · split
    · rename_i k o _ t hk; exact he k o t rfl hk
    · rfl
  · rfl

theorem pstep_sched {b : Build P} {tools : Tools P} {script : Nat → Recipes.Script} {s : PState P} {a : TaskList.Act} {σ : TaskList.State} (hs : TaskList.step b.job a s.base.sched = some σ)
    (he : ∀ k o t, a = .work k o → s.base.sched.running[k]? = some (t, .body) → pmayEnd b s t o = true) : pstep b tools script (.sched a) s = some (pput s σ) := by
  simp only [pstep, pallowed_of he, if_true, hs]
  rfl

/-- A build with the scheduler of `TaskList/Model.lean` is a build in the sense of `Build/Processes.lean`. -/
theorem scripts_steps {b : Build P} {tools : Tools P} {script : Nat → Recipes.Script} {s s' : (scripts b tools script).S} (h : (scripts b tools script).Steps b.job s s') :
    ∃ as, pexec b tools script as s = some s' := by
  induction h with
  | nil => exact ⟨[], rfl⟩
  | snoc _ h ih =>
    obtain ⟨as, has⟩ := ih
    cases h with
    | sched hs he => exact ⟨_, pexec_snoc as _ has (pstep_sched hs he)⟩
    | act h =>
      obtain ⟨a, _, h⟩ := h
      exact ⟨as ++ [a], pexec_snoc as _ has h⟩

/-- The state with another scheduler. -/
def cput (s : CState P V) (σ : TaskList.State) : CState P V := { s with base := pput s.base σ }

theorem cput_after {tools : Tools P} {eff : Effects P V tools} (s : CState P V) (x : PState P) (t : Nat) (w : Option (P × V)) (next : Bool) (σ : TaskList.State) :
    cput (s.after eff x t w next) σ = (cput s σ).after eff (pput x σ) t w next := rfl

/-- The same for contents of files. -/
theorem cstep_other {b : Build P} {tools : Tools P} {script : Nat → Recipes.Script} {eff : Effects P V tools} {a : PAct P} (ha : ∀ x, a ≠ .sched x) {s s' : CState P V} {σ : TaskList.State}
    (hσ : ∀ t, (t, TaskList.Stage.body) ∈ s.base.base.sched.running → (t, TaskList.Stage.body) ∈ σ.running) (h : CStep b tools script eff a s s') :
    ∃ a', (∀ x, a' ≠ .sched x) ∧ CStep b tools script eff a' (cput s σ) (cput s' σ) := by
  have hps : pstep b tools script a s.base = some s'.base := by cases h <;> assumption
  obtain ⟨k', hk', h'⟩ := pstep_other ha hσ hps
  refine ⟨movePAct k' a, movePAct_sched ha k', ?_⟩
  show CStep b tools script eff _ (cput s σ) (cput s' σ)
  have hproc : ∀ k x, indexOf a = some k → procOf s.base k = some x → procOf (pput s.base σ) k' = some x := fun k x hk hx => by
    rw [← hx]
    unfold procOf
    rw [hk' k hk]
    rfl
  cases h with
  | sched _ => exact absurd rfl (ha _)
  | touchDir _ => exact .touchDir (s := cput s σ) h'
  | tick _ => exact .tick (s := cput s σ) h'
  | check _ hk => rw [cput_after]; exact .check (s := cput s σ) h' ((hk' _ rfl).symm.trans hk)
  | output _ hq => rw [cput_after]; exact .output (s := cput s σ) h' (hproc _ _ rfl hq)
  | notStarted _ hq => rw [cput_after]; exact .notStarted (s := cput s σ) h' (hproc _ _ rfl hq)
  | ended _ hq hr => rw [cput_after]; exact .ended (s := cput s σ) h' (hproc _ _ rfl hq) hr
  | copied _ hq => exact .copied (s := cput s σ) h' (hproc _ _ rfl hq)
  | copyFailed _ hq => rw [cput_after]; exact .copyFailed (s := cput s σ) h' (hproc _ _ rfl hq)
  | copyPart _ hq => rw [cput_after]; exact .copyPart (s := cput s σ) h' (hproc _ _ rfl hq)
  | mkdir _ hq => rw [cput_after]; exact .mkdir (s := cput s σ) h' (hproc _ _ rfl hq)
  | wroteForeign _ hq hf => rw [cput_after]; exact .wroteForeign (s := cput s σ) h' (hproc _ _ rfl hq) hf
  | wrote _ hq hf ht => rw [cput_after]; exact .wrote (s := cput s σ) h' (hproc _ _ rfl hq) hf ht
  | writeFailed _ hq hf => rw [cput_after]; exact .writeFailed (s := cput s σ) h' (hproc _ _ rfl hq) hf
  | writePart _ hq hf => rw [cput_after]; exact .writePart (s := cput s σ) h' (hproc _ _ rfl hq) hf
  | attempted _ hq => rw [cput_after]; exact .attempted (s := cput s σ) h' (hproc _ _ rfl hq)

theorem contents_lawful (b : Build P) (tools : Tools P) (script : Nat → Recipes.Script) (eff : Effects P V tools) : (contents b tools script eff).Lawful where
  sched_put _ _ := rfl
  put_put _ _ _ := rfl
  put_sched _ := rfl
  ends_put _ _ _ _ := Iff.rfl
  act_put := by
    rintro s s' σ hσ ⟨a, ha, h⟩
    exact cstep_other ha hσ h

theorem cexec_snoc {b : Build P} {tools : Tools P} {script : Nat → Recipes.Script} {eff : Effects P V tools} {as : List (PAct P)} {a : PAct P} {s s₁ s' : CState P V}
    (h : CExec b tools script eff as s s₁) (h' : CStep b tools script eff a s₁ s') : CExec b tools script eff (as ++ [a]) s s' := by
  induction h with
  | nil => exact .cons h' .nil
  | cons h1 _ ih => exact .cons h1 (ih h')

/-- A build with the scheduler of `TaskList/Model.lean` is a build in the sense of `Build/Serial.lean`. -/
theorem contents_steps {b : Build P} {tools : Tools P} {script : Nat → Recipes.Script} {eff : Effects P V tools} {s s' : (contents b tools script eff).S}
    (h : (contents b tools script eff).Steps b.job s s') : ∃ as, CExec b tools script eff as s s' := by
  induction h with
  | nil => exact ⟨[], .nil⟩
  | snoc _ h ih =>
    obtain ⟨as, has⟩ := ih
    cases h with
    | sched hs he => exact ⟨_, cexec_snoc has (.sched (pstep_sched hs he))⟩
    | act h =>
      obtain ⟨a, _, h⟩ := h
      exact ⟨as ++ [a], cexec_snoc has h⟩

end

end Maike.Build.Threaded
