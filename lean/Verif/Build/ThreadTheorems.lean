import Verif.Build.ThreadsComplete
import Verif.Build.Several

/-!
# Builds, one operation of a thread at a time: theorems (C107)
-/

namespace Maike.Build.Threaded

open Maike.TaskList (Job Outcome)
open Maike.TaskList.Threads (Start Canon)

theorem good_returned {j : Job} {th : TaskList.Threads.State} {σ : TaskList.State} (h : TaskList.Threads.Good j th σ) :
    (∀ n, th.mpc = .returned n → σ.pc = .returned n) ∧ ∀ t, th.mpc = .rethrown t → σ.pc = .rethrown t :=
  ⟨fun n hn => by rw [h.rel.pc, TaskList.Threads.absPc, hn], fun t ht => by rw [h.rel.pc, TaskList.Threads.absPc, ht]⟩

theorem canon_returned {j : Job} {th : TaskList.Threads.State} {σ : TaskList.State} (h : Canon j th σ) :
    (∀ n, σ.pc = .returned n → th.mpc = .returned n) ∧ ∀ t, σ.pc = .rethrown t → th.mpc = .rethrown t :=
  ⟨fun n hn => by rw [h.main, hn]; rfl, fun t ht => by rw [h.main, ht]; rfl⟩

section

variable {P V : Type} [DecidableEq P]

/-- **C107 (builds).** A build by threads that has ended has done what some build of `Build/Model.lean` has done: it has made the same decisions, it has written the same files, tasks have been submitted, started and
finished in the same order, and the result is the same. -/
theorem C107_refines (b : Build P) (hj : b.job.Topological) {fs : FileSys P} {now : Nat} {s : TState (plain b)} (h : Reaches (plain b) b.job (init b fs now) s) :
    ∃ as x, exec b as (init b fs now) = some x ∧ x.fs = s.env.fs ∧ x.clock = s.env.clock ∧ x.decision = s.env.decision ∧ x.written = s.env.written ∧ x.sched.hist = s.th.hist ∧
      (∀ n, s.th.mpc = .returned n → x.sched.pc = .returned n) ∧ ∀ t, s.th.mpc = .rethrown t → x.sched.pc = .rethrown t := by
  obtain ⟨σ, h1, h2⟩ := h.refines (plain_lawful b) hj rfl
  obtain ⟨as, has⟩ := plain_steps h2
  exact ⟨as, _, has, rfl, rfl, rfl, rfl, h1.rel.hist, good_returned h1⟩

/-- **C107 (builds).** And whatever a build of `Build/Model.lean` does can be done by threads. -/
theorem C107_realised (b : Build P) {fs : FileSys P} {now : Nat} {as : List (Act P)} {x : State P} (h : exec b as (init b fs now) = some x) :
    ∃ s : TState (plain b), Reaches (plain b) b.job (init b fs now) s ∧ s.env.fs = x.fs ∧ s.env.clock = x.clock ∧ s.env.decision = x.decision ∧ s.env.written = x.written ∧ s.th.hist = x.sched.hist ∧
      (∀ n, x.sched.pc = .returned n → s.th.mpc = .returned n) ∧ ∀ t, x.sched.pc = .rethrown t → s.th.mpc = .rethrown t := by
  obtain ⟨s, h1, h2, h3⟩ := (steps_plain h).threads (plain_lawful b) (plain_separate b) rfl
  have h3 : { s.env with sched := x.sched } = x := h3
  exact ⟨s, h1, by have e := congrArg State.fs h3; exact e, by have e := congrArg State.clock h3; exact e, by have e := congrArg State.decision h3; exact e, by have e := congrArg State.written h3; exact e, h2.rel.hist.symm, canon_returned h2⟩

/-- The same for recipes that are scripts. -/
theorem C107_scripts (b : Build P) (tools : Tools P) (script : Nat → Recipes.Script) (hj : b.job.Topological) {fs : FileSys P} {now : Nat} {s : TState (scripts b tools script)}
    (h : Reaches (scripts b tools script) b.job (pinit b fs now) s) :
    ∃ as x, pexec b tools script as (pinit b fs now) = some x ∧ x.base.fs = s.env.base.fs ∧ x.base.decision = s.env.base.decision ∧ x.base.written = s.env.base.written ∧ x.proc = s.env.proc ∧
      x.base.sched.hist = s.th.hist ∧ (∀ n, s.th.mpc = .returned n → x.base.sched.pc = .returned n) ∧ ∀ t, s.th.mpc = .rethrown t → x.base.sched.pc = .rethrown t := by
  obtain ⟨σ, h1, h2⟩ := h.refines (scripts_lawful b tools script) hj rfl
  obtain ⟨as, has⟩ := scripts_steps h2
  exact ⟨as, _, has, rfl, rfl, rfl, rfl, h1.rel.hist, good_returned h1⟩

theorem C107_scripts_realised (b : Build P) (tools : Tools P) (script : Nat → Recipes.Script) {fs : FileSys P} {now : Nat} {as : List (PAct P)} {x : PState P}
    (h : pexec b tools script as (pinit b fs now) = some x) :
    ∃ s : TState (scripts b tools script), Reaches (scripts b tools script) b.job (pinit b fs now) s ∧ s.env.base.fs = x.base.fs ∧ s.env.base.decision = x.base.decision ∧
      s.env.base.written = x.base.written ∧ s.env.proc = x.proc ∧ s.th.hist = x.base.sched.hist ∧
      (∀ n, x.base.sched.pc = .returned n → s.th.mpc = .returned n) ∧ ∀ t, x.base.sched.pc = .rethrown t → s.th.mpc = .rethrown t := by
  obtain ⟨s, h1, h2, h3⟩ := (steps_scripts h).threads (scripts_lawful b tools script) (scripts_separate b tools script) rfl
  have h3 : { s.env with base := { s.env.base with sched := x.base.sched } } = x := h3
  exact ⟨s, h1, by have e := congrArg (fun x => x.base.fs) h3; exact e, by have e := congrArg (fun x => x.base.decision) h3; exact e, by have e := congrArg (fun x => x.base.written) h3; exact e, by have e := congrArg PState.proc h3; exact e, h2.rel.hist.symm, canon_returned h2⟩

/-- The same for the contents of files. -/
theorem C107_contents (b : Build P) (tools : Tools P) (script : Nat → Recipes.Script) (eff : Effects P V tools) (hj : b.job.Topological) {fs : FileSys P} {now : Nat} {c : P → V}
    {s : TState (contents b tools script eff)} (h : Reaches (contents b tools script eff) b.job (cinit b fs now c) s) :
    ∃ as x, CExec b tools script eff as (cinit b fs now c) x ∧ x.content = s.env.content ∧ x.base.base.fs = s.env.base.base.fs ∧ x.base.base.decision = s.env.base.base.decision ∧
      x.base.base.sched.hist = s.th.hist ∧ (∀ n, s.th.mpc = .returned n → x.base.base.sched.pc = .returned n) ∧ ∀ t, s.th.mpc = .rethrown t → x.base.base.sched.pc = .rethrown t := by
  obtain ⟨σ, h1, h2⟩ := h.refines (contents_lawful b tools script eff) hj rfl
  obtain ⟨as, has⟩ := contents_steps h2
  exact ⟨as, _, has, rfl, rfl, rfl, h1.rel.hist, good_returned h1⟩

theorem C107_contents_realised (b : Build P) (tools : Tools P) (script : Nat → Recipes.Script) (eff : Effects P V tools) {fs : FileSys P} {now : Nat} {c : P → V} {as : List (PAct P)} {x : CState P V}
    (h : CExec b tools script eff as (cinit b fs now c) x) :
    ∃ s : TState (contents b tools script eff), Reaches (contents b tools script eff) b.job (cinit b fs now c) s ∧ s.env.content = x.content ∧ s.env.base.base.fs = x.base.base.fs ∧
      s.env.base.base.decision = x.base.base.decision ∧ s.th.hist = x.base.base.sched.hist ∧
      (∀ n, x.base.base.sched.pc = .returned n → s.th.mpc = .returned n) ∧ ∀ t, x.base.base.sched.pc = .rethrown t → s.th.mpc = .rethrown t := by
  obtain ⟨s, h1, h2, h3⟩ := (steps_contents h).threads (contents_lawful b tools script eff) (contents_separate b tools script eff) rfl
  have h3 : { s.env with base := { s.env.base with base := { s.env.base.base with sched := x.base.base.sched } } } = x := h3
  exact ⟨s, h1, by have e := congrArg CState.content h3; exact e, by have e := congrArg (fun x => x.base.base.fs) h3; exact e, by have e := congrArg (fun x => x.base.base.decision) h3; exact e, h2.rel.hist.symm, canon_returned h2⟩

end

/-- **C107 (bound).** The threads perform a bounded number of operations, whatever the tasks do in the meantime, not counting operations after spurious wake-ups. -/
theorem C107_bounded {K : Kind} {j : Job} (hj : j.Topological) :
    ∃ bound : Nat, ∀ (th : TaskList.Threads.State) (e : K.S) (as : List TaskList.Threads.Act) (s : TState K), Start j th → TExec K j as ⟨th, e⟩ s →
      as.length ≤ bound + 5 * as.countP TaskList.Threads.Act.isSpurious := by
  obtain ⟨bound, hb⟩ := TaskList.Threads.C104_bounded hj
  exact ⟨bound, fun th e as s h0 h => hb th as s.th h0 h.threads⟩

section

variable {P : Type} [DecidableEq P]

/-- **C107 (progress).** A build that has not ended can go on, as long as no task has ended with an exception other than the one for recipes that fail: some thread can perform an operation that is not
a spurious wake-up, or a task that is being executed can compare time stamps. -/
theorem C107_progress (b : Build P) (hj : b.job.Topological) (hw : 1 ≤ b.job.workers) {fs : FileSys P} {now : Nat} {s : TState (plain b)} (h : Reaches (plain b) b.job (init b fs now) s)
    (hthrew : ∀ t, .finish t .threw ∉ s.th.hist) :
    s.th.Ended ∨ (∃ a s', a.isSpurious = false ∧ TStep (plain b) b.job (some a) s s') ∨
    ∃ (k t : Nat) (s' : TState (plain b)), s.th.wpcs[k]? = some (.body t) ∧ s.env.decision t = none ∧ TStep (plain b) b.job none s s' ∧ s'.env.decision t ≠ none := by
  rcases TaskList.Threads.C104_progress hj hw h.threads hthrew with he | ⟨a, th', ha, hs⟩
  · exact .inl he
  right
  by_cases hb : ∃ k o t, a = .work k o ∧ s.th.wpcs[k]? = some (.body t)
  · obtain ⟨k, o, t, rfl, hk⟩ := hb
    cases hd : s.env.decision t with
    | none =>
      right
      have hv : (view b.job s.th).running[k]? = some (t, .body) := by simp [view, hk]
      refine ⟨k, t, ⟨s.th, { s.env with decision := update s.env.decision t (some (decisionOf (shouldRun s.env.fs b.force (b.task t)))), sched := view b.job s.th }⟩, hk, hd,
        .act ⟨.check k, by simp, ?_⟩, by simp [update]⟩
      show step b (.check k) { s.env with sched := view b.job s.th } = _
      simp only [step, hv, hd, if_true]
    | some x =>
      left
      have hall : ∀ o', ∃ th', TaskList.Threads.step b.job (.work k o') s.th = some th' := fun o' => by
        cases o' <;> simp [TaskList.Threads.step, TaskList.Threads.stepWork, hk]
      suffices ∃ o', mayEnd b s.env t o' = true by
        obtain ⟨o', ho'⟩ := this
        obtain ⟨th', hth'⟩ := hall o'
        refine ⟨.work k o', ⟨th', s.env⟩, rfl, .thread hth' ?_⟩
        rintro _ _ t' e ht'
        cases e
        rw [hk] at ht'
        cases ht'
        exact ho'
      cases x with
      | run =>
        cases hdr : b.dryrun with
        | true => exact ⟨.success, by simp [mayEnd, hd, hdr]⟩
        | false => exact ⟨.failure, by simp [mayEnd, hd, hdr]⟩
      | skip => exact ⟨.success, by simp [mayEnd, hd]⟩
      | raise => exact ⟨.threw, by simp [mayEnd, hd]⟩
  · exact .inl ⟨a, ⟨th', s.env⟩, ha, .thread hs fun k o t e hk => absurd ⟨k, o, t, e, hk⟩ hb⟩

/-! ## Targets by name -/

variable [Db.PathType P] [Inhabited P]

/-- `compile` for a list of targets, core/db/source_tree.cpp:55-74, where the builds are done by threads. Arguments: the names, the file system, the time and the number of tasks so far; how the call ends, and the file
system when it has ended. -/
inductive Several (c : Setup P) : List P → FileSys P → Nat → Nat → Verdict P → FileSys P → Prop
  | nil {fs now total} : Several c [] fs now total (.completed total) fs
  | unknown {name names fs now total} : getTarget c name = none → Several c (name :: names) fs now total (.unknown name) fs
  | cyclic {name names fs now total t} : getTarget c name = some t → (Db.taskListFor c.tree.graph t.sourceFilename).1 ≠ .ok → Several c (name :: names) fs now total (.cyclic name) fs
  | failed {name names fs now total t s u} : getTarget c name = some t → (Db.taskListFor c.tree.graph t.sourceFilename).1 = .ok →
      Reaches (plain (c.build t)) (c.build t).job (init (c.build t) fs now) s → s.th.mpc = .rethrown u → Several c (name :: names) fs now total (.failed name) s.env.fs
  | next {name names fs now total t s n v fs'} : getTarget c name = some t → (Db.taskListFor c.tree.graph t.sourceFilename).1 = .ok →
      Reaches (plain (c.build t)) (c.build t).job (init (c.build t) fs now) s → s.th.mpc = .returned n → Several c names s.env.fs s.env.clock (total + n) v fs' →
      Several c (name :: names) fs now total v fs'

/-- **C107 (targets by name).** The same as with critical sections as single actions. -/
theorem C107_several (c : Setup P) (htop : ∀ t : Db.Target P, (Db.taskListFor c.tree.graph t.sourceFilename).1 = .ok → (c.build t).job.Topological) (names : List P) (p : Progress P) (v : Verdict P)
    (fs : FileSys P) : Several c names p.fs p.clock p.total v fs ↔ ∃ schedules p', compileSeveral c names schedules p = some (v, p') ∧ p'.fs = fs := by
  constructor
  · intro h
    obtain ⟨fs₀, now, builds, total⟩ := p
    dsimp only at h
    induction h generalizing builds with
    | nil => exact ⟨[], _, rfl, rfl⟩
    | unknown h => exact ⟨[], ⟨_, _, builds, _⟩, by simp only [compileSeveral, h]; rfl, rfl⟩
    | cyclic h1 h2 => exact ⟨[], ⟨_, _, builds, _⟩, by simp only [compileSeveral, h1, if_neg h2]; rfl, rfl⟩
    | failed h1 h2 h3 h4 =>
      obtain ⟨as, x, g1, g2, _, _, _, _, _, g3⟩ := C107_refines _ (htop _ h2) h3
      exact ⟨[as], ⟨x.fs, _, _, _⟩, by simp only [compileSeveral, h1, h2, if_true, g1, g3 _ h4]; rfl, g2⟩
    | next h1 h2 h3 h4 _ ih =>
      obtain ⟨as, x, g1, g2, g3, _, _, _, g4, _⟩ := C107_refines _ (htop _ h2) h3
      rw [← g2, ← g3] at ih
      obtain ⟨schedules, p', k1, k2⟩ := ih (builds ++ [(_, x)])
      exact ⟨as :: schedules, p', by simp only [compileSeveral, h1, h2, if_true, g1, g4 _ h4]; exact k1, k2⟩
  · rintro ⟨schedules, p', h, rfl⟩
    induction names generalizing schedules p with
    | nil => cases h; exact .nil
    | cons name names ih =>
      simp only [compileSeveral] at h
      split at h
      · rename_i h1; cases h; exact .unknown h1
      · rename_i t h1
        split at h
        · rename_i h2
          split at h
          · cases h
          · rename_i as schedules
            split at h
            · cases h
            · rename_i r hr
              obtain ⟨s, g1, g2, g3, _, _, _, g4, g5⟩ := C107_realised _ hr
              split at h
              · rename_i n hn
                have := ih _ _ h
                rw [← g2, ← g3] at this
                exact .next h1 h2 g1 (g4 _ hn) this
              · rename_i u hu
                cases h
                have := Several.failed (names := names) (total := p.total) h1 h2 g1 (g5 _ hu)
                rwa [g2] at this
              · cases h
        · rename_i h2; cases h; exact .cyclic h1 h2

end

end Maike.Build.Threaded
