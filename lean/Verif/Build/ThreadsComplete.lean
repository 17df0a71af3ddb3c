import Verif.Build.Threads
import Verif.TaskList.ThreadComplete

/-!
# Builds by threads and builds with the scheduler of `TaskList/Model.lean` are the same (C107)
-/

namespace Maike.Build.Threaded

open Maike.TaskList (Job Outcome)
open Maike.TaskList.Threads (Start Good Canon Quietly)

variable {K : Kind}

theorem TExec.append {j : Job} {as bs : List TaskList.Threads.Act} {s s₁ s' : TState K} (h : TExec K j as s s₁) (h' : TExec K j bs s₁ s') : TExec K j (as ++ bs) s s' := by
  induction h with
  | nil => exact h'
  | cons h1 _ ih => rw [List.append_assoc]; exact .cons h1 (ih h')

/-- Operations that do not end the body of a task are always possible. -/
theorem quiet_exec {j : Job} {th th' : TaskList.Threads.State} (h : Quietly j th th') (e : K.S) : ∃ as, TExec K j as ⟨th, e⟩ ⟨th', e⟩ := by
  induction h with
  | nil => exact ⟨[], .nil⟩
  | cons hs hq _ ih =>
    obtain ⟨as, has⟩ := ih
    exact ⟨_, .cons (.thread hs fun k o t ha hb => absurd hb (hq k o t ha)) has⟩

/-- Which action adds the end of a task to the history. -/
theorem finish_act {j : Job} {a : TaskList.Act} {σ σ' : TaskList.State} {t : Nat} {o : Outcome} (h : TaskList.step j a σ = some σ') (hh : σ'.hist = σ.hist ++ [.finish t o]) :
    ∃ k, a = .work k o ∧ σ.running[k]? = some (t, .body) := by
  have hne : σ.hist ≠ σ.hist ++ [.finish t o] := fun e => absurd (congrArg List.length e) (by simp)
  cases a with
  | main =>
    simp only [TaskList.step, TaskList.stepMain] at h
    repeat' split at h
    all_goals first
      | (cases h; done)
      | (simp only [Option.some.injEq] at h; subst h; exact absurd hh hne)
      | (simp only [Option.some.injEq] at h; subst h; unfold TaskList.wrap at hh; split at hh <;> exact absurd hh (by first | exact hne | simp))
  | take =>
    simp only [TaskList.step, TaskList.stepTake] at h
    repeat' split at h
    all_goals first
      | (cases h; done)
      | (simp only [Option.some.injEq] at h; subst h; exact absurd hh (by first | exact hne | simp))
  | work k o' =>
    simp only [TaskList.step, TaskList.stepWork] at h
    split at h
    · cases h
    · rename_i u hk
      cases o' <;> simp only [Option.some.injEq] at h <;> subst h <;>
        simp only [List.append_cancel_left_eq, List.cons.injEq, TaskList.Ev.finish.injEq, and_true] at hh <;> (obtain ⟨rfl, rfl⟩ := hh; exact ⟨k, rfl, hk⟩)
    all_goals (simp only [Option.some.injEq] at h; subst h; exact absurd hh hne)

/-- What a task does leaves the scheduler alone. -/
def Kind.Separate (K : Kind) : Prop := ∀ s s', K.act s s' → K.sched s' = K.sched s

/-- One step, done by the threads. -/
theorem Kind.Step.threads (hK : K.Lawful) (hs : K.Separate) {j : Job} {x x' : K.S} (h : K.Step j x x') {th : TaskList.Threads.State} {e : K.S} (hc : Canon j th (K.sched x))
    (he : K.put e (K.sched x) = x) : ∃ as th' e', TExec K j as ⟨th, e⟩ ⟨th', e'⟩ ∧ Canon j th' (K.sched x') ∧ K.put e' (K.sched x') = x' := by
  cases h with
  | @sched a _ σ h1 h2 =>
    obtain ⟨th', g1, g2⟩ := hc.step (TaskList.step_Step h1)
    have hfin : Canon j th' (K.sched (K.put x σ)) := by rw [hK.sched_put]; exact g1
    have hput : K.put e (K.sched (K.put x σ)) = K.put x σ := by rw [hK.sched_put, ← he, hK.put_put]
    rcases g2 with g2 | ⟨k, t, o, g2, g3⟩
    · obtain ⟨as, has⟩ := quiet_exec (K := K) g2 e
      exact ⟨as, th', e, has, hfin, hput⟩
    · refine ⟨_, th', e, .cons (.thread g3 ?_) .nil, hfin, hput⟩
      rintro k' o' t' hk hb
      cases hk
      rw [g2] at hb
      cases hb
      rcases thread_hist g3 with e' | ⟨u, e'⟩ | ⟨u, e'⟩ | ⟨k', o', u, hk, hu, e'⟩
      all_goals try (
        exfalso
        simp only [TaskList.Threads.step, TaskList.Threads.stepWork, g2] at g3
        cases o <;> simp only [Option.some.injEq] at g3 <;> subst g3 <;> simp [TaskList.Threads.State.at] at e' <;> done)
      cases hk
      rw [g2] at hu
      cases hu
      rw [← g1.rel.hist, ← hc.rel.hist] at e'
      obtain ⟨k'', rfl, hr⟩ := finish_act h1 e'
      have := h2 _ _ _ rfl hr
      rw [← he, hK.ends_put] at this
      exact this
  | act h =>
    have hsch := hs _ _ h
    refine ⟨_, th, K.put x' (view j th), .cons (.act ?_) .nil, by rw [hsch]; exact hc, by rw [hK.put_put, hK.put_sched]⟩
    have := hK.act_put _ _ (view j th) (fun t ht => ?_) h
    · rw [← he, hK.put_put] at this
      exact this
    · obtain ⟨p, hp, hrun⟩ := List.mem_filterMap.mp (hc.rel.running.mem_iff.mp ht)
      have hcan := hc.work p hp
      simp only [view, List.mem_map]
      refine ⟨p, hp, ?_⟩
      cases p <;> simp only [TaskList.Threads.WPc.Canon] at hcan <;> simp only [TaskList.Threads.WPc.run, Option.some.injEq, Prod.mk.injEq, reduceCtorEq, and_false] at hrun
      obtain ⟨rfl, _⟩ := hrun
      rfl

/-- What can be done with critical sections as single actions can be done by the threads. -/
theorem Kind.Steps.threads (hK : K.Lawful) (hs : K.Separate) {j : Job} {e x : K.S} (he : K.sched e = TaskList.init j) (h : K.Steps j e x) :
    ∃ s : TState K, Reaches K j e s ∧ Canon j s.th (K.sched x) ∧ K.put s.env (K.sched x) = x := by
  suffices ∃ as th' e', TExec K j as ⟨TaskList.Threads.fresh j, e⟩ ⟨th', e'⟩ ∧ Canon j th' (K.sched x) ∧ K.put e' (K.sched x) = x by
    obtain ⟨as, th', e', h1, h2, h3⟩ := this
    exact ⟨⟨th', e'⟩, ⟨_, as, TaskList.Threads.fresh_start j, h1⟩, h2, h3⟩
  induction h with
  | nil => exact ⟨[], _, e, .nil, by rw [he]; exact TaskList.Threads.fresh_canon j, hK.put_sched e⟩
  | snoc _ h ih =>
    obtain ⟨as, th, e₁, h1, h2, h3⟩ := ih
    obtain ⟨bs, th', e', g1, g2, g3⟩ := h.threads hK hs h2 h3
    exact ⟨_, th', e', h1.append g1, g2, g3⟩

theorem Kind.Steps.cons {j : Job} {s s₁ s' : K.S} (h : K.Step j s s₁) (h' : K.Steps j s₁ s') : K.Steps j s s' := by
  induction h' with
  | nil => exact .snoc .nil h
  | snoc _ h2 ih => exact .snoc ih h2

section

variable {P V : Type} [DecidableEq P]

theorem plain_separate (b : Build P) : (plain b).Separate := by
  rintro s s' ⟨a, ha, h⟩
  exact (step_at ha h).1

theorem pstep_separate {b : Build P} {tools : Tools P} {script : Nat → Recipes.Script} {a : PAct P} (ha : ∀ x, a ≠ .sched x) {s s' : PState P} (h : pstep b tools script a s = some s') :
    s'.base.sched = s.base.sched := by
  obtain ⟨k, hk⟩ : ∃ k, movePAct k a = a ∧ ∀ i, indexOf a = some i → i = k := by
    cases a <;> simp only [movePAct, indexOf, Option.some.injEq, reduceCtorEq, PAct.check.injEq, PAct.output.injEq, PAct.ended.injEq, PAct.copied.injEq, PAct.copyFailed.injEq, PAct.mkdir.injEq,
      PAct.wrote.injEq, PAct.writeFailed.injEq, PAct.attempted.injEq, and_true, false_implies, implies_true, exists_const]
    all_goals exact ⟨_, rfl, fun _ h => h.symm⟩
  have := pstep_move (b := b) (tools := tools) (script := script) (s := s) (σ := s.base.sched) (k' := k) ha fun i hi => by rw [hk.2 i hi]
  rw [hk.1, h] at this
  have e : pput s s.base.sched = s := rfl
  rw [e, h] at this
  simp only [Option.map_some, Option.some.injEq] at this
  rw [this]
  rfl

theorem scripts_separate (b : Build P) (tools : Tools P) (script : Nat → Recipes.Script) : (scripts b tools script).Separate := by
  rintro s s' ⟨a, ha, h⟩
  exact pstep_separate ha h

theorem contents_separate (b : Build P) (tools : Tools P) (script : Nat → Recipes.Script) (eff : Effects P V tools) : (contents b tools script eff).Separate := by
  rintro s s' ⟨a, ha, h⟩
  have hps : pstep b tools script a s.base = some s'.base := by cases h <;> assumption
  exact pstep_separate ha hps

theorem steps_plain {b : Build P} {as : List (Act P)} {s s' : (plain b).S} (h : exec b as s = some s') : (plain b).Steps b.job s s' := by
  induction as generalizing s with
  | nil => cases h; exact .nil
  | cons a as ih =>
    simp only [exec] at h
    split at h
    · rename_i s₁ h1
      refine .cons ?_ (ih h)
      by_cases ha : ∃ x, a = .sched x
      · obtain ⟨x, rfl⟩ := ha
        simp only [step] at h1
        split at h1
        · rename_i hal
          cases hσ : TaskList.step b.job x s.sched with
          | none => rw [hσ] at h1; cases h1
          | some σ =>
            rw [hσ] at h1
            simp only [Option.some.injEq] at h1
            subst h1
            refine .sched (K := plain b) (a := x) hσ ?_
            rintro k o t rfl hk
            have hk : s.sched.running[k]? = some (t, .body) := hk
            show mayEnd b s t o = true
            simpa [allowed, hk] using hal
        · cases h1
      · exact .act ⟨a, fun x e => ha ⟨x, e⟩, h1⟩
    · cases h

theorem pstep_sched_inv {b : Build P} {tools : Tools P} {script : Nat → Recipes.Script} {s s₁ : PState P} {x : TaskList.Act} (h : pstep b tools script (.sched x) s = some s₁) :
    ∃ σ, TaskList.step b.job x s.base.sched = some σ ∧ s₁ = pput s σ ∧ ∀ k o t, x = .work k o → s.base.sched.running[k]? = some (t, .body) → pmayEnd b s t o = true := by
  simp only [pstep] at h
  split at h
  · rename_i hal
    cases hσ : TaskList.step b.job x s.base.sched with
    | none => rw [hσ] at h; cases h
    | some σ =>
      rw [hσ] at h
      simp only [Option.some.injEq] at h
      subst h
      refine ⟨σ, rfl, rfl, ?_⟩
      rintro k o t rfl hk
      simpa [pallowed, hk] using hal
  · cases h

theorem steps_scripts {b : Build P} {tools : Tools P} {script : Nat → Recipes.Script} {as : List (PAct P)} {s s' : (scripts b tools script).S} (h : pexec b tools script as s = some s') :
    (scripts b tools script).Steps b.job s s' := by
  induction as generalizing s with
  | nil => cases h; exact .nil
  | cons a as ih =>
    simp only [pexec] at h
    split at h
    · rename_i s₁ h1
      refine .cons ?_ (ih h)
      by_cases ha : ∃ x, a = .sched x
      · obtain ⟨x, rfl⟩ := ha
        obtain ⟨σ, g1, rfl, g3⟩ := pstep_sched_inv h1
        exact .sched (K := scripts b tools script) (a := x) g1 g3
      · exact .act ⟨a, fun x e => ha ⟨x, e⟩, h1⟩
    · cases h

theorem steps_contents {b : Build P} {tools : Tools P} {script : Nat → Recipes.Script} {eff : Effects P V tools} {as : List (PAct P)} {s s' : (contents b tools script eff).S}
    (h : CExec b tools script eff as s s') : (contents b tools script eff).Steps b.job s s' := by
  induction h with
  | nil => exact .nil
  | @cons a as s s₁ s' h1 _ ih =>
    refine .cons ?_ ih
    by_cases ha : ∃ x, a = .sched x
    · obtain ⟨x, rfl⟩ := ha
      cases h1 with
      | sched h1 =>
        obtain ⟨σ, g1, rfl, g3⟩ := pstep_sched_inv h1
        exact .sched (K := contents b tools script eff) (a := x) g1 g3
    · exact .act ⟨a, fun x e => ha ⟨x, e⟩, h1⟩

end

end Maike.Build.Threaded
