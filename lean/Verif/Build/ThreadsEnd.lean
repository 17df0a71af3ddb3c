import Verif.Build.ThreadTheorems
import Verif.Build.Ends

/-!
# Builds, one operation of a thread at a time: builds can end (C107)

`C107_progress` says that some thread can go on. Here the threads go on until `process` returns: from each state that is reached, whatever has been interleaved so far.
-/

namespace Maike.Build.Threaded

open Maike.TaskList (Job Outcome)
open Maike.TaskList.Threads (Start)

variable {P : Type} [DecidableEq P]

/-- The failures in the second state are those in the first one. -/
def NoNewFailure (th th' : TaskList.Threads.State) : Prop := ∀ t o, .finish t o ∈ th'.hist → o ≠ .success → .finish t o ∈ th.hist

theorem reachable_next {j : Job} {th th' : TaskList.Threads.State} {a : TaskList.Threads.Act} (h : TaskList.Threads.Reachable j th) (hs : TaskList.Threads.step j a th = some th') :
    TaskList.Threads.Reachable j th' := by
  obtain ⟨s₀, as, h0, h⟩ := h
  refine ⟨s₀, as ++ [a], h0, ?_⟩
  clear h0
  induction as generalizing s₀ with
  | nil => simp only [TaskList.Threads.exec, Option.some.injEq] at h; subst h; simp [TaskList.Threads.exec, hs]
  | cons x as ih =>
    simp only [TaskList.Threads.exec, List.cons_append] at h ⊢
    split at h
    · exact ih _ h
    · cases h

theorem Reaches.more {K : Kind} {j : Job} {e : K.S} {s s' : TState K} {as : List TaskList.Threads.Act} (h : Reaches K j e s) (h' : TExec K j as s s') : Reaches K j e s' := by
  obtain ⟨th, bs, h0, h⟩ := h
  exact ⟨th, bs ++ as, h0, h.append h'⟩

/-- One operation of a thread, or one action of a task, towards the end. -/
theorem advance {b : Build P} (hj : b.job.Topological) (hw : 1 ≤ b.job.workers) {s : TState (plain b)} {σ : TaskList.State} (hr : TaskList.Threads.Reachable b.job s.th) (hg : TaskList.Threads.Good b.job s.th σ)
    (hi : Alive b ((plain b).put s.env σ)) :
    s.th.Ended ∨
    (∃ a s', a.isSpurious = false ∧ TStep (plain b) b.job (some a) s s' ∧ NoNewFailure s.th s'.th ∧ s'.env = s.env) ∨
    ∃ s', TStep (plain b) b.job none s s' ∧ s'.th = s.th ∧ Alive b ((plain b).put s'.env σ) ∧ (b.job.tasks.map (costOf b s'.env)).sum < (b.job.tasks.map (costOf b s.env)).sum := by
  have hthrew : ∀ t, .finish t .threw ∉ s.th.hist := fun t h => hi.noThrow t (show _ ∈ σ.hist by rw [hg.rel.hist]; exact h)
  rcases TaskList.Threads.C104_progress hj hw hr hthrew with he | ⟨a, th', ha, hs⟩
  · exact .inl he
  right
  by_cases hb : ∃ k o t, a = .work k o ∧ s.th.wpcs[k]? = some (.body t)
  · obtain ⟨k, o, t, rfl, hk⟩ := hb
    have hv : (view b.job s.th).running[k]? = some (t, .body) := by simp [view, hk]
    have hm : (t, TaskList.Stage.body) ∈ σ.running := body_running hg (List.mem_of_getElem? hv)
    obtain ⟨k', hk'⟩ := List.getElem?_of_mem hm
    obtain ⟨_, _, ht⟩ := TaskList.body_facts hj hg.reach hk'
    have finish : mayEnd b s.env t .success = true → ∃ a s', a.isSpurious = false ∧ TStep (plain b) b.job (some a) s s' ∧ NoNewFailure s.th s'.th ∧ s'.env = s.env := by
      intro hmay
      obtain ⟨th₁, hth₁⟩ : ∃ th', TaskList.Threads.step b.job (.work k .success) s.th = some th' := by simp [TaskList.Threads.step, TaskList.Threads.stepWork, hk]
      refine ⟨.work k .success, ⟨th₁, s.env⟩, rfl, .thread hth₁ ?_, ?_, rfl⟩
      · rintro _ _ t' e ht'
        cases e
        rw [hk] at ht'
        cases ht'
        exact hmay
      · intro u o hu ho
        rcases thread_hist hth₁ with e | ⟨v, e⟩ | ⟨v, e⟩ | ⟨_, o', v, e', _, e⟩ <;> rw [e] at hu
        · exact hu
        · simpa using hu
        · simpa using hu
        · cases e'
          rcases List.mem_append.mp hu with hu | hu
          · exact hu
          · simp only [List.mem_singleton, TaskList.Ev.finish.injEq] at hu
            exact absurd hu.2 ho
    cases hd : s.env.decision t with
    | none =>
      right
      refine ⟨⟨s.th, { s.env with decision := update s.env.decision t (some (decisionOf (shouldRun s.env.fs b.force (b.task t)))), sched := view b.job s.th }⟩, .act ⟨.check k, by simp, ?_⟩, rfl, ?_, ?_⟩
      · show step b (.check k) { s.env with sched := view b.job s.th } = _
        simp only [step, hv, hd, if_true]
      · refine ⟨hi.sched, hi.sources, fun u hu he => ?_, hi.noThrow⟩
        have he : update s.env.decision t (some (decisionOf (shouldRun s.env.fs b.force (b.task t)))) u = some .raise := he
        by_cases hut : u = t
        · subst hut
          rw [update_self, Option.some.injEq] at he
          exact decisionOf_raise he (hi.sources u hu)
        · rw [update_ne _ _ hut] at he; exact hi.noRaise u hu he
      · exact sum_lt (fun u => cost_check (b := b) (s := s.env) (t := t) (d := decisionOf (shouldRun s.env.fs b.force (b.task t))) u) ht
          (by show (if update s.env.decision t _ t = none then 1 else 0) + _ < (if s.env.decision t = none then 1 else 0) + _
              simp only [update_self, hd, reduceCtorEq, if_false, if_true]; omega)
    | some x =>
      cases x with
      | skip => exact .inl (finish (by simp [mayEnd, hd]))
      | raise => exact absurd hd (hi.noRaise t ht)
      | run =>
        cases hdr : b.dryrun with
        | true => exact .inl (finish (by simp [mayEnd, hd, hdr]))
        | false =>
          by_cases hall : ∀ p ∈ (b.task t).targets, p ∈ s.env.written t
          · exact .inl (finish (by simp [mayEnd, hd, hdr]; exact fun p hp => .inl (hall p hp)))
          · right
            obtain ⟨p, hp⟩ := Classical.not_forall.mp hall
            obtain ⟨hp, hpw⟩ := Classical.not_imp.mp hp
            refine ⟨⟨s.th, { s.env with
                fs := update s.env.fs p (some ⟨s.env.clock, b.kind p⟩)
                clock := if b.fine then s.env.clock + 1 else s.env.clock
                written := update s.env.written t (p :: s.env.written t)
                sched := view b.job s.th }⟩, .act ⟨.write k p, by simp, ?_⟩, rfl, ?_, ?_⟩
            · show step b (.write k p) { s.env with sched := view b.job s.th } = _
              simp only [step, hv, hd, hdr, hp, true_and, if_true]
            · exact ⟨hi.sched, fun u hu => exists_update (hi.sources u hu), hi.noRaise, hi.noThrow⟩
            · refine sum_lt (fun u => cost_write (b := b) (s := s.env) (t := t) (p := p) (fs := update s.env.fs p (some ⟨s.env.clock, b.kind p⟩)) (clock := if b.fine then s.env.clock + 1 else s.env.clock) u) ht ?_
              show _ + ((b.task t).targets.filter fun q => q ∉ update s.env.written t (p :: s.env.written t) t).length < _ + _
              have := filter_lt hp hpw
              simp only [update_self]
              omega
  · left
    refine ⟨a, ⟨th', s.env⟩, ha, .thread hs fun k o t e hk => absurd ⟨k, o, t, e, hk⟩ hb, ?_, rfl⟩
    intro u o hu ho
    rcases thread_hist hs with e | ⟨v, e⟩ | ⟨v, e⟩ | ⟨_, o', v, e', hv, e⟩ <;> rw [e] at hu
    · exact hu
    · simpa using hu
    · simpa using hu
    · exact absurd ⟨_, _, _, e', hv⟩ hb

theorem finishes {b : Build P} (hj : b.job.Topological) (hw : 1 ≤ b.job.workers) (n : Nat) {s : TState (plain b)} {σ : TaskList.State} (hr : TaskList.Threads.Reachable b.job s.th) (hg : TaskList.Threads.Good b.job s.th σ)
    (hi : Alive b ((plain b).put s.env σ))
    (hn : 12 * TaskList.pot b.job σ + TaskList.Threads.weight s.th + (b.job.tasks.map (costOf b s.env)).sum ≤ n) :
    ∃ as s', TExec (plain b) b.job as s s' ∧ (∀ a ∈ as, a.isSpurious = false) ∧ s'.th.Ended ∧ NoNewFailure s.th s'.th := by
  induction n generalizing s σ with
  | zero =>
    rcases advance hj hw hr hg hi with h | ⟨a, s', ha, h1, h2, h3⟩ | ⟨s', h1, h2, h3, h4⟩
    · exact ⟨[], s, .nil, by simp, h, fun _ _ h _ => h⟩
    · cases h1 with
      | thread hs _ =>
        obtain ⟨_, _, h, _⟩ := hg.step hj hs
        simp only [ha, Bool.false_eq_true, if_false] at h
        omega
    · omega
  | succ n ih =>
    rcases advance hj hw hr hg hi with h | ⟨a, s', ha, h1, h2, h3⟩ | ⟨s', h1, h2, h3, h4⟩
    · exact ⟨[], s, .nil, by simp, h, fun _ _ h _ => h⟩
    · cases h1 with
      | @thread _ _ th hs he =>
        obtain ⟨σ', g1, g2, _⟩ := hg.step hj hs
        simp only [ha, Bool.false_eq_true, if_false] at g2
        have hi' : Alive b ((plain b).put s.env σ') :=
          ⟨g1.reach, hi.sources, hi.noRaise, fun t ht => hi.noThrow t (by
            have ht : TaskList.Ev.finish t .threw ∈ σ'.hist := ht
            rw [g1.rel.hist] at ht
            show _ ∈ σ.hist
            rw [hg.rel.hist]
            exact h2 t _ ht (by simp))⟩
        obtain ⟨as, s₂, k1, k2, k3, k4⟩ := ih (s := ⟨th, s.env⟩) (reachable_next hr hs) g1 hi' (by dsimp only; omega)
        exact ⟨[a] ++ as, s₂, .cons (.thread hs he) k1, by intro x hx; rcases List.mem_append.mp hx with hx | hx; (· simp only [List.mem_singleton] at hx; rw [hx]; exact ha); exact k2 x hx, k3,
          fun t o h ho => h2 t o (k4 t o h ho) ho⟩
    · obtain ⟨as, s₂, k1, k2, k3, k4⟩ := ih (s := s') (σ := σ) (by rw [h2]; exact hr) (by rw [h2]; exact hg) h3 (by rw [h2]; omega)
      exact ⟨[] ++ as, s₂, .cons h1 k1, k2, k3, by rw [h2] at k4; exact k4⟩

/-- **C107 (builds can end).** From each state that is reached, `process` can end without a spurious wake-up and without a further failure, if the sources existed at first and no task has ended with an exception other than
the one for recipes that fail; and if no recipe has failed, then it can return. -/
theorem C107_can_end (b : Build P) (hj : b.job.Topological) (hw : 1 ≤ b.job.workers) {fs : FileSys P} {now : Nat} (hsrc : ∀ t ∈ b.job.tasks, Exists fs (b.task t).src) {s : TState (plain b)}
    (h : Reaches (plain b) b.job (init b fs now) s) (hthrew : ∀ t, .finish t .threw ∉ s.th.hist) :
    ∃ as s', TExec (plain b) b.job as s s' ∧ (∀ a ∈ as, a.isSpurious = false) ∧ s'.th.Ended ∧ ((∀ t, .finish t .failure ∉ s.th.hist) → ∃ n, s'.th.mpc = .returned n) := by
  obtain ⟨σ, h1, h2⟩ := h.refines (plain_lawful b) hj rfl
  obtain ⟨as, has⟩ := plain_steps h2
  have hi : Alive b ((plain b).put s.env σ) := alive_exec hsrc has fun t ht => hthrew t (by
    have ht : TaskList.Ev.finish t .threw ∈ σ.hist := ht
    rwa [h1.rel.hist] at ht)
  obtain ⟨as', s', k1, k2, k3, k4⟩ := finishes hj hw _ h.threads h1 hi (Nat.le_refl _)
  refine ⟨as', s', k1, k2, k3, fun hf => ?_⟩
  rcases k3 with ⟨n, hn⟩ | ⟨t, ht⟩
  · exact ⟨n, hn⟩
  · exfalso
    obtain ⟨σ', g1, _⟩ := k1.refines (plain_lawful b) hj h1 h2
    have hp : σ'.pc = .rethrown t := (good_returned g1).2 t ht
    rcases (TaskList.inv hj g1.reach).c.ended_thr t hp with h | h
    · rw [g1.rel.hist] at h; exact hf t (k4 t _ h (by simp))
    · rw [g1.rel.hist] at h; exact hthrew t (k4 t _ h (by simp))

end Maike.Build.Threaded
