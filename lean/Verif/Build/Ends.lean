import Verif.Build.Necessary
import Verif.Build.Dry

/-!
# Builds end (C87)

C17 is about the threads of `TaskList::process`, with tasks that end somehow. Here the tasks compare time stamps and wait for recipes, which
write targets.
-/

set_option linter.unusedSectionVars false

namespace Maike.Build

variable {P : Type} [DecidableEq P]

/-! ## Specification -/

/-- Actions after which less remains to be done: those of the threads, and those of recipes that write a target for the first time. -/
def Useful (s : State P) : Act P → Prop
  | .sched _ => True
  | .check _ => True
  | .write k p => ∀ t st, s.sched.running[k]? = some (t, st) → p ∉ s.written t
  | .touchDir _ => False
  | .tick => False

/-- The state `s'` can be reached from `s`, and `n` of the actions in between are useful ones. -/
inductive Works (b : Build P) : Nat → State P → State P → Prop
  | refl {s} : Works b 0 s s
  | useful {n s s' s'' a} : Works b n s s' → step b a s' = some s'' → Useful s' a → Works b (n + 1) s s''
  | other {n s s' s'' a} : Works b n s s' → step b a s' = some s'' → ¬ Useful s' a → Works b n s s''

/-! ## What remains to be done -/

def costOf (b : Build P) (s : State P) (t : Nat) : Nat :=
  (if s.decision t = none then 1 else 0) + ((b.task t).targets.filter fun p => p ∉ s.written t).length

def remaining (b : Build P) (s : State P) : Nat :=
  TaskList.pot b.job s.sched + (b.job.tasks.map (costOf b s)).sum

theorem sum_le {l : List Nat} {f g : Nat → Nat} (h : ∀ t, f t ≤ g t) : (l.map f).sum ≤ (l.map g).sum := by
  induction l with
  | nil => simp
  | cons x l ih => have := h x; simp only [List.map_cons, List.sum_cons]; omega

theorem sum_lt {l : List Nat} {f g : Nat → Nat} (h : ∀ t, f t ≤ g t) {t : Nat} (ht : t ∈ l) (hlt : f t < g t) :
    (l.map f).sum < (l.map g).sum := by
  induction l with
  | nil => cases ht
  | cons x l ih =>
    simp only [List.map_cons, List.sum_cons]
    rcases List.mem_cons.mp ht with rfl | ht
    · have := sum_le (l := l) h; omega
    · have := ih ht; have := h x; omega

theorem filter_le {l : List P} {w w' : List P} (h : ∀ p, p ∈ w → p ∈ w') :
    (l.filter fun p => p ∉ w').length ≤ (l.filter fun p => p ∉ w).length := by
  induction l with
  | nil => simp
  | cons x l ih =>
    simp only [List.filter_cons]
    have := h x
    by_cases h1 : x ∈ w <;> by_cases h2 : x ∈ w' <;> simp_all <;> omega

theorem filter_lt {l : List P} {w : List P} {p : P} (hl : p ∈ l) (hp : p ∉ w) :
    (l.filter fun q => q ∉ p :: w).length < (l.filter fun q => q ∉ w).length := by
  induction l with
  | nil => cases hl
  | cons x l ih =>
    simp only [List.filter_cons]
    have hle : (l.filter fun q => q ∉ p :: w).length ≤ (l.filter fun q => q ∉ w).length := filter_le fun q hq => List.mem_cons_of_mem _ hq
    rcases List.mem_cons.mp hl with rfl | hl
    · simp only [List.mem_cons, true_or, not_true_eq_false, decide_false, Bool.false_eq_true, if_false, hp, not_false_eq_true, decide_true, if_true,
        List.length_cons]
      simp only [List.mem_cons] at hle
      omega
    · have := ih hl
      by_cases h1 : x ∈ p :: w
      · by_cases h2 : x ∈ w
        · simp only [h1, h2, not_true_eq_false, decide_false, Bool.false_eq_true, if_false]; exact this
        · simp only [h1, h2, not_true_eq_false, not_false_eq_true, decide_true, decide_false, Bool.false_eq_true, if_false, if_true, List.length_cons]; omega
      · have h2 : x ∉ w := fun h => h1 (List.mem_cons_of_mem _ h)
        simp only [h1, h2, not_false_eq_true, decide_true, if_true, List.length_cons]; omega

theorem cost_check {b : Build P} {s : State P} {t : Nat} {d : Decision} (u : Nat) :
    costOf b { s with decision := update s.decision t (some d) } u ≤ costOf b s u := by
  simp only [costOf]
  by_cases h : u = t
  · subst h; simp only [update_self, reduceCtorEq, if_false]; omega
  · simp only [update_ne _ _ h]; omega

theorem cost_write {b : Build P} {s : State P} {t : Nat} {p : P} {fs : FileSys P} {clock : Nat} (u : Nat) :
    costOf b { s with fs := fs, clock := clock, written := update s.written t (p :: s.written t) } u ≤ costOf b s u := by
  simp only [costOf]
  by_cases h : u = t
  · subst h
    simp only [update_self]
    have := filter_le (l := (b.task u).targets) (w := s.written u) (w' := p :: s.written u) fun q hq => List.mem_cons_of_mem _ hq
    omega
  · simp only [update_ne _ _ h]; omega

/-- Useful actions leave less to be done, and others do not leave more. -/
theorem remaining_step {b : Build P} (hb : b.job.Topological) {s s' : State P} {a : Act P} (hr : TaskList.Reachable b.job s.sched)
    (h : step b a s = some s') : remaining b s' ≤ remaining b s ∧ (Useful s a → remaining b s' < remaining b s) := by
  rcases step_cases h with ⟨a', sched', rfl, hal, hs, rfl⟩ | ⟨k, t, rfl, hk, hdn, rfl⟩ | ⟨k, t, p, rfl, hk, hd, hp, rfl⟩ | ⟨p, rfl, _, rfl⟩ | ⟨rfl, rfl⟩
  · have hi := TaskList.inv hb hr
    have := TaskList.pot_step hi.a hi.b (TaskList.step_Step hs)
    have : remaining b { s with sched := sched' } < remaining b s := by
      simp only [remaining]
      show _ + (b.job.tasks.map (costOf b s)).sum < _
      omega
    exact ⟨by omega, fun _ => this⟩
  · obtain ⟨_, _, ht⟩ := TaskList.body_facts hb hr hk
    have : remaining b { s with decision := update s.decision t (some (decisionOf (shouldRun s.fs b.force (b.task t)))) } < remaining b s := by
      simp only [remaining]
      have := sum_lt (l := b.job.tasks) (fun u => cost_check (b := b) (s := s) (t := t) (d := decisionOf (shouldRun s.fs b.force (b.task t))) u) ht
        (by simp only [costOf, update_self, hdn, reduceCtorEq, if_false, if_true]; omega)
      omega
    exact ⟨by omega, fun _ => this⟩
  · obtain ⟨_, _, ht⟩ := TaskList.body_facts hb hr hk
    constructor
    · simp only [remaining]
      have := sum_le (l := b.job.tasks) (fun u => cost_write (b := b) (s := s) (t := t) (p := p) (fs := update s.fs p (some ⟨s.clock, b.kind p⟩))
        (clock := if b.fine then s.clock + 1 else s.clock) u)
      exact Nat.add_le_add_left this _
    · intro hu
      have hu := hu t _ hk
      simp only [remaining]
      have := sum_lt (l := b.job.tasks) (fun u => cost_write (b := b) (s := s) (t := t) (p := p) (fs := update s.fs p (some ⟨s.clock, b.kind p⟩))
        (clock := if b.fine then s.clock + 1 else s.clock) u) ht (by
          simp only [costOf, update_self]
          have := filter_lt hp hu
          omega)
      exact Nat.add_lt_add_left this _
  · exact ⟨Nat.le_refl _, fun h => h.elim⟩
  · exact ⟨Nat.le_refl _, fun h => h.elim⟩

theorem reachable_step {b : Build P} {s s' : State P} {a : Act P} (hr : TaskList.Reachable b.job s.sched) (h : step b a s = some s') :
    TaskList.Reachable b.job s'.sched := by
  rcases step_cases h with ⟨a', sched', rfl, hal, hs, rfl⟩ | ⟨k, t, rfl, hk, hdn, rfl⟩ | ⟨k, t, p, rfl, hk, hd, hp, rfl⟩ | ⟨p, rfl, _, rfl⟩ | ⟨rfl, rfl⟩
  · exact hr.step hs
  all_goals exact hr

theorem works_remaining {b : Build P} (hb : b.job.Topological) {n : Nat} {s s' : State P} (hr : TaskList.Reachable b.job s.sched)
    (h : Works b n s s') : TaskList.Reachable b.job s'.sched ∧ n + remaining b s' ≤ remaining b s := by
  induction h with
  | refl => exact ⟨hr, by omega⟩
  | useful _ h1 h2 ih =>
    obtain ⟨e1, e2⟩ := ih hr
    have := (remaining_step hb e1 h1).2 h2
    exact ⟨reachable_step e1 h1, by omega⟩
  | other _ h1 _ ih =>
    obtain ⟨e1, e2⟩ := ih hr
    have := (remaining_step hb e1 h1).1
    exact ⟨reachable_step e1 h1, by omega⟩

theorem exec_append {b : Build P} {as bs : List (Act P)} {s s' s'' : State P} (h1 : exec b as s = some s') (h2 : exec b bs s' = some s'') :
    exec b (as ++ bs) s = some s'' := by
  induction as generalizing s with
  | nil => simp [exec] at h1; subst h1; exact h2
  | cons a as ih =>
    simp only [exec, List.cons_append] at h1 ⊢
    split at h1
    · exact ih h1
    · cases h1

/-- Nothing is removed. -/
theorem exists_exec {b : Build P} {as : List (Act P)} {s s' : State P} (h : exec b as s = some s') {p : P} (hp : Exists s.fs p) : Exists s'.fs p := by
  refine exec_induction (Q := fun s => Exists s.fs p) ?_ hp h
  intro s a s' ih hs
  rcases step_cases hs with ⟨_, _, rfl, _, _, rfl⟩ | ⟨_, _, rfl, _, _, rfl⟩ | ⟨_, _, _, rfl, _, _, _, rfl⟩ | ⟨_, rfl, _, rfl⟩ | ⟨rfl, rfl⟩
  · exact ih
  · exact ih
  · exact exists_update ih
  · exact exists_update ih
  · exact ih

/-! ## C87: bounds -/

/-- **C87.** However threads and recipes are scheduled, and whatever the outcome of recipes is, the number of useful actions in a build cannot exceed a bound that
depends on the tasks only, not on the files. -/
theorem C87_bounded (b : Build P) (hb : b.job.Topological) :
    ∃ bound : Nat, ∀ (fs : FileSys P) (now n : Nat) (s : State P), Works b n (init b fs now) s → n ≤ bound := by
  refine ⟨TaskList.pot b.job (TaskList.init b.job) + (b.job.tasks.map fun t => 1 + (b.task t).targets.length).sum, fun fs now n s h => ?_⟩
  have h1 := (works_remaining hb ⟨[], rfl⟩ h).2
  have h2 : (b.job.tasks.map (costOf b (init b fs now))).sum ≤ (b.job.tasks.map fun t => 1 + (b.task t).targets.length).sum := by
    refine sum_le fun t => ?_
    have := List.length_filter_le (fun p => decide (p ∉ (init b fs now).written t)) (b.task t).targets
    simp only [costOf, init, if_true] at this ⊢
    omega
  simp only [remaining] at h1
  have h3 : (init b fs now).sched = TaskList.init b.job := rfl
  rw [h3] at h1
  omega

/-! ## C87: nothing gets stuck -/

/-- The sources of all tasks exist, and no task has thrown anything without recording a result. -/
structure Alive (b : Build P) (s : State P) : Prop where
  sched : TaskList.Reachable b.job s.sched
  sources : ∀ t ∈ b.job.tasks, Exists s.fs (b.task t).src
  noRaise : ∀ t ∈ b.job.tasks, s.decision t ≠ some .raise
  noThrow : ∀ t, .finish t .threw ∉ s.sched.hist

/-- The failures in the second state are those in the first one. -/
def NoNewFailure (s s' : State P) : Prop :=
  ∀ t o, .finish t o ∈ s'.sched.hist → o ≠ .success → .finish t o ∈ s.sched.hist

theorem decisionOf_raise {b : Build P} {fs : FileSys P} {t : Nat} (h : decisionOf (shouldRun fs b.force (b.task t)) = .raise) :
    ¬ Exists fs (b.task t).src := by
  cases hr : shouldRun fs b.force (b.task t) with
  | error e => exact (C12_error fs b.force (b.task t) hr).1
  | ok v => rw [hr] at h; cases v <;> cases h

theorem alive_step {b : Build P} {s s' : State P} {a : Act P} (hi : Alive b s) (h : step b a s = some s')
    (hnt : ∀ t, .finish t .threw ∉ s'.sched.hist) : Alive b s' := by
  have hr := reachable_step hi.sched h
  rcases step_cases h with ⟨a', sched', rfl, hal, hs, rfl⟩ | ⟨k, t, rfl, hk, hdn, rfl⟩ | ⟨k, t, p, rfl, hk, hd, hp, rfl⟩ | ⟨p, rfl, _, rfl⟩ | ⟨rfl, rfl⟩
  · exact ⟨hr, hi.sources, hi.noRaise, hnt⟩
  · refine ⟨hr, hi.sources, fun u hu he => ?_, hnt⟩
    by_cases hut : u = t
    · subst hut
      simp only [update_self, Option.some.injEq] at he
      exact decisionOf_raise he (hi.sources u hu)
    · simp only [update_ne _ _ hut] at he; exact hi.noRaise u hu he
  · exact ⟨hr, fun u hu => exists_update (hi.sources u hu), hi.noRaise, hnt⟩
  · exact ⟨hr, fun u hu => exists_update (hi.sources u hu), hi.noRaise, hnt⟩
  · exact ⟨hr, hi.sources, hi.noRaise, hnt⟩

theorem hist_step {b : Build P} {s s' : State P} {a : Act P} (h : step b a s = some s') {e : TaskList.Ev} (he : e ∈ s.sched.hist) :
    e ∈ s'.sched.hist := by
  rcases step_cases h with ⟨a', sched', rfl, hal, hs, rfl⟩ | ⟨k, t, rfl, hk, hdn, rfl⟩ | ⟨k, t, p, rfl, hk, hd, hp, rfl⟩ | ⟨p, rfl, _, rfl⟩ | ⟨rfl, rfl⟩
  · obtain ⟨l, hl⟩ := TaskList.step_hist hs
    show e ∈ sched'.hist
    rw [hl]; exact List.mem_append_left _ he
  all_goals exact he

/-- As long as the build has not ended, something useful can be done that is not a failure. -/
theorem alive_progress {b : Build P} (hb : b.job.Topological) (hw : 1 ≤ b.job.workers) {s : State P} (hi : Alive b s) :
    s.sched.Ended ∨ ∃ a s', Useful s a ∧ step b a s = some s' ∧ NoNewFailure s s' := by
  rcases TaskList.C17_no_deadlock hb hw hi.sched hi.noThrow with h | ⟨a, s', hs⟩
  · exact .inl h
  · right
    have notBody : ∀ (a : TaskList.Act) s', TaskList.step b.job a s.sched = some s' → allowed b s a = true →
        (∀ k o t, a = .work k o → s.sched.running[k]? = some (t, .body) → o = .success) →
        ∃ a s', Useful s a ∧ step b a s = some s' ∧ NoNewFailure s s' := by
      intro a s' hs hal hbody
      refine ⟨.sched a, { s with sched := s' }, trivial, by simp [step, hal, hs], fun t o hf ho => ?_⟩
      rcases step_finish hs hf with h | ⟨k, rfl, hk⟩
      · exact h
      · exact absurd (hbody k o t rfl hk) ho
    cases a with
    | main => exact notBody _ _ hs rfl (by intros; contradiction)
    | take => exact notBody _ _ hs rfl (by intros; contradiction)
    | work k o =>
      cases hk : s.sched.running[k]? with
      | none => simp [TaskList.step, TaskList.stepWork, hk] at hs
      | some x =>
        obtain ⟨t, st⟩ := x
        cases st with
        | body =>
          obtain ⟨_, _, ht⟩ := TaskList.body_facts hb hi.sched hk
          obtain ⟨s1, hs1⟩ : ∃ s1, TaskList.step b.job (.work k .success) s.sched = some s1 :=
            ⟨_, by simp only [TaskList.step, TaskList.stepWork, hk]; rfl⟩
          have finish : mayEnd b s t .success = true → ∃ a s', Useful s a ∧ step b a s = some s' ∧ NoNewFailure s s' := by
            intro hm
            refine notBody _ _ hs1 (by simpa only [allowed, hk] using hm) ?_
            intro k' o' t' e _
            cases e; rfl
          cases hdec : s.decision t with
          | none =>
            exact ⟨.check k, { s with decision := update s.decision t (some (decisionOf (shouldRun s.fs b.force (b.task t)))) }, trivial,
              by simp only [step, hk, hdec, if_true], fun t o hf _ => hf⟩
          | some dec =>
            cases dec with
            | skip => exact finish (by simp [mayEnd, hdec])
            | raise => exact absurd hdec (hi.noRaise t ht)
            | run =>
              cases hdry : b.dryrun with
              | true => exact finish (by simp [mayEnd, hdec, hdry])
              | false =>
                by_cases hall : ∀ p ∈ (b.task t).targets, p ∈ s.written t
                · exact finish (by simp [mayEnd, hdec, hdry]; exact fun p hp => .inl (hall p hp))
                · obtain ⟨p, hp⟩ := Classical.not_forall.mp hall
                  obtain ⟨hp, hpw⟩ := Classical.not_imp.mp hp
                  refine ⟨.write k p, { s with
                      fs := update s.fs p (some ⟨s.clock, b.kind p⟩)
                      clock := if b.fine then s.clock + 1 else s.clock
                      written := update s.written t (p :: s.written t) }, ?_, by simp only [step, hk, hdec, hdry, hp, true_and, if_true],
                    fun t o hf _ => hf⟩
                  intro t' st' e
                  rw [hk] at e
                  cases e
                  exact hpw
        | throwing => exact notBody _ _ hs (by simp [allowed, hk]) (by intro k' o' t' e e'; cases e; rw [hk] at e'; cases e')
        | exiting => exact notBody _ _ hs (by simp [allowed, hk]) (by intro k' o' t' e e'; cases e; rw [hk] at e'; cases e')
        | unlocking => exact notBody _ _ hs (by simp [allowed, hk]) (by intro k' o' t' e e'; cases e; rw [hk] at e'; cases e')

theorem alive_init {b : Build P} {fs : FileSys P} {now : Nat} (hsrc : ∀ t ∈ b.job.tasks, Exists fs (b.task t).src) : Alive b (init b fs now) :=
  ⟨⟨[], rfl⟩, hsrc, fun _ _ => (by simp [init]), fun _ => (by simp [init, TaskList.init])⟩

theorem alive_exec {b : Build P} {fs : FileSys P} {now : Nat} (hsrc : ∀ t ∈ b.job.tasks, Exists fs (b.task t).src) {as : List (Act P)} {s : State P}
    (h : exec b as (init b fs now) = some s) (hnt : ∀ t, .finish t .threw ∉ s.sched.hist) : Alive b s := by
  have : (∀ t, .finish t .threw ∉ s.sched.hist) → Alive b s := by
    refine exec_induction (Q := fun s => (∀ t, .finish t .threw ∉ s.sched.hist) → Alive b s) ?_ (fun _ => alive_init hsrc) h
    intro s a s' ih hs hn
    exact alive_step (ih fun t ht => hn t (hist_step hs ht)) hs hn
  exact this hnt

/-- **C87.** As long as no task has ended with an exception, a build whose source files exist does not get stuck: unless it has ended, some thread can proceed, or some recipe
can write a target that it has not written. -/
theorem C87_progress (b : Build P) (hb : b.job.Topological) (hw : 1 ≤ b.job.workers) {fs : FileSys P} {now : Nat}
    (hsrc : ∀ t ∈ b.job.tasks, Exists fs (b.task t).src) {as : List (Act P)} {s : State P} (h : exec b as (init b fs now) = some s)
    (hnt : ∀ t, .finish t .threw ∉ s.sched.hist) : s.sched.Ended ∨ ∃ a s', Useful s a ∧ step b a s = some s' := by
  rcases alive_progress hb hw (alive_exec hsrc h hnt) with h | ⟨a, s', h1, h2, _⟩
  · exact .inl h
  · exact .inr ⟨a, s', h1, h2⟩

theorem alive_ends {b : Build P} (hb : b.job.Topological) (hw : 1 ≤ b.job.workers) {s : State P} (hi : Alive b s) :
    ∃ as s', exec b as s = some s' ∧ s'.sched.Ended ∧ NoNewFailure s s' := by
  generalize hk : remaining b s = k
  induction k using Nat.strongRecOn generalizing s with
  | ind k ih =>
    rcases alive_progress hb hw hi with h | ⟨a, s1, h1, h2, h3⟩
    · exact ⟨[], s, rfl, h, fun _ _ h _ => h⟩
    · have hi1 := alive_step hi h2 (fun t ht => hi.noThrow t (h3 t _ ht (by simp)))
      obtain ⟨as, s', g1, g2, g3⟩ := ih _ (hk ▸ (remaining_step hb hi.sched h2).2 h1) hi1 rfl
      exact ⟨a :: as, s', by simp only [exec, h2]; exact g1, g2, fun t o hf ho => h3 t o (g3 t o hf ho) ho⟩

/-- **C87.** From wherever a build is, as long as no task has ended with an exception, it can end without further failures. If there have not been any before, it succeeds. -/
theorem C87_can_end (b : Build P) (hb : b.job.Topological) (hw : 1 ≤ b.job.workers) {fs : FileSys P} {now : Nat}
    (hsrc : ∀ t ∈ b.job.tasks, Exists fs (b.task t).src) {as : List (Act P)} {s : State P} (h : exec b as (init b fs now) = some s)
    (hnt : ∀ t, .finish t .threw ∉ s.sched.hist) :
    ∃ as' s', exec b as' s = some s' ∧ s'.sched.Ended ∧ ((∀ t, .finish t .failure ∉ s.sched.hist) → s'.Succeeded) := by
  have hi := alive_exec hsrc h hnt
  obtain ⟨as', s', h1, h2, h3⟩ := alive_ends hb hw hi
  refine ⟨as', s', h1, h2, fun hnf => ?_⟩
  rcases h2 with h2 | ⟨t, ht⟩
  · exact h2
  · exfalso
    have hr : TaskList.Reachable b.job s'.sched := exec_induction (Q := fun s => TaskList.Reachable b.job s.sched) (fun _ _ _ => reachable_step) hi.sched h1
    rcases (TaskList.inv hb hr).c.ended_thr t ht with h | h
    · exact hnf t (h3 t _ h (by simp))
    · exact hnt t (h3 t _ h (by simp))

end Maike.Build
