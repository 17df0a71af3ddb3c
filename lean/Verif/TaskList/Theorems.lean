import Verif.TaskList.Lemmas3

/-!
# Theorems about `TaskList::process` (C15 – C20)

All theorems quantify over every job in topological order, every number of workers,
every schedule and every outcome of each task. `s.hist` is the sequence of visible events so far.
-/

namespace Maike.TaskList

/-! A concrete job to show that the hypotheses are met: a diamond, where 3 needs 1 and 2, which
need 0. Node 9 is a source file without a target. -/

def diamond : Job where
  tasks := [0, 1, 2, 3]
  deps := fun | 0 => [9] | 1 => [0, 9] | 2 => [0] | 3 => [1, 2] | _ => []
  workers := 2

theorem diamond_topological : diamond.Topological := by
  refine ⟨by decide, ?_⟩
  intro l₁ t l₂ h d hd hdt
  simp only [diamond] at h hd hdt
  rcases l₁ with _ | ⟨a, _ | ⟨b, _ | ⟨c, _ | ⟨e, l₁⟩⟩⟩⟩ <;>
    simp only [List.nil_append, List.cons_append, List.cons.injEq] at h
  · obtain ⟨rfl, _⟩ := h; revert hdt; revert d; decide
  · obtain ⟨rfl, rfl, _⟩ := h; revert hdt; revert d; decide
  · obtain ⟨rfl, rfl, rfl, _⟩ := h; revert hdt; revert d; decide
  · obtain ⟨rfl, rfl, rfl, rfl, _⟩ := h; revert hdt; revert d; decide
  · obtain ⟨_, _, _, _, h⟩ := h; simp at h

/-- A complete schedule of the diamond in which 1 and 2 run concurrently. -/
def diamondSchedule : List Act :=
  let m := Act.main
  -- 0 is submitted; 1, 2 and 3 are pending
  [m, m, m] ++ [m, m] ++ [m, m] ++ [m, m] ++
  [.take, .work 0 .success, .work 0 .success, .work 0 .success] ++
  -- 1 and 2 are submitted, 3 is pending
  [m] ++ [m, m, m, m] ++ [m, m, m] ++ [m, m] ++
  [.take, .take, .work 1 .success, .work 0 .success, .work 1 .success, .work 1 .success,
    .work 0 .success, .work 0 .success] ++
  [m] ++ [m, m, m, m] ++ [.take, .work 0 .success, .work 0 .success, .work 0 .success] ++
  [m, m, m]

/-! ## C15 -/

/-- **C15.** Whenever a task starts, each of its dependencies that is a task has
already finished, with success. -/
theorem C15_dependencies_first {j : Job} (hj : j.Topological) {s : State} (hr : Reachable j s)
    {h₁ h₂ : List Ev} {t : Nat} (hh : s.hist = h₁ ++ .start t :: h₂) :
    ∀ d ∈ j.deps t, d ∈ j.tasks → .finish d .success ∈ h₁ := by
  intro d hd hdt
  have hi := inv hj hr
  obtain ⟨a, b, hab⟩ := List.append_of_mem (hi.b.start_ok _ _ _ hh)
  have := hi.b.submit_ok a t (b ++ .start t :: h₂) (by rw [hh, hab]; simp) d hd hdt
  rw [hab]; exact List.mem_append_left _ this

example : ∃ s, exec diamond diamondSchedule (init diamond) = some s ∧ s.pc = .returned 4 ∧
    s.hist = [.submit 0, .start 0, .finish 0 .success, .submit 1, .submit 2, .start 1, .start 2,
      .finish 2 .success, .finish 1 .success, .submit 3, .start 3, .finish 3 .success] :=
  ⟨_, rfl, rfl, rfl⟩

/-! ## C16 -/

theorem count_starts (h : List Ev) (t : Nat) : h.count (.start t) = (starts h).count t := by
  induction h with
  | nil => rfl
  | cons e h ih =>
    have hc : starts (e :: h) = starts [e] ++ starts h := by rw [← starts_append]; rfl
    rw [hc, List.count_append, List.count_cons, ih]
    cases e <;> simp [starts, List.count_cons]
    omega

theorem length_le_of_subset {a b : List Nat} (ha : a.Nodup) (h : ∀ x ∈ a, x ∈ b) :
    a.length ≤ b.length := by
  induction a generalizing b with
  | nil => simp
  | cons x a ih =>
    simp only [List.nodup_cons] at ha
    have hx := h x (by simp)
    have := ih (b := b.erase x) ha.2 (fun y hy => by
      have hyx : y ≠ x := by rintro rfl; exact ha.1 hy
      exact (List.mem_erase_of_ne hyx).mpr (h y (by simp [hy])))
    rw [List.length_erase_of_mem hx] at this
    have hpos : 0 < b.length := List.length_pos_of_mem hx
    simp only [List.length_cons]; omega

theorem length_starts (h : List Ev) :
    (starts h).length = h.countP (fun | .start _ => true | _ => false) := by
  induction h with
  | nil => rfl
  | cons e h ih =>
    have hc : starts (e :: h) = starts [e] ++ starts h := by rw [← starts_append]; rfl
    rw [hc, List.length_append, ih, List.countP_cons]
    cases e <;> simp [starts]; omega

theorem length_fins (h : List Ev) :
    (fins h).length = h.countP (fun | .finish _ _ => true | _ => false) := by
  induction h with
  | nil => rfl
  | cons e h ih =>
    have hc : fins (e :: h) = fins [e] ++ fins h := by rw [← fins_append]; rfl
    rw [hc, List.length_append, ih, List.countP_cons]
    cases e <;> simp [fins]; omega

/-- **C16.** No task is started twice, nothing but the tasks of the list is started, and
at no time are more bodies being executed than there are workers. -/
theorem C16_at_most_once {j : Job} (hj : j.Topological) {s : State} (hr : Reachable j s) :
    (∀ t, s.hist.count (.start t) ≤ 1) ∧ (∀ t, .start t ∈ s.hist → t ∈ j.tasks) ∧
    s.hist.countP (fun | .start _ => true | _ => false) ≤
      s.hist.countP (fun | .finish _ _ => true | _ => false) + j.workers := by
  have hi := (inv hj hr).a
  refine ⟨fun t => ?_, fun t ht => ?_, ?_⟩
  · rw [count_starts]; exact List.nodup_iff_count.mp (starts_nodup hi) t
  · apply hi.subs_tasks; rw [hi.fifo]; exact List.mem_append_left _ (mem_starts.mpr ht)
  · rw [← length_starts, ← length_fins]
    have := length_le_of_subset (b := fins s.hist ++ s.running.map Prod.fst) (starts_nodup hi) (by
      intro x hx
      by_cases hb : (x, Stage.body) ∈ s.running
      · exact List.mem_append_right _ (List.mem_map.mpr ⟨_, hb, rfl⟩)
      · exact List.mem_append_left _ ((hi.fin_iff x).mpr ⟨hx, hb⟩))
    rw [List.length_append, List.length_map] at this
    have := hi.bound
    omega

/-! ## C17 -/

/-- **C17 (termination).** There is a bound on the number of steps that depends on the job only:
no schedule and no combination of outcomes makes the threads run forever. -/
theorem C17_bounded {j : Job} (hj : j.Topological) :
    ∃ bound : Nat, ∀ (as : List Act) (s : State), exec j as (init j) = some s → as.length ≤ bound := by
  refine ⟨pot j (init j), fun as s h => ?_⟩
  have := exec_length hj as _ _ (inv hj ⟨[], rfl⟩) h
  omega

/-- **C17 (no deadlock).** As long as each task that has ended did so by recording a result, some
thread can proceed until `process` has ended. -/
theorem C17_no_deadlock {j : Job} (hj : j.Topological) (hw : 1 ≤ j.workers) {s : State}
    (hr : Reachable j s) (hthrew : ∀ t, .finish t .threw ∉ s.hist) :
    s.Ended ∨ ∃ a s', step j a s = some s' := by
  by_cases hst : Stuck j s
  · rcases stuck_cases hj hw (inv hj hr) hst with h | ⟨_, _, _, d, _, h⟩
    · exact .inl h
    · exact absurd h (hthrew d)
  · right
    unfold Stuck at hst
    rw [Classical.not_forall] at hst
    obtain ⟨a, ha⟩ := hst
    rcases h : step j a s with _ | s'
    · exact absurd h ha
    · exact ⟨a, s', h⟩

/-- **C17 (use after return).** When `process` has ended, no task is queued or being executed, so no
worker can touch the counter and the event, which live on the stack of `process`. -/
theorem C17_quiescent {j : Job} (hj : j.Topological) {s : State} (hr : Reachable j s)
    (he : s.Ended) : ∀ a, step j a s = none := by
  have h := (inv hj hr).a.ended he
  intro a
  cases a with
  | main => rcases he with ⟨n, hn⟩ | ⟨n, hn⟩ <;> simp [step, stepMain, hn]
  | take => simp [step, stepTake, h]
  | work k o => simp [step, stepWork, h]

example : 1 ≤ diamond.workers ∧
    ∃ s, exec diamond (diamondSchedule.take 12) (init diamond) = some s ∧
      s.hist = [.submit 0, .start 0, .finish 0 .success] ∧ s.pc = .waiting :=
  ⟨by decide, _, rfl, rfl, rfl⟩

/-! ## C18 -/

/-- **C18 is false of the code.** If a task throws without recording a result
(for example because the recipe cannot be launched), `process` can wait forever: here task 1 needs
task 0, task 0 throws, and afterwards no thread can do anything although
`process` has not ended. -/
theorem C18_false : ∃ (j : Job) (as : List Act) (s : State), j.Topological ∧ 1 ≤ j.workers ∧
    exec j as (init j) = some s ∧ .finish 0 .threw ∈ s.hist ∧ Stuck j s ∧ ¬ s.Ended := by
  refine ⟨⟨[0, 1], fun | 1 => [0] | _ => [], 1⟩,
    [.main, .main, .main, .main, .take, .work 0 .threw, .work 0 .threw, .work 0 .threw,
      .work 0 .threw, .main, .main, .main], _, ?_, by decide, rfl, by decide, ?_, ?_⟩
  · refine ⟨by decide, ?_⟩
    intro l₁ t l₂ h d hd hdt
    rcases l₁ with _ | ⟨a, _ | ⟨b, l₁⟩⟩ <;>
      simp only [List.nil_append, List.cons_append, List.cons.injEq] at h
    · obtain ⟨rfl, _⟩ := h; revert hdt; revert d; decide
    · obtain ⟨rfl, rfl, _⟩ := h; revert hdt; revert d; decide
    · obtain ⟨_, _, h⟩ := h; simp at h
  · intro a
    cases a with
    | main => rfl
    | take => rfl
    | work k o => rfl
  · rintro (⟨n, h⟩ | ⟨n, h⟩) <;> cases h

/-- The defect is not an accident of one schedule: whenever a task that another task needs throws
without recording a result, then `process` does not end, unless some other task records a failure. -/
theorem C18_never_ends {j : Job} (hj : j.Topological) {s : State} (hr : Reachable j s)
    {d u : Nat} (hu : u ∈ j.tasks) (hdu : d ∈ j.deps u) (hd : .finish d .threw ∈ s.hist)
    (hnofail : ∀ t, .finish t .failure ∉ s.hist) : ¬ s.Ended := by
  intro he
  have hi := inv hj hr
  have hps := hi.a.at_end (.inr he)
  have hdt : d ∈ j.tasks := by
    apply hi.a.subs_tasks
    rw [hi.a.fifo]
    exact List.mem_append_left _ ((hi.a.fin_iff d).mp (mem_fins.mpr ⟨_, hd⟩)).1
  rcases hi.b.cover with h | ⟨_, _, _, _, _, x, _, h⟩
  · rcases h u hu with h | h
    · rw [hps.1, hps.2] at h; simp at h
    · obtain ⟨a, b, hab⟩ := List.append_of_mem (mem_subs.mp h)
      have := hi.b.submit_ok a u b hab d hdu hdt
      have := finish_unique hi.a.fin_nodup (t := d) (o := .success) (o' := .threw)
        (by rw [hab]; exact List.mem_append_left _ this) hd
      cases this
  · exact hnofail x h

/-- **C18, the part that holds.** If no task needs a task that threw without recording
a result, then `process` does not hang, and it reports a failure.
Missing: the case where the task is needed by some other task, in which the claim is false. -/
theorem C18_reported_partial {j : Job} (hj : j.Topological) (hw : 1 ≤ j.workers) {s : State}
    (hr : Reachable j s) (hst : Stuck j s) {d : Nat} (hd : .finish d .threw ∈ s.hist)
    (hleaf : ∀ x, .finish x .threw ∈ s.hist → ∀ u ∈ j.tasks, x ∉ j.deps u) :
    ∃ t, s.pc = .rethrown t ∧ (.finish t .failure ∈ s.hist ∨ .finish t .threw ∈ s.hist) := by
  have hi := inv hj hr
  rcases stuck_cases hj hw hi hst with h | ⟨_, u, hu, x, hx, hxt⟩
  · rcases h with ⟨n, hn⟩ | ⟨t, ht⟩
    · exact absurd (.inr hd) ((hi.c.ended_ret n hn).2 d)
    · exact ⟨t, ht, hi.c.ended_thr t ht⟩
  · exact absurd hx (hleaf x hxt u (hi.a.sub.subset (List.mem_append_left _ hu)))

/-- Task 3 of the diamond, on which no task depends, throws. -/
example : ∃ s, exec diamond
    (diamondSchedule.take 36 ++ [.take, .work 0 .threw, .work 0 .threw, .work 0 .threw, .work 0 .threw,
      .main, .main, .main]) (init diamond) = some s ∧ s.pc = .rethrown 3 ∧
    .finish 3 .threw ∈ s.hist ∧ ∀ u ∈ diamond.tasks, 3 ∉ diamond.deps u :=
  ⟨_, rfl, rfl, by decide, by decide⟩

/-! ## C19 -/

/-- **C19 (dependants).** If a task has failed, in either way, then no task that needs it,
directly or indirectly, is ever started. -/
theorem C19_dependants_not_started {j : Job} (hj : j.Topological) {s : State} (hr : Reachable j s)
    {f u : Nat} (hf : .finish f .failure ∈ s.hist ∨ .finish f .threw ∈ s.hist) (hn : Needs j u f) :
    .start u ∉ s.hist := by
  have hi := inv hj hr
  have key : ∀ u f, Needs j u f → .start u ∈ s.hist → .finish f .success ∈ s.hist := by
    intro u f hn
    induction hn with
    | direct h1 h2 =>
      intro hs
      obtain ⟨a, b, hab⟩ := List.append_of_mem hs
      have := C15_dependencies_first hj hr hab _ h1 h2
      rw [hab]; exact List.mem_append_left _ this
    | @trans u v d h1 h2 _ ih =>
      intro hs
      apply ih
      obtain ⟨a, b, hab⟩ := List.append_of_mem hs
      have := C15_dependencies_first hj hr hab _ h1 h2
      obtain ⟨a', b', hab'⟩ := List.append_of_mem this
      have hst := hi.b.finish_ok a' v .success (b' ++ .start u :: b) (by rw [hab, hab']; simp)
      rw [hab, hab']; simp [hst]
  intro hs
  have := key u f hn hs
  rcases hf with hf | hf
  · have := finish_unique hi.a.fin_nodup this hf; cases this
  · have := finish_unique hi.a.fin_nodup this hf; cases this

/-- **C19 (reported).** If some task has failed and `process` ends, then it ends by throwing
the exception of a task that failed. -/
theorem C19_reported {j : Job} (hj : j.Topological) {s : State} (hr : Reachable j s) (he : s.Ended)
    {f : Nat} (hf : .finish f .failure ∈ s.hist ∨ .finish f .threw ∈ s.hist) :
    ∃ t, s.pc = .rethrown t ∧ (.finish t .failure ∈ s.hist ∨ .finish t .threw ∈ s.hist) := by
  have hi := inv hj hr
  rcases he with ⟨n, hn⟩ | ⟨t, ht⟩
  · exact absurd hf ((hi.c.ended_ret n hn).2 f)
  · exact ⟨t, ht, hi.c.ended_thr t ht⟩

/-- Task 1 of the diamond fails; 2 runs anyway, 3 does not. -/
example : ∃ s, exec diamond
    (diamondSchedule.take 23 ++ [.take, .take, .work 0 .failure, .work 0 .failure, .work 0 .failure,
      .work 0 .failure, .work 0 .success, .work 0 .success, .work 0 .success] ++
      List.replicate 5 .main) (init diamond) = some s ∧ s.pc = .rethrown 1 ∧
    .finish 1 .failure ∈ s.hist ∧ .finish 2 .success ∈ s.hist ∧ Needs diamond 3 1 :=
  ⟨_, rfl, rfl, by decide, by decide, .direct (by decide) (by decide)⟩

/-! ## C20 -/

/-- **C20.** `process` returns normally only if each task has been executed exactly once
and with success; what it returns is the number of tasks. -/
theorem C20_returns_complete {j : Job} (hj : j.Topological) {s : State} (hr : Reachable j s)
    {n : Nat} (hn : s.pc = .returned n) :
    n = j.tasks.length ∧ ∀ t ∈ j.tasks, s.hist.count (.start t) = 1 ∧ .finish t .success ∈ s.hist := by
  have hi := inv hj hr
  have hps := hi.a.at_end (.inr (.inl ⟨n, hn⟩))
  have hend := hi.a.ended (.inl ⟨n, hn⟩)
  obtain ⟨hnum, hnb⟩ := hi.c.ended_ret n hn
  have hall : ∀ t ∈ j.tasks, t ∈ subs s.hist := by
    rcases hi.b.cover with h | ⟨_, _, _, _, _, x, _, h⟩
    · intro t ht
      rcases h t ht with h | h
      · rw [hps.1, hps.2] at h; simp at h
      · exact h
    · exact absurd (.inl h) (hnb x)
  have hst : starts s.hist = subs s.hist := by rw [hi.a.fifo, hend.1]; simp
  refine ⟨?_, fun t ht => ⟨?_, ?_⟩⟩
  · rw [hnum, hi.a.num]
    exact Nat.le_antisymm (length_le_of_subset hi.a.subs_nodup hi.a.subs_tasks)
      (length_le_of_subset hj.nodup hall)
  · have h1 : (starts s.hist).count t ≤ 1 := List.nodup_iff_count.mp (starts_nodup hi.a) t
    have h2 : 0 < (starts s.hist).count t := List.count_pos_iff.mpr (by rw [hst]; exact hall t ht)
    rw [count_starts]; omega
  · have := (hi.a.fin_iff t).mpr ⟨by rw [hst]; exact hall t ht, by rw [hend.2]; simp⟩
    obtain ⟨o, ho⟩ := mem_fins.mp this
    cases o with
    | success => exact ho
    | failure => exact absurd (.inl ho) (hnb t)
    | threw => exact absurd (.inr ho) (hnb t)

/-- **C20.** If no task fails, then whatever the schedule, as soon as no thread can proceed,
`process` has returned normally (and by `C17_bounded` this happens after finitely many steps). -/
theorem C20_success_runs_everything {j : Job} (hj : j.Topological) (hw : 1 ≤ j.workers) {s : State}
    (hr : Reachable j s) (hst : Stuck j s) (hok : ∀ t o, .finish t o ∈ s.hist → o = .success) :
    s.pc = .returned j.tasks.length := by
  have hi := inv hj hr
  rcases stuck_cases hj hw hi hst with h | ⟨_, _, _, d, _, h⟩
  · rcases h with ⟨n, hn⟩ | ⟨t, ht⟩
    · rw [hn, (C20_returns_complete hj hr hn).1]
    · rcases hi.c.ended_thr t ht with h | h <;> cases hok _ _ h
  · cases hok _ _ h

example : ∃ s, exec diamond diamondSchedule (init diamond) = some s ∧
    s.pc = .returned diamond.tasks.length ∧ (∀ e ∈ s.hist, ∀ t o, e = .finish t o → o = .success) := by
  refine ⟨_, rfl, rfl, ?_⟩
  intro e he t o h
  subst h
  have : ∀ e ∈ ([.submit 0, .start 0, .finish 0 .success, .submit 1, .submit 2, .start 1, .start 2,
      .finish 2 .success, .finish 1 .success, .submit 3, .start 3, .finish 3 .success] : List Ev),
      (match e with | .finish _ o => o = .success | _ => True) := by simp
  exact this _ he

/-- Without any worker, `process` waits forever (see C53: the number of workers is positive). -/
theorem needs_a_worker : ∃ (as : List Act) (s : State), exec { diamond with workers := 0 } as
    (init { diamond with workers := 0 }) = some s ∧ Stuck { diamond with workers := 0 } s ∧ ¬ s.Ended := by
  refine ⟨List.replicate 9 .main, _, rfl, ?_, ?_⟩
  · intro a
    cases a with
    | main => rfl
    | take => rfl
    | work k o => rfl
  · rintro (⟨n, h⟩ | ⟨n, h⟩) <;> cases h

end Maike.TaskList
