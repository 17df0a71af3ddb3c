import Verif.TaskList.ThreadInv
import Verif.TaskList.Theorems

/-!
# Theorems about `TaskList::process`, one operation at a time (C104)

All theorems quantify over every job in topological order, every number of workers, every schedule of the single operations, every choice of who is woken up, every
spurious wake-up, and every outcome of each task.
-/

namespace Maike.TaskList

/-- Every transition of `Model.lean` is one of its actions. -/
theorem Step_step {j : Job} {s s' : State} (h : Step j s s') : ∃ a, step j a s = some s' := by
  have hidx : ∀ {l₁ l₂ : List (Nat × Stage)} {x}, s.running = l₁ ++ x :: l₂ →
      s.running[l₁.length]? = some x ∧ (∀ y, s.running.set l₁.length y = l₁ ++ y :: l₂) ∧ s.running.eraseIdx l₁.length = l₁ ++ l₂ := by
    intro l₁ l₂ x h
    rw [h]
    refine ⟨by simp, fun y => by simp, ?_⟩
    rw [List.eraseIdx_append_of_length_le (Nat.le_refl _)]
    simp
  cases h with
  | loopDrain hpc h1 h2 => exact ⟨.main, by simp [step, stepMain, hpc, h1, h2]⟩
  | loopRead t suf hpc h1 => exact ⟨.main, by simp [step, stepMain, hpc, h1]⟩
  | submit t suf hpc h1 => exact ⟨.main, by simp [step, stepMain, hpc, h1, wrap_eq]⟩
  | readOk d ds hpc h1 => exact ⟨.main, by simp [step, stepMain, hpc, h1]⟩
  | readPending d ds t suf hpc h1 h2 => exact ⟨.main, by simp [step, stepMain, hpc, h1, h2, wrap_eq]⟩
  | readFail d ds hpc h1 => exact ⟨.main, by simp [step, stepMain, hpc, h1]⟩
  | wake hpc h1 => exact ⟨.main, by simp [step, stepMain, hpc, h1]⟩
  | rethrow t hpc h1 h2 => exact ⟨.main, by simp [step, stepMain, hpc, h1, h2]⟩
  | ret hpc h1 h2 => exact ⟨.main, by simp [step, stepMain, hpc, h1, h2]⟩
  | take t q h1 h2 => exact ⟨.take, by simp [step, stepTake, h1, h2]⟩
  | finSuccess l₁ t l₂ h1 => obtain ⟨e1, e2, _⟩ := hidx h1; exact ⟨.work l₁.length .success, by simp [step, stepWork, e1, e2]⟩
  | finFailure l₁ t l₂ h1 => obtain ⟨e1, e2, _⟩ := hidx h1; exact ⟨.work l₁.length .failure, by simp [step, stepWork, e1, e2]⟩
  | finThrew l₁ t l₂ h1 => obtain ⟨e1, e2, _⟩ := hidx h1; exact ⟨.work l₁.length .threw, by simp [step, stepWork, e1, e2]⟩
  | store l₁ t l₂ h1 => obtain ⟨e1, e2, _⟩ := hidx h1; exact ⟨.work l₁.length .success, by simp only [step, stepWork, e1, e2]; cases s.eptr <;> rfl⟩
  | setEvent l₁ t l₂ h1 => obtain ⟨e1, e2, _⟩ := hidx h1; exact ⟨.work l₁.length .success, by simp [step, stepWork, e1, e2]⟩
  | unlock l₁ t l₂ h1 => obtain ⟨e1, _, e3⟩ := hidx h1; exact ⟨.work l₁.length .success, by simp [step, stepWork, e1, e3]⟩

theorem exec_snoc {j : Job} (as : List Act) (a : Act) (s s' s'' : State) (h : exec j as s = some s') (h' : step j a s' = some s'') : exec j (as ++ [a]) s = some s'' := by
  induction as generalizing s with
  | nil => simp [exec] at h; subst h; simp [exec, h']
  | cons b as ih =>
    simp only [exec, List.cons_append] at h ⊢
    split at h
    · rename_i s1 hs1; exact ih s1 h
    · cases h

theorem Reachable.next {j : Job} {s s' : State} (h : Reachable j s) (hs : Step j s s') : Reachable j s' := by
  obtain ⟨as, has⟩ := h
  obtain ⟨a, ha⟩ := Step_step hs
  exact ⟨as ++ [a], exec_snoc as a _ _ _ has ha⟩

namespace Threads

theorem Inv.start {j : Job} {s : State} (h : Start j s) : Inv j s := by
  have hpool : ∀ (k : Nat) (p : WPc), s.wpcs[k]? = some p → p.holds = some .pool → p = .test := by
    intro k p hk hp
    rcases h.idle p (List.mem_of_getElem? hk) with rfl | rfl | rfl <;> first | rfl | cases hp
  refine ⟨h.workers, ⟨?_, ?_⟩, by simp [h.mpc], by simp [h.mpc, MPc.final], by simp [h.mpc, MPc.taken], by simp [h.mpc], by simp [h.mpc], by simp [h.queue]⟩
  · intro m
    rw [h.mpc]
    simp only [MPc.holds, reduceCtorEq, iff_false]
    by_cases hm : m = .pool
    · subst hm
      intro h0
      obtain ⟨k, hk, _⟩ := (h.pool 0).mp h0
      omega
    · rw [h.free m hm]; simp
  · intro m k
    by_cases hm : m = .pool
    · subst hm
      rw [h.pool]
      constructor
      · rintro ⟨k', e, hk⟩
        have : k = k' := by omega
        subst this
        exact ⟨_, hk, rfl⟩
      · rintro ⟨p, hk, hp⟩
        exact ⟨k, rfl, by rw [hk, hpool k p hk hp]⟩
    · rw [h.free m hm]
      simp only [reduceCtorEq, false_iff]
      rintro ⟨p, hk, hp⟩
      rcases h.idle p (List.mem_of_getElem? hk) with rfl | rfl | rfl
      · cases hp
      · simp [WPc.holds] at hp; exact hm hp.symm
      · cases hp

theorem Rel.start {j : Job} {s : State} (h : Start j s) : Rel s (TaskList.init j) := by
  refine ⟨by simp [TaskList.init, absPc, h.mpc], h.pre.symm, h.suf.symm, h.results.symm, h.status.symm, by simp [TaskList.init, h.value, h.mpc, pend], h.num.symm, h.queue.symm, ?_,
    h.eptr.symm, h.hist.symm⟩
  have : s.wpcs.filterMap WPc.run = [] := by
    rw [List.filterMap_eq_nil_iff]
    intro p hp
    rcases h.idle p hp with rfl | rfl | rfl <;> rfl
  rw [this]
  exact List.Perm.nil

theorem weight_start {j : Job} {s : State} (h : Start j s) : weight s ≤ 2 * j.workers := by
  have : ∀ l : List WPc, (∀ p ∈ l, p.Idle) → (l.map WPc.weight).sum ≤ 2 * l.length := by
    intro l
    induction l with
    | nil => simp
    | cons p l ih =>
      intro hl
      have h1 := ih (fun q hq => hl q (by simp [hq]))
      have h2 : p.weight ≤ 2 := by rcases hl p (by simp) with rfl | rfl | rfl <;> simp [WPc.weight]
      simp only [List.map_cons, List.sum_cons, List.length_cons]
      omega
  have := this s.wpcs h.idle
  simp only [weight, h.mpc, MPc.weight]
  rw [h.workers] at this
  omega

/-- What is known about a state: it corresponds to a state of `Model.lean`. -/
structure Good (j : Job) (s : State) (a : TaskList.State) : Prop where
  inv : Inv j s
  rel : Rel s a
  reach : TaskList.Reachable j a

/-- One operation: either nothing happens in `Model.lean`, or one action. -/
theorem Good.step {j : Job} (hj : j.Topological) {s s' : State} {a : TaskList.State} {x : Act} (h : Good j s a) (hs : Threads.step j x s = some s') :
    ∃ a', Good j s' a' ∧ (12 * pot j a' + weight s' + 1 ≤ 12 * pot j a + weight s + (if x.isSpurious then 5 else 0)) ∧ (a' = a ∨ TaskList.Step j a a') := by
  have ha := TaskList.inv hj h.reach
  have hi' := h.inv.step h.rel ha.a (step_Any hs)
  have hsim : Sim j s s' a → ∃ a', Good j s' a' ∧ (12 * pot j a' + weight s' + 1 ≤ 12 * pot j a + weight s) ∧ (a' = a ∨ TaskList.Step j a a') := by
    rintro (⟨h1, h2⟩ | ⟨a', h1, h2, h3⟩)
    · exact ⟨a, ⟨hi', h1, h.reach⟩, by omega, .inl rfl⟩
    · have := pot_step ha.a ha.b h1
      exact ⟨a', ⟨hi', h2, h.reach.next h1⟩, by omega, .inr h1⟩
  cases x with
  | main wake =>
    obtain ⟨a', h1, h2, h3⟩ := hsim (sim_main h.inv h.rel (stepMain_Main hs))
    exact ⟨a', h1, by omega, h3⟩
  | work k o =>
    obtain ⟨p, p', hk, hp, hw⟩ := stepWork_Work hs
    obtain ⟨a', h1, h2, h3⟩ := hsim (sim_work h.inv ha.a h.rel hk hp hw)
    exact ⟨a', h1, by omega, h3⟩
  | spurious tid =>
    have hr := h.rel
    simp only [Act.isSpurious, if_true]
    cases tid with
    | zero =>
      simp only [Threads.step, stepSpurious] at hs
      split at hs
      · rename_i hm
        simp at hs; subst hs
        refine ⟨a, ⟨hi', ⟨by rw [hr.pc, absPc, hm]; rfl, hr.pre, hr.suf, hr.results, hr.event, by have := hr.counter; rw [hm] at this; exact this, hr.num, hr.queue, hr.running,
          hr.eptr, hr.hist⟩, h.reach⟩, ?_, .inl rfl⟩
        simp only [weight, hm, MPc.weight]; omega
      · rename_i hm
        simp at hs; subst hs
        refine ⟨a, ⟨hi', ⟨by rw [hr.pc, absPc, hm]; rfl, hr.pre, hr.suf, hr.results, hr.event, by have := hr.counter; rw [hm] at this; exact this, hr.num, hr.queue, hr.running,
          hr.eptr, hr.hist⟩, h.reach⟩, ?_, .inl rfl⟩
        simp only [weight, hm, MPc.weight]; omega
      · cases hs
    | succ k =>
      simp only [Threads.step, stepSpurious] at hs
      split at hs
      · rename_i hk
        simp at hs; subst hs
        obtain ⟨l₁, l₂, e1, e2, _⟩ := getElem?_split hk
        refine ⟨a, ⟨hi', ⟨hr.pc, hr.pre, hr.suf, hr.results, hr.event, hr.counter, hr.num, hr.queue, ?_, hr.eptr, hr.hist⟩, h.reach⟩, ?_, .inl rfl⟩
        · have := hr.running; rw [e1] at this; simpa [State.at, e2, WPc.run, List.filterMap_cons] using this
        · simp only [weight, State.at, e2]; rw [e1]; simp [WPc.weight]; omega
      · cases hs

theorem Good.exec {j : Job} (hj : j.Topological) (as : List Act) {s s' : State} {a : TaskList.State} (h : Good j s a) (hs : exec j as s = some s') :
    ∃ a', Good j s' a' ∧ 12 * pot j a' + weight s' + as.length ≤ 12 * pot j a + weight s + 5 * as.countP Act.isSpurious := by
  induction as generalizing s a with
  | nil => simp [Threads.exec] at hs; subst hs; exact ⟨a, h, by simp⟩
  | cons x as ih =>
    simp only [Threads.exec] at hs
    split at hs
    · rename_i s1 hs1
      obtain ⟨a1, h1, h2, _⟩ := h.step hj hs1
      obtain ⟨a', h3, h4⟩ := ih h1 hs
      refine ⟨a', h3, ?_⟩
      simp only [List.countP_cons, List.length_cons]
      split at h2 <;> rename_i hx <;> simp only [hx] <;> simp <;> omega
    · cases hs

theorem Start.good {j : Job} {s : State} (h : Start j s) : Good j s (TaskList.init j) := ⟨.start h, .start h, [], rfl⟩

theorem Reachable.good {j : Job} (hj : j.Topological) {s : State} (h : Reachable j s) : ∃ a, Good j s a := by
  obtain ⟨s₀, as, h0, has⟩ := h
  obtain ⟨a, ha, _⟩ := h0.good.exec hj as has
  exact ⟨a, ha⟩

/-! ## C104 -/

/-- **C104 (refinement).** Whatever the threads have done so far, if it is regarded operation by operation, could have been done if every critical section were a single
action: everything that has been proved about `Model.lean` holds. -/
theorem C104_refines {j : Job} (hj : j.Topological) {s : State} (hr : Reachable j s) :
    ∃ a, TaskList.Reachable j a ∧ a.hist = s.hist ∧ a.results = s.results ∧ a.num = s.num ∧
      (∀ n, s.mpc = .returned n → a.pc = .returned n) ∧ (∀ t, s.mpc = .rethrown t → a.pc = .rethrown t) := by
  obtain ⟨a, h⟩ := hr.good hj
  refine ⟨a, h.reach, h.rel.hist, h.rel.results, h.rel.num, ?_, ?_⟩
  · intro n hn; rw [h.rel.pc, absPc, hn]
  · intro n hn; rw [h.rel.pc, absPc, hn]

/-- A task is not started before its dependencies have succeeded, and not twice. -/
theorem C104_order {j : Job} (hj : j.Topological) {s : State} (hr : Reachable j s) {h₁ h₂ : List Ev} {t : Nat} (hh : s.hist = h₁ ++ .start t :: h₂) :
    (∀ d ∈ j.deps t, d ∈ j.tasks → .finish d .success ∈ h₁) ∧ .start t ∉ h₁ ∧ .start t ∉ h₂ := by
  obtain ⟨a, ha, hhist, _⟩ := C104_refines hj hr
  rw [← hhist] at hh
  refine ⟨C15_dependencies_first hj ha hh, ?_⟩
  have h1 := (C16_at_most_once hj ha).1 t
  rw [hh, List.count_append, List.count_cons_self] at h1
  constructor <;> intro hm <;> have := List.count_pos_iff.mpr hm <;> omega

/-- The main thread is not at the end if some worker has something to do. -/
theorem Inv.not_final {j : Job} {s : State} (hi : Inv j s) {k : Nat} {p : WPc} (hk : s.wpcs[k]? = some p) (hp : ¬ p.Idle) : s.mpc.final ≠ true :=
  fun h => hp ((hi.quiet h).2.2 p (List.mem_of_getElem? hk))

theorem not_ended_of_not_final {s : State} (h : s.mpc.final ≠ true) : ¬ s.Ended := by
  rintro (⟨n, e⟩ | ⟨t, e⟩) <;> rw [e] at h <;> exact h rfl

theorem alive_of_not_final {s : State} (h : s.mpc.final ≠ true) (m : Mtx) : s.Alive m := by
  have := not_ended_of_not_final h
  cases m with
  | pool => trivial
  | eptr => trivial
  | event => exact this
  | counter => exact ⟨this, fun e he => by rw [he] at h; exact h rfl⟩

theorem owner_none {s : State} (h : Own s) {m : Mtx} (h0 : s.mpc.holds ≠ some m) (h1 : ∀ p ∈ s.wpcs, p.holds ≠ some m) : s.owner m = none := by
  cases e : s.owner m with
  | none => rfl
  | some x =>
    cases x with
    | zero => exact absurd ((h.main m).mp e) h0
    | succ k =>
      obtain ⟨p, hk, hp⟩ := (h.work m k).mp e
      exact absurd hp (h1 p (List.mem_of_getElem? hk))

/-- **C104 (memory).** Whatever any thread is about to do is well-defined: no counter or event is used after it has been destroyed or destroyed while its mutex is locked;
nothing that a mutex protects is used, and no mutex is unlocked, by a thread that has not locked it; and no thread locks a mutex that it has already locked. -/
theorem C104_legal {j : Job} (hj : j.Topological) {s : State} (hr : Reachable j s) :
    Legal s 0 s.mpc.op ∧ ∀ k p, s.wpcs[k]? = some p → Legal s (k + 1) p.op := by
  obtain ⟨a, h⟩ := hr.good hj
  have hi := h.inv
  have hown := hi.own
  constructor
  · have hn : ∀ {m}, s.mpc.holds = none → s.owner m ≠ some 0 := fun h1 h2 => by rw [(hown.main _).mp h2] at h1; cases h1
    have hy : ∀ {m}, s.mpc.holds = some m → s.owner m = some 0 := fun h1 => (hown.main _).mpr h1
    cases e : s.mpc with
    | loop | evSleep | ctSleep | returned | rethrown => trivial
    | reading r => exact not_ended_of_not_final (by rw [e]; simp [MPc.final])
    | incLock | addLock | evLock | ctLock => exact ⟨alive_of_not_final (by rw [e]; simp [MPc.final]) _, hn (by rw [e]; rfl)⟩
    | epLock => exact ⟨trivial, hn (by rw [e]; rfl)⟩
    | inc | incUnlock | add | addUnlock | evTest | evReset | evUnlock | ctTest => exact ⟨alive_of_not_final (by rw [e]; simp [MPc.final]) _, hy (by rw [e]; rfl)⟩
    | incNotify => exact alive_of_not_final (by rw [e]; simp [MPc.final]) .counter
    | addNotify => trivial
    | ctUnlock => exact ⟨⟨(by rintro (⟨n, h⟩ | ⟨n, h⟩) <;> rw [e] at h <;> cases h), fun x h => by rw [e] at h; cases h⟩, hy (by rw [e]; rfl)⟩
    | epTake => exact ⟨trivial, hy (by rw [e]; rfl)⟩
    | epUnlock x => exact ⟨trivial, hy (by rw [e]; rfl)⟩
    | dropCounter x =>
      refine ⟨⟨(by rintro (⟨n, h⟩ | ⟨n, h⟩) <;> rw [e] at h <;> cases h), fun x h => by rw [e] at h; cases h⟩, owner_none hown (by rw [e]; simp [MPc.holds]) ?_⟩
      intro p hp
      rcases (hi.quiet (by rw [e]; rfl)).2.2 p hp with rfl | rfl | rfl <;> simp [WPc.holds]
    | dropEvent x =>
      refine ⟨(by rintro (⟨n, h⟩ | ⟨n, h⟩) <;> rw [e] at h <;> cases h), owner_none hown (by rw [e]; simp [MPc.holds]) ?_⟩
      intro p hp
      rcases (hi.quiet (by rw [e]; rfl)).2.2 p hp with rfl | rfl | rfl <;> simp [WPc.holds]
  · intro k p hk
    have hn : ∀ {m}, p.holds = none → s.owner m ≠ some (k + 1) := by
      intro m h1 h2
      obtain ⟨q, hq, hqh⟩ := (hown.work m k).mp h2
      rw [hk] at hq
      simp only [Option.some.injEq] at hq
      subst hq
      rw [h1] at hqh
      cases hqh
    have hy : ∀ {m}, p.holds = some m → s.owner m = some (k + 1) := fun h1 => (hown.work _ k).mpr ⟨p, hk, h1⟩
    cases p with
    | asleep => trivial
    | lock => exact ⟨trivial, hn rfl⟩
    | test | unlock => exact ⟨trivial, hy rfl⟩
    | body t => exact not_ended_of_not_final (hi.not_final hk (by simp [WPc.Idle]))
    | epLock | evLock | ctLock => exact ⟨alive_of_not_final (hi.not_final hk (by simp [WPc.Idle])) _, hn rfl⟩
    | epStore | epUnlock | evSet | evUnlock | ctDec | ctUnlock => exact ⟨alive_of_not_final (hi.not_final hk (by simp [WPc.Idle])) _, hy rfl⟩
    | evNotify => exact alive_of_not_final (hi.not_final hk (by simp [WPc.Idle])) .event
    | ctNotify => exact alive_of_not_final (hi.not_final hk (by simp [WPc.Idle])) .counter

/-- The operation that a thread is about to perform. -/
def State.next (s : State) (tid : Nat) : Option Op :=
  match tid with
  | 0 => some s.mpc.op
  | k + 1 => s.wpcs[k]?.map WPc.op

/-- **C104 (no data race).** Two threads never are about to use what the same mutex protects. -/
theorem C104_no_race {j : Job} (hj : j.Topological) {s : State} (hr : Reachable j s) {tid tid' : Nat} {m : Mtx} (h : s.next tid = some (.use m))
    (h' : s.next tid' = some (.use m)) : tid = tid' := by
  obtain ⟨h1, h2⟩ := C104_legal hj hr
  have key : ∀ {x}, s.next x = some (.use m) → s.owner m = some x := by
    intro x hx
    cases x with
    | zero =>
      simp only [State.next, Option.some.injEq] at hx
      rw [hx] at h1
      exact h1.2
    | succ k =>
      simp only [State.next, Option.map_eq_some_iff] at hx
      obtain ⟨p, hp, e⟩ := hx
      have := h2 k p hp
      rw [e] at this
      exact this.2
  have := (key h).symm.trans (key h')
  simpa using this

/-- A thread that has a mutex can proceed. -/
theorem holder_enabled {j : Job} (hj : j.Topological) {s : State} {a : TaskList.State} (h : Good j s a) {m : Mtx} {x : Nat} (hx : s.owner m = some x) :
    ∃ act s', act.isSpurious = false ∧ Threads.step j act s = some s' := by
  have ha := TaskList.inv hj h.reach
  cases x with
  | zero =>
    have hh := (h.inv.own.main m).mp hx
    cases e : s.mpc <;> rw [e] at hh <;> first | cases hh | skip
    case add.refl =>
      have hs : s.suf ≠ [] := by
        rw [← h.rel.suf]
        obtain ⟨t, suf, _, h, _⟩ := ha.b.reading [] (by rw [h.rel.pc, absPc, e])
        rw [h]
        simp
      obtain ⟨t, suf, hs'⟩ := List.exists_cons_of_ne_nil hs
      exact ⟨.main 0, _, rfl, by simp only [Threads.step, stepMain, e, hs']; rfl⟩
    case addNotify.refl =>
      by_cases hm : .asleep ∈ s.wpcs
      · obtain ⟨k, hk⟩ := List.getElem?_of_mem hm
        exact ⟨.main k, _, rfl, by simp only [Threads.step, stepMain, e, notifyPool, hk, if_true]; rfl⟩
      · refine ⟨.main s.wpcs.length, { s with mpc := .addUnlock }, rfl, ?_⟩
        simp only [Threads.step, stepMain, e, notifyPool]
        rw [if_neg (by simp), if_neg hm]
        rfl
    case evTest.refl =>
      by_cases hst : s.status = true <;> exact ⟨.main 0, _, rfl, by simp only [Threads.step, stepMain, e, hst]; rfl⟩
    case ctTest.refl =>
      by_cases hst : s.value = 0
      · exact ⟨.main 0, _, rfl, by simp only [Threads.step, stepMain, e, if_pos hst]; rfl⟩
      · exact ⟨.main 0, _, rfl, by simp only [Threads.step, stepMain, e, if_neg hst]; rfl⟩
    all_goals exact ⟨.main 0, _, rfl, by simp only [Threads.step, stepMain, e]; rfl⟩
  | succ k =>
    obtain ⟨p, hk, hp⟩ := (h.inv.own.work m k).mp hx
    cases p <;> first | cases hp | skip
    case test.refl =>
      cases hq : s.queue with
      | nil => exact ⟨.work k .success, _, rfl, by simp only [Threads.step, stepWork, hk, hq]; rfl⟩
      | cons t q => exact ⟨.work k .success, _, rfl, by simp only [Threads.step, stepWork, hk, hq]; rfl⟩
    all_goals exact ⟨.work k .success, _, rfl, by simp only [Threads.step, stepWork, hk]; rfl⟩

/-- **C104 (no lost wake-up, no deadlock).** As long as each task that has ended did so by recording a result, some thread can proceed until `process` has ended, and it is
not necessary that a thread wakes up spuriously. -/
theorem C104_progress {j : Job} (hj : j.Topological) (hw : 1 ≤ j.workers) {s : State} (hr : Reachable j s) (hthrew : ∀ t, .finish t .threw ∉ s.hist) :
    s.Ended ∨ ∃ act s', act.isSpurious = false ∧ Threads.step j act s = some s' := by
  obtain ⟨a, h⟩ := hr.good hj
  by_cases hne : ∃ act s', act.isSpurious = false ∧ Threads.step j act s = some s'
  · exact .inr hne
  refine .inl ?_
  have hi := h.inv
  have hrel := h.rel
  have hstuck : ∀ act s', act.isSpurious = false → Threads.step j act s ≠ some s' := fun act s' h1 h2 => hne ⟨act, s', h1, h2⟩
  have hfree : ∀ m, s.owner m = none := by
    intro m
    cases e : s.owner m with
    | none => rfl
    | some x => exact absurd (holder_enabled hj h e) hne
  have hsleep : ∀ p ∈ s.wpcs, p = .asleep := by
    intro p hp
    obtain ⟨k, hk⟩ := List.getElem?_of_mem hp
    cases p with
    | asleep => rfl
    | lock | epLock | evLock | ctLock =>
      exact absurd (by simp only [Threads.step, stepWork, hk, acquire, hfree]; rfl) (hstuck (.work k .success) _ rfl)
    | test =>
      cases hq : s.queue with
      | nil => exact absurd (by simp only [Threads.step, stepWork, hk, hq]; rfl) (hstuck (.work k .success) _ rfl)
      | cons t q => exact absurd (by simp only [Threads.step, stepWork, hk, hq]; rfl) (hstuck (.work k .success) _ rfl)
    | _ => exact absurd (by simp only [Threads.step, stepWork, hk]; rfl) (hstuck (.work k .success) _ rfl)
  have hrun : a.running = [] := by
    have : s.wpcs.filterMap WPc.run = [] := by
      rw [List.filterMap_eq_nil_iff]
      intro p hp
      rw [hsleep p hp]
      rfl
    have h1 := hrel.running
    rw [this] at h1
    exact List.Perm.eq_nil h1
  have hnn : s.mpc ≠ .addNotify := by
    intro e
    have := (hi.own.main .pool).mpr (by rw [e]; rfl)
    rw [hfree] at this
    cases this
  have hq : a.queue = [] := by
    have hmem : .asleep ∈ s.wpcs := by
      cases hc : s.wpcs with
      | nil => have := hi.len; rw [hc] at this; simp at this; omega
      | cons p l => have := hsleep p (by rw [hc]; simp); rw [this]; simp
    have h1 := hi.poolWake hmem
    rw [if_neg hnn] at h1
    have h2 : s.wpcs.countP WPc.awake = 0 := by
      rw [List.countP_eq_zero]
      intro p hp
      rw [hsleep p hp]
      simp [WPc.awake]
    rw [hrel.queue]
    exact List.length_eq_zero_iff.mp (by omega)
  have hctr := (TaskList.inv hj h.reach).a.ctr
  rw [hrun, hq] at hctr
  simp only [List.length_nil] at hctr
  have hmain : ∀ s', Threads.step j (.main 0) s ≠ some s' := fun s' => hstuck _ _ rfl
  have hst : s.Ended ∨ Stuck j a := by
    by_cases hend : s.Ended
    · exact .inl hend
    refine .inr fun act => ?_
    cases act with
    | take => simp [TaskList.step, stepTake, hq]
    | work k o => simp [TaskList.step, TaskList.stepWork, hrun]
    | main =>
      simp only [TaskList.step]
      cases e : s.mpc with
      | loop =>
        have hpc : a.pc = .loop := by rw [hrel.pc, absPc, e]
        cases hs : s.suf with
        | nil =>
          have hp : s.pre ≠ [] := fun hp => hmain { s with mpc := .ctLock } (by simp [Threads.step, stepMain, e, hs, hp])
          simp [TaskList.stepMain, hpc, hrel.suf, hs, hrel.pre, hp]
        | cons t l => exact absurd (by simp only [Threads.step, stepMain, e, hs]; rfl) (hmain _)
      | reading r =>
        cases r with
        | nil => exact absurd (by simp only [Threads.step, stepMain, e]; rfl) (hmain _)
        | cons d ds =>
          have hpc : a.pc = .reading (d :: ds) := by rw [hrel.pc, absPc, e]
          cases hres : s.results d with
          | success => exact absurd (by simp only [Threads.step, stepMain, e, hres]; rfl) (hmain _)
          | failure => exact absurd (by simp only [Threads.step, stepMain, e, hres]; rfl) (hmain _)
          | pending =>
            cases hs : s.suf with
            | nil => simp [TaskList.stepMain, hpc, hrel.results, hres, hrel.suf, hs]
            | cons t l => exact absurd (by simp only [Threads.step, stepMain, e, hres, hs]; rfl) (hmain _)
      | evSleep =>
        have hpc : a.pc = .waiting := by rw [hrel.pc, absPc, e]
        have : s.status ≠ true := by
          intro hs
          obtain ⟨t, ht⟩ := hi.evWake e hs
          have := hsleep _ ht
          cases this
        simp [TaskList.stepMain, hpc, hrel.event, this]
      | ctSleep =>
        have hv : s.value = 0 := by
          have := hrel.counter
          rw [e, hctr] at this
          simpa [pend] using this
        obtain ⟨t, ht⟩ := hi.ctWake e hv
        have := hsleep _ ht
        cases this
      | incLock | addLock | evLock | ctLock | epLock => exact absurd (by simp only [Threads.step, stepMain, e, acquire, hfree]; rfl) (hmain _)
      | dropCounter x => exact absurd (by simp only [Threads.step, stepMain, e]; rfl) (hmain _)
      | dropEvent x => cases x <;> exact absurd (by simp only [Threads.step, stepMain, e]; rfl) (hmain _)
      | returned n => exact absurd (.inl ⟨n, e⟩) hend
      | rethrown n => exact absurd (.inr ⟨n, e⟩) hend
      | inc | incNotify | incUnlock | add | addNotify | addUnlock | evTest | evReset | evUnlock | ctTest | ctUnlock | epTake | epUnlock =>
        exfalso
        have : ∃ m, s.owner m = some 0 := ⟨_, (hi.own.main _).mpr (by rw [e]; rfl)⟩
        obtain ⟨m, hm⟩ := this
        rw [hfree] at hm
        cases hm
  rcases hst with h1 | hst
  · exact h1
  rcases stuck_cases hj hw (TaskList.inv hj h.reach) hst with h1 | ⟨_, _, _, d, _, h1⟩
  · -- the main thread has only to destroy what it has
    cases e : s.mpc with
    | returned n => exact .inl ⟨n, e⟩
    | rethrown n => exact .inr ⟨n, e⟩
    | dropCounter x => exact absurd (by simp only [Threads.step, stepMain, e]; rfl) (hmain _)
    | dropEvent x => cases x <;> exact absurd (by simp only [Threads.step, stepMain, e]; rfl) (hmain _)
    | epUnlock x => exact absurd (by simp only [Threads.step, stepMain, e]; rfl) (hmain _)
    | addNotify => exact absurd e hnn
    | _ =>
      exfalso
      have hpc := hrel.pc
      rw [absPc, e] at hpc
      simp only [] at hpc
      rcases h1 with ⟨n, h1⟩ | ⟨n, h1⟩ <;> rw [hpc] at h1 <;>
        first | cases h1 | (unfold TaskList.wrapPc at h1; split at h1 <;> cases h1)
  · rw [hrel.hist] at h1
    exact absurd h1 (hthrew d)

/-- **C104 (termination).** The threads do not run forever, unless they wake up spuriously forever: the number of operations is bounded in terms of the job and the
number of spurious wake-ups. -/
theorem C104_bounded {j : Job} (hj : j.Topological) :
    ∃ bound : Nat, ∀ (s₀ : State) (as : List Act) (s : State), Start j s₀ → exec j as s₀ = some s → as.length ≤ bound + 5 * as.countP Act.isSpurious := by
  refine ⟨12 * pot j (TaskList.init j) + 2 * j.workers, fun s₀ as s h0 has => ?_⟩
  obtain ⟨a, _, h2⟩ := h0.good.exec hj as has
  have := weight_start h0
  omega

/-- **C104 (the pool can be used again).** When `process` has ended, the pool is as it has to be for the next call. -/
theorem C104_left {j : Job} (hj : j.Topological) {s : State} (hr : Reachable j s) (he : s.Ended) (j' : Job) (hw : j'.workers = j.workers) :
    Start j' { s with
      mpc := .loop, pre := [], suf := j'.tasks, num := 0, results := fun t => if t ∈ j'.tasks then .pending else .success, status := false, hist := [] } := by
  obtain ⟨a, h⟩ := hr.good hj
  have hi := h.inv
  have hf : s.mpc.final = true := by rcases he with ⟨n, e⟩ | ⟨n, e⟩ <;> rw [e] <;> rfl
  have ht : s.mpc.taken = true := by rcases he with ⟨n, e⟩ | ⟨n, e⟩ <;> rw [e] <;> rfl
  have hh : s.mpc.holds = none := by rcases he with ⟨n, e⟩ | ⟨n, e⟩ <;> rw [e] <;> rfl
  obtain ⟨h1, h2, h3⟩ := hi.quiet hf
  refine ⟨rfl, by rw [hw]; exact hi.len, h3, ?_, ?_, rfl, rfl, rfl, rfl, rfl, h1, h2, hi.clean ht, rfl⟩
  · intro tid
    show s.owner .pool = some tid ↔ _
    cases tid with
    | zero =>
      rw [hi.own.main, hh]
      simp
    | succ k =>
      rw [hi.own.work]
      constructor
      · rintro ⟨p, hk, hp⟩
        refine ⟨k, rfl, ?_⟩
        show s.wpcs[k]? = _
        rw [hk]
        rcases h3 p (List.mem_of_getElem? hk) with rfl | rfl | rfl <;> first | rfl | cases hp
      · rintro ⟨k', e, hk⟩
        have : k = k' := by omega
        subst this
        exact ⟨_, hk, rfl⟩
  · intro m hm
    refine owner_none hi.own (by rw [hh]; simp) fun p hp => ?_
    rcases h3 p hp with rfl | rfl | rfl <;> simp [WPc.holds]
    exact fun h => hm h.symm

/-! ## A concrete execution

Two tasks, of which the second needs the first; one of the two workers is asleep when `process` is called, the other one is about to look at the queue. -/

def two : Job where
  tasks := [0, 1]
  deps := fun | 1 => [0] | _ => []
  workers := 2

theorem two_topological : two.Topological := by
  refine ⟨by decide, ?_⟩
  intro l₁ t l₂ h d hd hdt
  simp only [two] at h hd hdt
  rcases l₁ with _ | ⟨a, _ | ⟨b, l₁⟩⟩ <;> simp only [List.nil_append, List.cons_append, List.cons.injEq] at h
  · obtain ⟨rfl, _⟩ := h; simp at hd
  · obtain ⟨rfl, rfl, _⟩ := h; simp at hd; simp [hd]
  · obtain ⟨_, _, h⟩ := h; simp at h

def twoStart : State where
  mpc := .loop
  wpcs := [.asleep, .test]
  owner := fun | .pool => some 2 | _ => none
  pre := []
  suf := [0, 1]
  num := 0
  results := fun t => if t ∈ [0, 1] then .pending else .success
  status := false
  value := 0
  queue := []
  eptr := none
  hist := []

theorem twoStart_start : Start two twoStart := by
  refine ⟨rfl, rfl, by simp [twoStart, WPc.Idle], ?_, by intro m hm; cases m <;> simp_all [twoStart], rfl, rfl, rfl, rfl, rfl, rfl, rfl, rfl, rfl⟩
  intro tid
  simp only [twoStart, Option.some.injEq]
  constructor
  · rintro rfl; exact ⟨1, rfl, rfl⟩
  · rintro ⟨k, rfl, h⟩
    rcases k with _ | _ | k <;> simp at h ⊢

/-- Worker 1 falls asleep; task 0 is submitted, and worker 0 is woken up; then the main thread finds that task 1 has to wait, and falls asleep. -/
def twoA : List Act :=
  .work 1 .success :: List.replicate 10 (.main 0) ++ List.replicate 4 (.main 0)

/-- Worker 0 executes task 0, wakes the main thread up, and gives its lock on the counter back. The main thread has woken up spuriously before. -/
def twoB : List Act := .spurious 0 :: List.replicate 2 (.main 0) ++ List.replicate 12 (.work 0 .success)

/-- The main thread submits task 1, wakes worker 1 up, and falls asleep. -/
def twoC : List Act := List.replicate 17 (.main 1)

/-- Worker 1 executes task 1, and the main thread waits for the counter, until worker 1 has decreased it. -/
def twoD : List Act := List.replicate 8 (.work 1 .success) ++ List.replicate 7 (.main 0) ++ List.replicate 4 (.work 1 .success) ++ List.replicate 8 (.main 0)

example : ∃ s, exec two (twoA ++ twoB ++ twoC ++ twoD) twoStart = some s ∧ s.mpc = .returned 2 ∧
    s.hist = [.submit 0, .start 0, .finish 0 .success, .submit 1, .start 1, .finish 1 .success] ∧ s.wpcs = [.lock, .lock] ∧ s.queue = [] := ⟨_, rfl, rfl, rfl, rfl, rfl⟩

/-- A state in the middle, in which both the main thread and a worker are about to do something with the event. -/
example : ∃ s, Reachable two s ∧ s.mpc = .evSleep ∧ s.wpcs = [.evNotify 0, .asleep] ∧ s.status = true ∧ s.owner .event = some 1 ∧
    s.hist = [.submit 0, .start 0, .finish 0 .success] :=
  ⟨_, ⟨_, _, twoStart_start, (rfl : exec two (twoA ++ twoB.take 9) twoStart = some _)⟩, rfl, rfl, rfl, rfl, rfl⟩

/-- If the first task fails, its exception is thrown, and the second one is never started. -/
example : ∃ s, exec two (twoA ++ List.replicate 15 (.work 0 .failure) ++ List.replicate 15 (.main 0)) twoStart = some s ∧ s.mpc = .rethrown 0 ∧ s.eptr = none ∧
    s.hist = [.submit 0, .start 0, .finish 0 .failure] := ⟨_, rfl, rfl, rfl, rfl⟩

end Maike.TaskList.Threads
