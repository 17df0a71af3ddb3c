import Verif.TaskList.ThreadSim

/-! # Invariants of `TaskList::process`, one operation at a time: who is woken up, and what is left at the end -/

namespace Maike.TaskList.Threads

/-- Steps of the main thread that do not affect the workers. -/
theorem Inv.plain {j : Job} {s s' : State} (hi : Inv j s) (ho : Own s') (hw : s'.wpcs = s.wpcs) (hq : s'.queue = s.queue) (hr : s'.mpc = .evReset → s'.status = true)
    (hn : s.mpc ≠ .addNotify) (hf : s'.mpc.final = true → s.mpc.final = true ∧ s'.value = s.value) (he : s'.mpc = .evSleep → s'.status = false)
    (hc : s'.mpc = .ctSleep → s'.value ≠ 0) (ht : s'.mpc.taken = true → s'.eptr = none) : Inv j s' := by
  refine ⟨by rw [hw]; exact hi.len, ho, hr, ?_, ht, ?_, fun h h' => absurd h' (hc h), ?_⟩
  · intro h
    obtain ⟨h1, h2⟩ := hf h
    rw [h2, hq, hw]
    exact hi.quiet h1
  · intro h h'
    rw [he h] at h'
    cases h'
  · intro h
    rw [hw] at h ⊢
    rw [hq]
    have := hi.poolWake h
    rw [if_neg hn] at this
    omega

theorem wrapPc_or (suf : List Nat) : wrapPc suf = .evLock ∨ wrapPc suf = .loop := by unfold wrapPc; split <;> simp

/-- When `wait(0)` finds that the counter is zero, all workers are idle. -/
theorem quiet_of_zero {j : Job} {s : State} {a : TaskList.State} (hi : Inv j s) (hr : Rel s a) (ha : TaskList.InvA j a) (hp : s.mpc = .ctTest) (hv : s.value = 0) :
    s.queue = [] ∧ ∀ p ∈ s.wpcs, p.Idle := by
  have hc := hr.counter
  rw [hp, hv] at hc
  simp only [pend] at hc
  have h1 := ha.ctr
  have h2 : a.queue = [] := List.length_eq_zero_iff.mp (by omega)
  have h3 : a.running = [] := List.length_eq_zero_iff.mp (by omega)
  refine ⟨by rw [← hr.queue, h2], fun p hm => ?_⟩
  have h4 := hr.running
  rw [h3] at h4
  have h5 : p.run = none := by
    cases h : p.run with
    | none => rfl
    | some x =>
      have := h4.mem_iff.mpr (List.mem_filterMap.mpr ⟨p, hm, h⟩)
      cases this
  have h6 : p.holds ≠ some .counter := by
    intro h
    obtain ⟨k, hk⟩ := List.getElem?_of_mem hm
    have e1 := (hi.own.work .counter k).mpr ⟨p, hk, h⟩
    have e2 := (hi.own.main .counter).mpr (by rw [hp]; rfl)
    rw [e1] at e2
    simp at e2
  cases p <;> first | exact .inl rfl | exact .inr (.inl rfl) | exact .inr (.inr rfl) | exact absurd rfl h6 | cases h5

theorem Inv.stepMain {j : Job} {s s' : State} {a : TaskList.State} (hi : Inv j s) (hr : Rel s a) (ha : TaskList.InvA j a) (hs : Main j s s') : Inv j s' := by
  have ho : Own s' := hi.own.step (.main hs)
  cases hs with
  | addWake wake hp hw =>
    obtain ⟨l₁, l₂, e1, e2, _⟩ := getElem?_split hw
    refine ⟨by simp [hi.len], ho, by simp, by simp [MPc.final], by simp [MPc.taken], by simp, by simp, ?_⟩
    intro _
    have h1 := hi.poolWake (List.mem_of_getElem? hw)
    rw [if_pos hp] at h1
    have h2 : (s.wpcs.set wake .lock).countP WPc.awake = s.wpcs.countP WPc.awake + 1 := by
      rw [e2, e1]; simp [List.countP_append, List.countP_cons, WPc.awake]; omega
    show s.queue.length ≤ (s.wpcs.set wake .lock).countP WPc.awake + _
    omega
  | addNone hp hn => exact ⟨hi.len, ho, by simp, by simp [MPc.final], by simp [MPc.taken], by simp, by simp, fun h => absurd h hn⟩
  | add t suf hp h1 =>
    refine ⟨hi.len, ho, by simp, by simp [MPc.final], by simp [MPc.taken], by simp, by simp, ?_⟩
    intro h
    have := hi.poolWake h
    rw [if_neg (by rw [hp]; simp)] at this
    simp only [List.length_append, List.length_cons, List.length_nil, if_true]
    omega
  | ctTest hp h1 =>
    obtain ⟨h2, h3⟩ := quiet_of_zero hi hr ha hp h1
    refine ⟨hi.len, ho, by simp, fun _ => ⟨h1, h2, h3⟩, by simp [MPc.taken], by simp, by simp, ?_⟩
    intro h
    have := hi.poolWake h
    rw [if_neg (by rw [hp]; simp)] at this
    exact Nat.le_trans this (Nat.le_add_right _ _)
  | readPending d ds t suf hp h1 h2 =>
    rcases wrapPc_or suf with e | e <;>
      exact hi.plain ho rfl rfl (by simp [e]) (by simp [hp]) (by simp [e, MPc.final]) (by simp [e]) (by simp [e]) (by simp [e, MPc.taken])
  | evTest hp h1 => exact hi.plain ho rfl rfl (fun _ => h1) (by simp [hp]) (by simp [MPc.final]) (by simp) (by simp) (by simp [MPc.taken])
  | drain hp | read _ _ hp | ready hp | readOk _ _ hp | readFail _ _ hp | inc hp | incNotify hp | evReset hp =>
    exact hi.plain ho rfl rfl (by simp) (by simp [hp]) (by simp [MPc.final]) (by simp) (by simp) (by simp [MPc.taken])
  | epTake hp => exact hi.plain ho rfl rfl (by simp) (by simp [hp]) (by simp [hp, MPc.final]) (by simp) (by simp) (by simp)
  | dropCounter _ hp | rethrow _ hp | ret hp =>
    exact hi.plain ho rfl rfl (by simp) (by simp [hp]) (by simp [hp, MPc.final]) (by simp) (by simp) (fun _ => hi.clean (by rw [hp]; rfl))
  | acq m p h0 hc =>
    rcases hc with ⟨hp, rfl, rfl⟩ | ⟨hp, rfl, rfl⟩ | ⟨hp, rfl, rfl⟩ | ⟨hp, rfl, rfl⟩ | ⟨hp, rfl, rfl⟩ <;>
      exact hi.plain ho rfl rfl (by simp) (by simp [hp]) (by simp [hp, MPc.final]) (by simp) (by simp) (by simp [MPc.taken])
  | rel m p hc =>
    rcases hc with ⟨hp, rfl, rfl⟩ | ⟨hp, rfl, rfl⟩ | ⟨hp, rfl, rfl, hst⟩ | ⟨hp, rfl, rfl⟩ | ⟨hp, rfl, rfl, hst⟩ | ⟨hp, rfl, rfl⟩ | ⟨⟨e', hp, rfl⟩, rfl⟩
    rotate_left 1
    · rcases wrapPc_or s.suf with e | e <;>
        exact hi.plain ho rfl rfl (by simp [e]) (by simp [hp]) (by simp [e, MPc.final]) (by simp [e]) (by simp [e]) (by simp [e, MPc.taken])
    all_goals exact hi.plain ho rfl rfl (by simp) (by simp [hp]) (by simp [hp, MPc.final]) (by simp [*]) (by simp [*]) (by first | (simp [MPc.taken]; done) | exact fun _ => hi.clean (by rw [hp]; rfl))

theorem mem_set_ne {l : List WPc} {k : Nat} {p q p' : WPc} (hk : l[k]? = some p) (hq : q ∈ l) (hne : p ≠ q) : q ∈ l.set k p' := by
  obtain ⟨l₁, l₂, e1, e2, _⟩ := getElem?_split hk
  rw [e1] at hq
  rw [e2]
  rcases List.mem_append.mp hq with h | h
  · exact List.mem_append_left _ h
  · rcases List.mem_cons.mp h with h | h
    · exact absurd h.symm hne
    · exact List.mem_append_right _ (List.mem_cons_of_mem _ h)

theorem mem_set_of {l : List WPc} {k : Nat} {p q p' : WPc} (hk : l[k]? = some p) (hq : q ∈ l.set k p') (hne : p' ≠ q) : q ∈ l := by
  obtain ⟨l₁, l₂, e1, e2, _⟩ := getElem?_split hk
  rw [e2] at hq
  rw [e1]
  rcases List.mem_append.mp hq with h | h
  · exact List.mem_append_left _ h
  · rcases List.mem_cons.mp h with h | h
    · exact absurd h.symm hne
    · exact List.mem_append_right _ (List.mem_cons_of_mem _ h)

theorem countP_set {l : List WPc} {k : Nat} {p p' : WPc} (hk : l[k]? = some p) :
    (l.set k p').countP WPc.awake + (if p.awake then 1 else 0) = l.countP WPc.awake + (if p'.awake then 1 else 0) := by
  obtain ⟨l₁, l₂, e1, e2, _⟩ := getElem?_split hk
  rw [e2, e1]
  simp only [List.countP_append, List.countP_cons]
  omega

/-- Steps of a worker that do not take anything from the queue. -/
theorem Inv.move {j : Job} {s s' : State} {k : Nat} {p p' : WPc} (hi : Inv j s) (ho : Own s') (hk : s.wpcs[k]? = some p) (hw : s'.wpcs = s.wpcs.set k p')
    (hq : s'.queue = s.queue) (hm : s'.mpc = s.mpc) (hst : s'.status = s.status) (hv : s'.value = s.value)
    (hid : p.Idle → p'.Idle) (h1 : ∀ t, p ≠ .evNotify t) (h2 : ∀ t, p ≠ .ctNotify t) (h3 : p' ≠ .asleep) (h4 : p.awake = true → p'.awake = true)
    (he : s'.mpc.taken = true → s'.eptr = none) : Inv j s' := by
  refine ⟨by rw [hw]; simp [hi.len], ho, by rw [hm, hst]; exact hi.reset, ?_, he, ?_, ?_, ?_⟩
  · rw [hm, hv, hq, hw]
    intro h
    obtain ⟨e1, e2, e3⟩ := hi.quiet h
    refine ⟨e1, e2, fun x hx => ?_⟩
    by_cases hx' : p' = x
    · exact hx' ▸ hid (e3 p (List.mem_of_getElem? hk))
    · exact e3 x (mem_set_of hk hx hx')
  · rw [hm, hst, hw]
    intro a b
    obtain ⟨t, ht⟩ := hi.evWake a b
    exact ⟨t, mem_set_ne hk ht (h1 t)⟩
  · rw [hm, hv, hw]
    intro a b
    obtain ⟨t, ht⟩ := hi.ctWake a b
    exact ⟨t, mem_set_ne hk ht (h2 t)⟩
  · rw [hm, hw, hq]
    intro h
    have := hi.poolWake (mem_set_of hk h h3)
    have := countP_set (p' := p') hk
    split at this
    · rename_i hp; rw [if_pos (h4 hp)] at this; omega
    · omega

theorem taken_final {p : MPc} (h : p.taken = true) : p.final = true := by cases p <;> first | rfl | cases h

theorem Inv.stepWork {j : Job} {s s' : State} (hi : Inv j s) {k : Nat} {p p' : WPc} (hk : s.wpcs[k]? = some p) (hs : Work k s p p' s') : Inv j s' := by
  have ho : Own s' := hi.own.step (j := j) (.work k p p' hk hs)
  have hmem := List.mem_of_getElem? hk
  have hnf : ¬ p.Idle → s.mpc.final = true → False := fun h hf => h ((hi.quiet hf).2.2 p hmem)
  have hmain : ∀ {m}, p.holds = some m → s.mpc.holds ≠ some m := by
    intro m h1 h2
    have e1 := (hi.own.work m k).mpr ⟨p, hk, h1⟩
    have e2 := (hi.own.main m).mpr h2
    rw [e1] at e2
    simp at e2
  cases hs with
  | epStore t =>
    exact hi.move ho hk rfl rfl rfl rfl rfl (by simp [WPc.Idle]) (by simp) (by simp) (by simp) (by simp [WPc.awake])
      (fun h => (hnf (by simp [WPc.Idle]) (taken_final h)).elim)
  | success t | failure t | threw t =>
    exact hi.move ho hk rfl rfl rfl rfl rfl (by simp [WPc.Idle]) (by simp) (by simp) (by simp) (by simp [WPc.awake]) hi.clean
  | acq m p p' h0 hc =>
    rcases hc with ⟨rfl, rfl, rfl⟩ | ⟨t, ⟨rfl, rfl, rfl⟩ | ⟨rfl, rfl, rfl⟩ | ⟨rfl, rfl, rfl⟩⟩ <;>
      exact hi.move ho hk rfl rfl rfl rfl rfl (by simp [WPc.Idle]) (by simp) (by simp) (by simp) (by simp [WPc.awake]) hi.clean
  | rel m p p' hc =>
    rcases hc with ⟨t, ⟨rfl, rfl, rfl⟩ | ⟨rfl, rfl, rfl⟩ | ⟨rfl, rfl, rfl⟩ | ⟨rfl, rfl, rfl⟩⟩ <;>
      exact hi.move ho hk rfl rfl rfl rfl rfl (by simp [WPc.Idle]) (by simp) (by simp) (by simp) (by simp [WPc.awake]) hi.clean
  | wake => exact hi.move ho hk rfl rfl rfl rfl rfl (by simp [WPc.Idle]) (by simp) (by simp) (by simp) (by simp [WPc.awake]) hi.clean
  | sleep hq =>
    refine ⟨by simp [hi.len], ho, hi.reset, ?_, hi.clean, ?_, ?_, ?_⟩
    · intro h
      obtain ⟨e1, e2, e3⟩ := hi.quiet h
      refine ⟨e1, e2, fun x hx => ?_⟩
      by_cases hx' : WPc.asleep = x
      · exact hx' ▸ .inr (.inr rfl)
      · exact e3 x (mem_set_of hk hx hx')
    · intro a b
      obtain ⟨t, ht⟩ := hi.evWake a b
      exact ⟨t, mem_set_ne hk ht (by simp)⟩
    · intro a b
      obtain ⟨t, ht⟩ := hi.ctWake a b
      exact ⟨t, mem_set_ne hk ht (by simp)⟩
    · intro _
      simp [hq]
  | pop t q hq =>
    refine ⟨by simp [hi.len], ho, hi.reset, ?_, hi.clean, ?_, ?_, ?_⟩
    · intro h
      have := (hi.quiet h).2.1
      rw [hq] at this
      cases this
    · intro a b
      obtain ⟨t, ht⟩ := hi.evWake a b
      exact ⟨t, mem_set_ne hk ht (by simp)⟩
    · intro a b
      obtain ⟨t, ht⟩ := hi.ctWake a b
      exact ⟨t, mem_set_ne hk ht (by simp)⟩
    · intro h
      have h1 := hi.poolWake (mem_set_of hk h (by simp))
      have h2 := countP_set (p' := .unlock t) hk
      rw [hq] at h1
      simp only [List.length_cons, WPc.awake, if_true] at h1 h2
      show q.length ≤ (s.wpcs.set k (.unlock t)).countP WPc.awake + (if s.mpc = .addNotify then 1 else 0)
      simp at h2
      omega
  | evSet t =>
    refine ⟨by simp [hi.len], ho, fun _ => rfl, fun h => (hnf (by simp [WPc.Idle]) h).elim, hi.clean, ?_, ?_, ?_⟩
    · intro _ _
      exact ⟨t, List.mem_set (List.getElem?_eq_some_iff.mp hk).1 _⟩
    · intro a b
      obtain ⟨t, ht⟩ := hi.ctWake a b
      exact ⟨t, mem_set_ne hk ht (by simp)⟩
    · intro h
      have h1 := hi.poolWake (mem_set_of hk h (by simp))
      have h2 := countP_set (p' := .evNotify t) hk
      simp only [WPc.awake] at h2
      simp at h2
      show s.queue.length ≤ (s.wpcs.set k (.evNotify t)).countP WPc.awake + (if s.mpc = .addNotify then 1 else 0)
      omega
  | ctDec t =>
    refine ⟨by simp [hi.len], ho, hi.reset, fun h => (hnf (by simp [WPc.Idle]) h).elim, hi.clean, ?_, ?_, ?_⟩
    · intro a b
      obtain ⟨t, ht⟩ := hi.evWake a b
      exact ⟨t, mem_set_ne hk ht (by simp)⟩
    · intro _ _
      exact ⟨t, List.mem_set (List.getElem?_eq_some_iff.mp hk).1 _⟩
    · intro h
      have h1 := hi.poolWake (mem_set_of hk h (by simp))
      have h2 := countP_set (p' := .ctNotify t) hk
      simp only [WPc.awake] at h2
      simp at h2
      show s.queue.length ≤ (s.wpcs.set k (.ctNotify t)).countP WPc.awake + (if s.mpc = .addNotify then 1 else 0)
      omega
  | evWake t hm =>
    refine ⟨by simp [hi.len], ho, by simp, by simp [MPc.final], by simp [MPc.taken], by simp, by simp, ?_⟩
    intro h
    have h1 := hi.poolWake (mem_set_of hk h (by simp))
    have h2 := countP_set (p' := .evUnlock t) hk
    simp only [WPc.awake, hm] at h1 h2
    simp at h1 h2
    show s.queue.length ≤ (s.wpcs.set k (.evUnlock t)).countP WPc.awake + _
    omega
  | evNone t hm =>
    refine ⟨by simp [hi.len], ho, hi.reset, fun h => (hnf (by simp [WPc.Idle]) h).elim, hi.clean, fun h => absurd h hm, ?_, ?_⟩
    · intro a b
      obtain ⟨t, ht⟩ := hi.ctWake a b
      exact ⟨t, mem_set_ne hk ht (by simp)⟩
    · intro h
      have h1 := hi.poolWake (mem_set_of hk h (by simp))
      have h2 := countP_set (p' := .evUnlock t) hk
      simp only [WPc.awake] at h2
      simp at h2
      show s.queue.length ≤ (s.wpcs.set k (.evUnlock t)).countP WPc.awake + (if s.mpc = .addNotify then 1 else 0)
      omega
  | ctWake t hm =>
    refine ⟨by simp [hi.len], ho, by simp, by simp [MPc.final], by simp [MPc.taken], by simp, by simp, ?_⟩
    intro h
    have h1 := hi.poolWake (mem_set_of hk h (by simp))
    have h2 := countP_set (p' := .ctUnlock t) hk
    simp only [WPc.awake, hm] at h1 h2
    simp at h1 h2
    show s.queue.length ≤ (s.wpcs.set k (.ctUnlock t)).countP WPc.awake + _
    omega
  | ctNone t hm =>
    refine ⟨by simp [hi.len], ho, hi.reset, fun h => (hnf (by simp [WPc.Idle]) h).elim, hi.clean, ?_, fun h => absurd h hm, ?_⟩
    · intro a b
      obtain ⟨t, ht⟩ := hi.evWake a b
      exact ⟨t, mem_set_ne hk ht (by simp)⟩
    · intro h
      have h1 := hi.poolWake (mem_set_of hk h (by simp))
      have h2 := countP_set (p' := .ctUnlock t) hk
      simp only [WPc.awake] at h2
      simp at h2
      show s.queue.length ≤ (s.wpcs.set k (.ctUnlock t)).countP WPc.awake + (if s.mpc = .addNotify then 1 else 0)
      omega

theorem Inv.step {j : Job} {s s' : State} {a : TaskList.State} (hi : Inv j s) (hr : Rel s a) (ha : TaskList.InvA j a) (hs : Any j s s') : Inv j s' := by
  have ho : Own s' := hi.own.step hs
  cases hs with
  | main h => exact hi.stepMain hr ha h
  | work k p p' hk hw => exact hi.stepWork hk hw
  | event hp => exact hi.plain ho rfl rfl (by simp) (by simp [hp]) (by simp [MPc.final]) (by simp) (by simp) (by simp [MPc.taken])
  | counter hp => exact hi.plain ho rfl rfl (by simp) (by simp [hp]) (by simp [MPc.final]) (by simp) (by simp) (by simp [MPc.taken])

end Maike.TaskList.Threads
