import Verif.TaskList.ThreadTheorems

/-!
# `TaskList::process`: what can be done with critical sections as single actions can be done by the threads (C107)

The converse of `C104_refines`: the threads may be scheduled such that nobody ever has to wait for a mutex, and nobody falls asleep.
-/

namespace Maike.TaskList.Threads

/-- Some operations of threads, none of which is the end of the body of a task. -/
inductive Quietly (j : Job) : State → State → Prop
  | nil {s} : Quietly j s s
  | cons {a s s₁ s'} : step j a s = some s₁ → (∀ k o t, a = .work k o → s.wpcs[k]? ≠ some (.body t)) → Quietly j s₁ s' → Quietly j s s'

def canonPc : Pc → MPc
  | .loop => .loop
  | .reading r => .reading r
  | .waiting => .evLock
  | .draining => .ctLock
  | .returned n => .returned n
  | .rethrown t => .rethrown t

def WPc.Canon : WPc → Prop
  | .lock | .body _ | .epLock _ | .evLock _ | .ctLock _ => True
  | _ => False

/-- No mutex is locked, and nobody sleeps. -/
structure Canon (j : Job) (s : State) (a : TaskList.State) : Prop where
  main : s.mpc = canonPc a.pc
  free : ∀ m, s.owner m = none
  work : ∀ p ∈ s.wpcs, p.Canon
  len : s.wpcs.length = j.workers
  rel : Rel s a

theorem Quietly.main {j : Job} {s s₁ s' : State} (h : stepMain j 0 s = some s₁) (h' : Quietly j s₁ s') : Quietly j s s' := .cons (a := .main 0) h (by simp) h'

theorem Quietly.work {j : Job} {s s₁ s' : State} {k : Nat} {p : WPc} (hp : s.wpcs[k]? = some p) (hb : ∀ t, p ≠ .body t) (h : stepWork k .success s = some s₁) (h' : Quietly j s₁ s') :
    Quietly j s s' := by
  refine .cons (a := .work k .success) h ?_ h'
  rintro _ _ t e
  cases e
  rw [hp]
  exact fun e => hb t (Option.some.inj e)

theorem canonPc_wrap (suf : List Nat) : wrapPc suf = canonPc (TaskList.wrapPc suf) := by
  unfold wrapPc TaskList.wrapPc
  split <;> rfl

theorem wrap_mpc (s : State) : (if s.suf = [] then MPc.evLock else MPc.loop) = wrapPc s.suf := rfl

/-- Where a worker is who is executing something. -/
theorem Canon.worker {j : Job} {s : State} {a : TaskList.State} (h : Canon j s a) {l₁ l₂ : List (Nat × Stage)} {t : Nat} {st : Stage} (he : a.running = l₁ ++ (t, st) :: l₂) :
    ∃ k p, s.wpcs[k]? = some p ∧ p = (match st with | .body => .body t | .throwing => .epLock t | .exiting => .evLock t | .unlocking => .ctLock t) ∧
      (∀ q y, q.run = some y → (l₁ ++ y :: l₂).Perm ((s.wpcs.set k q).filterMap WPc.run)) ∧ (∀ q, q.run = none → (l₁ ++ l₂).Perm ((s.wpcs.set k q).filterMap WPc.run)) := by
  have hr := h.rel.running
  rw [he] at hr
  obtain ⟨p, hp, hrun⟩ := List.mem_filterMap.mp (hr.mem_iff.mp (by simp : (t, st) ∈ _))
  have hc := h.work p hp
  obtain ⟨k, hk⟩ := List.getElem?_of_mem hp
  obtain ⟨w₁, w₂, e1, e2, _⟩ := getElem?_split hk
  have hperm : (l₁ ++ l₂).Perm (w₁.filterMap WPc.run ++ w₂.filterMap WPc.run) := by
    rw [e1] at hr
    simp only [List.filterMap_append, List.filterMap_cons, hrun] at hr
    exact (List.perm_cons _).mp ((List.perm_middle.symm.trans hr).trans List.perm_middle)
  refine ⟨k, p, hk, ?_, ?_, ?_⟩
  · cases p <;> simp only [WPc.Canon] at hc <;> simp only [WPc.run, Option.some.injEq, Prod.mk.injEq, reduceCtorEq] at hrun <;> (obtain ⟨rfl, rfl⟩ := hrun; rfl)
  · intro q y hq
    rw [e2 q]
    simp only [List.filterMap_append, List.filterMap_cons, hq]
    exact (List.perm_middle.trans (hperm.cons y)).trans List.perm_middle.symm
  · intro q hq
    rw [e2 q]
    simp only [List.filterMap_append, List.filterMap_cons, hq]
    exact hperm

theorem canon_set {l : List WPc} (h : ∀ p ∈ l, p.Canon) {k : Nat} {q : WPc} (hq : q.Canon) : ∀ p ∈ l.set k q, p.Canon := fun p hp => by
  rcases List.mem_or_eq_of_mem_set hp with hp | rfl
  · exact h p hp
  · exact hq

theorem get_set {l : List WPc} {k : Nat} {p : WPc} (h : l[k]? = some p) (q : WPc) : (l.set k q)[k]? = some q := by
  rw [List.getElem?_set]
  simp [(List.getElem?_eq_some_iff.mp h).1]

theorem filterMap_full {l : List WPc} (h : ∀ p ∈ l, p.run ≠ none) : (l.filterMap WPc.run).length = l.length := by
  induction l with
  | nil => rfl
  | cons x l ih =>
    cases hx : x.run with
    | none => exact absurd hx (h x (by simp))
    | some y =>
      simp only [List.filterMap_cons, hx, List.length_cons]
      rw [ih fun p hp => h p (by simp [hp])]

/-- One action: some operations of the threads. -/
theorem Canon.step {j : Job} {s : State} {a a' : TaskList.State} (h : Canon j s a) (hs : TaskList.Step j a a') :
    ∃ s', Canon j s' a' ∧ (Quietly j s s' ∨ ∃ k t o, s.wpcs[k]? = some (.body t) ∧ Threads.step j (.work k o) s = some s') := by
  have hr := h.rel
  have hm := h.main
  have hf := h.free
  have hfree : ∀ m x, ∀ m', setOwner (setOwner s.owner m x) m none m' = none := fun m x m' => by
    unfold setOwner
    split
    · rfl
    · exact hf m'
  have hpend : s.value = a.counter := by
    have := hr.counter
    rw [hm] at this
    rw [this]
    cases a.pc <;> rfl
  cases hs with
  | loopDrain hpc h1 h2 =>
    rw [hpc] at hm
    refine ⟨{ s with mpc := .ctLock }, ⟨rfl, hf, h.work, h.len, ⟨rfl, hr.pre, hr.suf, hr.results, hr.event, hpend, hr.num, hr.queue, hr.running, hr.eptr, hr.hist⟩⟩, .inl (.main ?_ .nil)⟩
    rw [hr.suf] at h1
    rw [hr.pre] at h2
    simp [stepMain, hm, canonPc, h1, h2]
  | loopRead t suf hpc h1 =>
    rw [hpc] at hm
    refine ⟨{ s with mpc := .reading (j.deps t) }, ⟨rfl, hf, h.work, h.len, ⟨rfl, hr.pre, hr.suf, hr.results, hr.event, hpend, hr.num, hr.queue, hr.running, hr.eptr, hr.hist⟩⟩, .inl (.main ?_ .nil)⟩
    rw [hr.suf] at h1
    simp [stepMain, hm, canonPc, h1]
  | readOk d ds hpc h1 =>
    rw [hpc] at hm
    refine ⟨{ s with mpc := .reading ds }, ⟨rfl, hf, h.work, h.len, ⟨rfl, hr.pre, hr.suf, hr.results, hr.event, hpend, hr.num, hr.queue, hr.running, hr.eptr, hr.hist⟩⟩, .inl (.main ?_ .nil)⟩
    rw [hr.results] at h1
    simp [stepMain, hm, canonPc, h1]
  | readPending d ds t suf hpc h1 h2 =>
    rw [hpc] at hm
    refine ⟨{ s with pre := s.pre ++ [t], suf := suf, mpc := wrapPc suf }, ⟨canonPc_wrap suf, hf, h.work, h.len,
      ⟨(absPc_wrap (s := { s with pre := s.pre ++ [t], suf := suf, mpc := wrapPc suf }) rfl).symm, by simp [hr.pre], rfl, hr.results, hr.event, by rw [pend_wrap]; exact hpend, hr.num, hr.queue, hr.running, hr.eptr,
        hr.hist⟩⟩, .inl (.main ?_ .nil)⟩
    rw [hr.results] at h1
    rw [hr.suf] at h2
    simp [stepMain, hm, canonPc, h1, h2, wrap, wrapPc]
  | readFail d ds hpc h1 =>
    rw [hpc] at hm
    refine ⟨{ s with pre := [], suf := [], mpc := .loop }, ⟨rfl, hf, h.work, h.len, ⟨rfl, rfl, rfl, hr.results, hr.event, hpend, hr.num, hr.queue, hr.running, hr.eptr, hr.hist⟩⟩, .inl (.main ?_ .nil)⟩
    rw [hr.results] at h1
    simp [stepMain, hm, canonPc, h1]
  | submit t suf hpc h1 =>
    rw [hpc] at hm
    rw [hr.suf] at h1
    have hasleep : WPc.asleep ∉ s.wpcs := fun hx => h.work _ hx
    refine ⟨{ s with
        value := s.value + 1, queue := s.queue ++ [t], suf := suf, num := s.num + 1, hist := s.hist ++ [.submit t], mpc := wrapPc suf,
        owner := setOwner (setOwner (setOwner (setOwner s.owner .counter (some 0)) .counter none) .pool (some 0)) .pool none },
      ⟨canonPc_wrap suf, ?_, h.work, h.len, ⟨?_, hr.pre, rfl, hr.results, hr.event, ?_, by simp [hr.num], by simp [hr.queue], hr.running, hr.eptr, by simp [hr.hist]⟩⟩, .inl ?_⟩
    · intro m
      simp only [setOwner]
      split
      · rfl
      · split
        · rfl
        · exact hf m
    · generalize hx : ({ s with
        value := s.value + 1, queue := s.queue ++ [t], suf := suf, num := s.num + 1, hist := s.hist ++ [.submit t], mpc := wrapPc suf,
        owner := setOwner (setOwner (setOwner (setOwner s.owner .counter (some 0)) .counter none) .pool (some 0)) .pool none } : State) = x
      have h2 := absPc_wrap (s := x) (by rw [← hx])
      rw [h2, ← hx]
    · rw [pend_wrap]; simp [hpend]
    · have hfree2 : setOwner (setOwner s.owner .counter (some 0)) .counter none .pool = none := hfree _ _ _
      refine .main (s₁ := { s with mpc := .incLock }) (by simp [stepMain, hm, canonPc]) ?_
      refine .main (s₁ := { s with mpc := .inc, owner := setOwner s.owner .counter (some 0) }) (by simp [stepMain, acquire, hf]) ?_
      refine .main (s₁ := { s with mpc := .incNotify, value := s.value + 1, owner := setOwner s.owner .counter (some 0) }) (by simp [stepMain]) ?_
      refine .main (s₁ := { s with mpc := .incUnlock, value := s.value + 1, owner := setOwner s.owner .counter (some 0) }) (by simp [stepMain]) ?_
      refine .main (s₁ := { s with mpc := .addLock, value := s.value + 1, owner := setOwner (setOwner s.owner .counter (some 0)) .counter none }) (by simp [stepMain, release]) ?_
      refine .main (s₁ := { s with mpc := .add, value := s.value + 1, owner := setOwner (setOwner (setOwner s.owner .counter (some 0)) .counter none) .pool (some 0) })
        (by simp [stepMain, acquire, hfree2]) ?_
      refine .main (s₁ := { s with
        mpc := .addNotify, value := s.value + 1, owner := setOwner (setOwner (setOwner s.owner .counter (some 0)) .counter none) .pool (some 0), queue := s.queue ++ [t], suf := suf,
        num := s.num + 1, hist := s.hist ++ [.submit t] }) (by simp [stepMain, h1]) ?_
      refine .main (s₁ := { s with
        mpc := .addUnlock, value := s.value + 1, owner := setOwner (setOwner (setOwner s.owner .counter (some 0)) .counter none) .pool (some 0), queue := s.queue ++ [t], suf := suf,
        num := s.num + 1, hist := s.hist ++ [.submit t] })
        (by
          have : s.wpcs[0]? ≠ some .asleep := fun hx => hasleep (List.mem_of_getElem? hx)
          simp [stepMain, notifyPool, hasleep, this]) ?_
      exact .main (by simp [stepMain, release, wrap]; rfl) .nil
  | wake hpc h1 =>
    rw [hpc] at hm
    rw [hr.event] at h1
    refine ⟨{ s with status := false, suf := s.pre ++ s.suf, pre := [], mpc := .loop, owner := setOwner (setOwner s.owner .event (some 0)) .event none },
      ⟨rfl, hfree _ _, h.work, h.len, ⟨rfl, rfl, by simp [hr.pre, hr.suf], hr.results, rfl, hpend, hr.num, hr.queue, hr.running, hr.eptr, hr.hist⟩⟩, .inl ?_⟩
    refine .main (s₁ := { s with mpc := .evTest, owner := setOwner s.owner .event (some 0) }) (by simp [stepMain, hm, canonPc, acquire, hf]) ?_
    refine .main (s₁ := { s with mpc := .evReset, owner := setOwner s.owner .event (some 0) }) (by simp [stepMain, h1]) ?_
    refine .main (s₁ := { s with mpc := .evUnlock, status := false, suf := s.pre ++ s.suf, pre := [], owner := setOwner s.owner .event (some 0) }) (by simp [stepMain]) ?_
    exact .main (by simp [stepMain, release]) .nil
  | rethrow t hpc h1 h2 =>
    rw [hpc] at hm
    rw [← hpend] at h1
    rw [hr.eptr] at h2
    have hfree2 : setOwner (setOwner s.owner .counter (some 0)) .counter none .eptr = none := hfree _ _ _
    refine ⟨{ s with mpc := .rethrown t, eptr := none, owner := setOwner (setOwner (setOwner (setOwner s.owner .counter (some 0)) .counter none) .eptr (some 0)) .eptr none },
      ⟨rfl, ?_, h.work, h.len, ⟨rfl, hr.pre, hr.suf, hr.results, hr.event, hpend, hr.num, hr.queue, hr.running, rfl, hr.hist⟩⟩, .inl ?_⟩
    · intro m
      simp only [setOwner]
      split
      · rfl
      · split
        · rfl
        · exact hf m
    · refine .main (s₁ := { s with mpc := .ctTest, owner := setOwner s.owner .counter (some 0) }) (by simp [stepMain, hm, canonPc, acquire, hf]) ?_
      refine .main (s₁ := { s with mpc := .ctUnlock, owner := setOwner s.owner .counter (some 0) }) (by simp [stepMain, h1]) ?_
      refine .main (s₁ := { s with mpc := .epLock, owner := setOwner (setOwner s.owner .counter (some 0)) .counter none }) (by simp [stepMain, release]) ?_
      refine .main (s₁ := { s with mpc := .epTake, owner := setOwner (setOwner (setOwner s.owner .counter (some 0)) .counter none) .eptr (some 0) }) (by simp [stepMain, acquire, hfree2]) ?_
      refine .main (s₁ := { s with mpc := .epUnlock (some t), eptr := none, owner := setOwner (setOwner (setOwner s.owner .counter (some 0)) .counter none) .eptr (some 0) })
        (by simp [stepMain, h2]) ?_
      refine .main (s₁ := { s with
        mpc := .dropCounter (some t), eptr := none, owner := setOwner (setOwner (setOwner (setOwner s.owner .counter (some 0)) .counter none) .eptr (some 0)) .eptr none }) (by simp [stepMain, release]) ?_
      refine .main (s₁ := { s with
        mpc := .dropEvent (some t), eptr := none, owner := setOwner (setOwner (setOwner (setOwner s.owner .counter (some 0)) .counter none) .eptr (some 0)) .eptr none }) (by simp [stepMain]) ?_
      exact .main (by simp [stepMain]) .nil
  | ret hpc h1 h2 =>
    rw [hpc] at hm
    rw [← hpend] at h1
    rw [hr.eptr] at h2
    have hfree2 : setOwner (setOwner s.owner .counter (some 0)) .counter none .eptr = none := hfree _ _ _
    refine ⟨{ s with mpc := .returned s.num, eptr := none, owner := setOwner (setOwner (setOwner (setOwner s.owner .counter (some 0)) .counter none) .eptr (some 0)) .eptr none },
      ⟨by simp [canonPc, hr.num], ?_, h.work, h.len, ⟨by simp [absPc, hr.num], hr.pre, hr.suf, hr.results, hr.event, hpend, hr.num, hr.queue, hr.running, by rw [hr.eptr, h2], hr.hist⟩⟩, .inl ?_⟩
    · intro m
      simp only [setOwner]
      split
      · rfl
      · split
        · rfl
        · exact hf m
    · refine .main (s₁ := { s with mpc := .ctTest, owner := setOwner s.owner .counter (some 0) }) (by simp [stepMain, hm, canonPc, acquire, hf]) ?_
      refine .main (s₁ := { s with mpc := .ctUnlock, owner := setOwner s.owner .counter (some 0) }) (by simp [stepMain, h1]) ?_
      refine .main (s₁ := { s with mpc := .epLock, owner := setOwner (setOwner s.owner .counter (some 0)) .counter none }) (by simp [stepMain, release]) ?_
      refine .main (s₁ := { s with mpc := .epTake, owner := setOwner (setOwner (setOwner s.owner .counter (some 0)) .counter none) .eptr (some 0) }) (by simp [stepMain, acquire, hfree2]) ?_
      refine .main (s₁ := { s with mpc := .epUnlock none, eptr := none, owner := setOwner (setOwner (setOwner s.owner .counter (some 0)) .counter none) .eptr (some 0) })
        (by simp [stepMain, h2]) ?_
      refine .main (s₁ := { s with
        mpc := .dropCounter none, eptr := none, owner := setOwner (setOwner (setOwner (setOwner s.owner .counter (some 0)) .counter none) .eptr (some 0)) .eptr none }) (by simp [stepMain, release]) ?_
      refine .main (s₁ := { s with
        mpc := .dropEvent none, eptr := none, owner := setOwner (setOwner (setOwner (setOwner s.owner .counter (some 0)) .counter none) .eptr (some 0)) .eptr none }) (by simp [stepMain]) ?_
      exact .main (by simp [stepMain]) .nil
  | take t q h1 h2 =>
    rw [hr.queue] at h2
    -- there is an idle worker
    obtain ⟨p, hp, hrun⟩ : ∃ p ∈ s.wpcs, p.run = none := by
      by_cases hex : ∃ p ∈ s.wpcs, p.run = none
      · exact hex
      · exfalso
        have := filterMap_full fun p hp e => hex ⟨p, hp, e⟩
        have := hr.running.length_eq.trans this
        have := h.len
        omega
    have hpl : p = .lock := by
      have hc := h.work p hp
      cases p <;> simp only [WPc.Canon] at hc <;> first | rfl | cases hrun
    subst hpl
    obtain ⟨k, hk⟩ := List.getElem?_of_mem hp
    obtain ⟨w₁, w₂, e1, e2, _⟩ := getElem?_split hk
    refine ⟨{ s with
        wpcs := s.wpcs.set k (.body t), queue := q, hist := s.hist ++ [.start t], owner := setOwner (setOwner s.owner .pool (some (k + 1))) .pool none },
      ⟨hm, hfree _ _, canon_set h.work trivial, by rw [List.length_set]; exact h.len, ⟨hr.pc, hr.pre, hr.suf, hr.results, hr.event, hr.counter, hr.num, rfl, ?_, hr.eptr, by simp [hr.hist]⟩⟩, .inl ?_⟩
    · rw [e2]
      have hrr := hr.running
      rw [e1] at hrr
      simp only [List.filterMap_append, List.filterMap_cons, WPc.run] at hrr ⊢
      exact (List.perm_append_comm.trans (hrr.cons _)).trans List.perm_middle.symm
    · refine .work (s₁ := { s with wpcs := s.wpcs.set k .test, owner := setOwner s.owner .pool (some (k + 1)) }) hk (by simp) (by simp [stepWork, hk, acquire, hf, State.at]) ?_
      refine .work (s₁ := { s with wpcs := s.wpcs.set k (.unlock t), queue := q, hist := s.hist ++ [.start t], owner := setOwner s.owner .pool (some (k + 1)) })
        (get_set hk _) (by simp) (by simp [stepWork, get_set hk, h2, State.at]) ?_
      exact .work (get_set hk _) (by simp) (by simp [stepWork, get_set hk, release, State.at]) .nil
  | finSuccess l₁ t l₂ h1 =>
    obtain ⟨k, p, hk, rfl, h2, _⟩ := h.worker h1
    refine ⟨{ s with wpcs := s.wpcs.set k (.evLock t), results := setResult s.results t .success, hist := s.hist ++ [.finish t .success] },
      ⟨hm, hf, canon_set h.work trivial, by rw [List.length_set]; exact h.len, ⟨hr.pc, hr.pre, hr.suf, by simp [hr.results], hr.event, hr.counter, hr.num, hr.queue, h2 _ _ rfl, hr.eptr, by simp [hr.hist]⟩⟩,
      .inr ⟨k, t, .success, hk, by simp [Threads.step, stepWork, hk, State.at]⟩⟩
  | finFailure l₁ t l₂ h1 =>
    obtain ⟨k, p, hk, rfl, h2, _⟩ := h.worker h1
    refine ⟨{ s with wpcs := s.wpcs.set k (.epLock t), results := setResult s.results t .failure, hist := s.hist ++ [.finish t .failure] },
      ⟨hm, hf, canon_set h.work trivial, by rw [List.length_set]; exact h.len, ⟨hr.pc, hr.pre, hr.suf, by simp [hr.results], hr.event, hr.counter, hr.num, hr.queue, h2 _ _ rfl, hr.eptr, by simp [hr.hist]⟩⟩,
      .inr ⟨k, t, .failure, hk, by simp [Threads.step, stepWork, hk, State.at]⟩⟩
  | finThrew l₁ t l₂ h1 =>
    obtain ⟨k, p, hk, rfl, h2, _⟩ := h.worker h1
    refine ⟨{ s with wpcs := s.wpcs.set k (.epLock t), hist := s.hist ++ [.finish t .threw] },
      ⟨hm, hf, canon_set h.work trivial, by rw [List.length_set]; exact h.len, ⟨hr.pc, hr.pre, hr.suf, hr.results, hr.event, hr.counter, hr.num, hr.queue, h2 _ _ rfl, hr.eptr, by simp [hr.hist]⟩⟩,
      .inr ⟨k, t, .threw, hk, by simp [Threads.step, stepWork, hk, State.at]⟩⟩
  | store l₁ t l₂ h1 =>
    obtain ⟨k, p, hk, rfl, h2, _⟩ := h.worker h1
    refine ⟨{ s with
        wpcs := s.wpcs.set k (.evLock t), eptr := (match s.eptr with | none => some t | some x => some x), owner := setOwner (setOwner s.owner .eptr (some (k + 1))) .eptr none },
      ⟨hm, hfree _ _, canon_set h.work trivial, by rw [List.length_set]; exact h.len, ⟨hr.pc, hr.pre, hr.suf, hr.results, hr.event, hr.counter, hr.num, hr.queue, h2 _ _ rfl, by simp only [hr.eptr]; cases s.eptr <;> rfl, hr.hist⟩⟩,
      .inl ?_⟩
    refine .work (s₁ := { s with wpcs := s.wpcs.set k (.epStore t), owner := setOwner s.owner .eptr (some (k + 1)) }) hk (by simp) (by simp [stepWork, hk, acquire, hf, State.at]) ?_
    refine .work (s₁ := { s with wpcs := s.wpcs.set k (.epUnlock t), eptr := (match s.eptr with | none => some t | some x => some x), owner := setOwner s.owner .eptr (some (k + 1)) })
      (get_set hk _) (by simp) (by simp [stepWork, get_set hk, State.at]; cases s.eptr <;> rfl) ?_
    exact .work (get_set hk _) (by simp) (by simp [stepWork, get_set hk, release, State.at]) .nil
  | setEvent l₁ t l₂ h1 =>
    obtain ⟨k, p, hk, rfl, h2, _⟩ := h.worker h1
    have hns : s.mpc ≠ .evSleep := by rw [hm]; cases a.pc <;> simp [canonPc]
    refine ⟨{ s with wpcs := s.wpcs.set k (.ctLock t), status := true, owner := setOwner (setOwner s.owner .event (some (k + 1))) .event none },
      ⟨hm, hfree _ _, canon_set h.work trivial, by rw [List.length_set]; exact h.len, ⟨hr.pc, hr.pre, hr.suf, hr.results, rfl, hr.counter, hr.num, hr.queue, h2 _ _ rfl, hr.eptr, hr.hist⟩⟩, .inl ?_⟩
    refine .work (s₁ := { s with wpcs := s.wpcs.set k (.evSet t), owner := setOwner s.owner .event (some (k + 1)) }) hk (by simp) (by simp [stepWork, hk, acquire, hf, State.at]) ?_
    refine .work (s₁ := { s with wpcs := s.wpcs.set k (.evNotify t), status := true, owner := setOwner s.owner .event (some (k + 1)) })
      (get_set hk _) (by simp) (by simp [stepWork, get_set hk, State.at]) ?_
    refine .work (s₁ := { s with wpcs := s.wpcs.set k (.evUnlock t), status := true, owner := setOwner s.owner .event (some (k + 1)) })
      (get_set hk _) (by simp) (by simp [stepWork, get_set hk, State.at, notifyEvent, hns]) ?_
    exact .work (get_set hk _) (by simp) (by simp [stepWork, get_set hk, release, State.at]) .nil
  | unlock l₁ t l₂ h1 =>
    obtain ⟨k, p, hk, rfl, _, h2⟩ := h.worker h1
    have hns : s.mpc ≠ .ctSleep := by rw [hm]; cases a.pc <;> simp [canonPc]
    have hpe : pend s.mpc = 0 := by rw [hm]; cases a.pc <;> rfl
    refine ⟨{ s with wpcs := s.wpcs.set k .lock, value := s.value - 1, owner := setOwner (setOwner s.owner .counter (some (k + 1))) .counter none },
      ⟨hm, hfree _ _, canon_set h.work trivial, by rw [List.length_set]; exact h.len, ⟨hr.pc, hr.pre, hr.suf, hr.results, hr.event, ?_, hr.num, hr.queue, h2 _ rfl, hr.eptr, hr.hist⟩⟩, .inl ?_⟩
    · show s.value - 1 = a.counter - 1 + pend s.mpc
      rw [hpend, hpe]; rfl
    · refine .work (s₁ := { s with wpcs := s.wpcs.set k (.ctDec t), owner := setOwner s.owner .counter (some (k + 1)) }) hk (by simp) (by simp [stepWork, hk, acquire, hf, State.at]) ?_
      refine .work (s₁ := { s with wpcs := s.wpcs.set k (.ctNotify t), value := s.value - 1, owner := setOwner s.owner .counter (some (k + 1)) })
        (get_set hk _) (by simp) (by simp [stepWork, get_set hk, State.at]) ?_
      refine .work (s₁ := { s with wpcs := s.wpcs.set k (.ctUnlock t), value := s.value - 1, owner := setOwner s.owner .counter (some (k + 1)) })
        (get_set hk _) (by simp) (by simp [stepWork, get_set hk, State.at, notifyCounter, hns]) ?_
      exact .work (get_set hk _) (by simp) (by simp [stepWork, get_set hk, release, State.at]) .nil

/-- The state in which all workers have been started, and none of them has done anything yet. -/
def fresh (j : Job) : State where
  mpc := .loop
  wpcs := List.replicate j.workers .lock
  owner := fun _ => none
  pre := []
  suf := j.tasks
  num := 0
  results := fun t => if t ∈ j.tasks then .pending else .success
  status := false
  value := 0
  queue := []
  eptr := none
  hist := []

theorem fresh_start (j : Job) : Start j (fresh j) := by
  refine ⟨rfl, by simp [fresh], fun p hp => .inl (List.eq_of_mem_replicate hp), ?_, fun _ _ => rfl, rfl, rfl, rfl, rfl, rfl, rfl, rfl, rfl, rfl⟩
  intro tid
  simp only [fresh, reduceCtorEq, false_iff, not_exists, not_and]
  rintro k _ h
  rw [List.getElem?_replicate] at h
  split at h <;> cases h

theorem fresh_canon (j : Job) : Canon j (fresh j) (TaskList.init j) :=
  ⟨rfl, fun _ => rfl, fun p hp => by rw [List.eq_of_mem_replicate hp]; trivial, by simp [fresh], .start (fresh_start j)⟩

end Maike.TaskList.Threads
