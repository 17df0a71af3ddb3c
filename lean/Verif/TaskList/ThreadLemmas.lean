import Verif.TaskList.Threads
import Verif.TaskList.Lemmas3

/-! # Invariants of `TaskList::process`, one operation at a time -/

namespace Maike.TaskList.Threads

/-! ## The transitions as relations -/

def wrapPc (suf : List Nat) : MPc := if suf = [] then .evLock else .loop

/-- Which mutex a thread has. -/
def MPc.holds : MPc → Option Mtx
  | .inc | .incNotify | .incUnlock => some .counter
  | .add | .addNotify | .addUnlock => some .pool
  | .evTest | .evReset | .evUnlock => some .event
  | .ctTest | .ctUnlock => some .counter
  | .epTake | .epUnlock _ => some .eptr
  | _ => none

def WPc.holds : WPc → Option Mtx
  | .test | .unlock _ => some .pool
  | .epStore _ | .epUnlock _ => some .eptr
  | .evSet _ | .evNotify _ | .evUnlock _ => some .event
  | .ctDec _ | .ctNotify _ | .ctUnlock _ => some .counter
  | _ => none

inductive Main (j : Job) (s : State) : State → Prop
  | drain : s.mpc = .loop → s.suf = [] → s.pre = [] → Main j s { s with mpc := .ctLock }
  | read (t suf) : s.mpc = .loop → s.suf = t :: suf → Main j s { s with mpc := .reading (j.deps t) }
  | ready : s.mpc = .reading [] → Main j s { s with mpc := .incLock }
  | readOk (d ds) : s.mpc = .reading (d :: ds) → s.results d = .success → Main j s { s with mpc := .reading ds }
  | readPending (d ds t suf) : s.mpc = .reading (d :: ds) → s.results d = .pending → s.suf = t :: suf →
      Main j s { s with pre := s.pre ++ [t], suf := suf, mpc := wrapPc suf }
  | readFail (d ds) : s.mpc = .reading (d :: ds) → s.results d = .failure → Main j s { s with pre := [], suf := [], mpc := .loop }
  | inc : s.mpc = .inc → Main j s { s with value := s.value + 1, mpc := .incNotify }
  | incNotify : s.mpc = .incNotify → Main j s { s with mpc := .incUnlock }
  | add (t suf) : s.mpc = .add → s.suf = t :: suf →
      Main j s { s with queue := s.queue ++ [t], suf := suf, num := s.num + 1, hist := s.hist ++ [.submit t], mpc := .addNotify }
  | addWake (wake) : s.mpc = .addNotify → s.wpcs[wake]? = some .asleep → Main j s { s with wpcs := s.wpcs.set wake .lock, mpc := .addUnlock }
  | addNone : s.mpc = .addNotify → .asleep ∉ s.wpcs → Main j s { s with mpc := .addUnlock }
  | evTest : s.mpc = .evTest → s.status = true → Main j s { s with mpc := .evReset }
  | evReset : s.mpc = .evReset → Main j s { s with status := false, suf := s.pre ++ s.suf, pre := [], mpc := .evUnlock }
  | ctTest : s.mpc = .ctTest → s.value = 0 → Main j s { s with mpc := .ctUnlock }
  | epTake : s.mpc = .epTake → Main j s { s with eptr := none, mpc := .epUnlock s.eptr }
  | dropCounter (e) : s.mpc = .dropCounter e → Main j s { s with mpc := .dropEvent e }
  | rethrow (t) : s.mpc = .dropEvent (some t) → Main j s { s with mpc := .rethrown t }
  | ret : s.mpc = .dropEvent none → Main j s { s with mpc := .returned s.num }
  /-- a mutex is locked -/
  | acq (m p) : s.owner m = none →
      (s.mpc = .incLock ∧ p = .inc ∧ m = .counter ∨ s.mpc = .addLock ∧ p = .add ∧ m = .pool ∨ s.mpc = .evLock ∧ p = .evTest ∧ m = .event ∨
       s.mpc = .ctLock ∧ p = .ctTest ∧ m = .counter ∨ s.mpc = .epLock ∧ p = .epTake ∧ m = .eptr) →
      Main j s { s with owner := setOwner s.owner m (some 0), mpc := p }
  /-- a mutex is unlocked -/
  | rel (m p) :
      (s.mpc = .incUnlock ∧ p = .addLock ∧ m = .counter ∨ s.mpc = .addUnlock ∧ p = wrapPc s.suf ∧ m = .pool ∨
       s.mpc = .evTest ∧ p = .evSleep ∧ m = .event ∧ s.status = false ∨ s.mpc = .evUnlock ∧ p = .loop ∧ m = .event ∨
       s.mpc = .ctTest ∧ p = .ctSleep ∧ m = .counter ∧ s.value ≠ 0 ∨ s.mpc = .ctUnlock ∧ p = .epLock ∧ m = .counter ∨
       (∃ e, s.mpc = .epUnlock e ∧ p = .dropCounter e) ∧ m = .eptr) →
      Main j s { s with owner := setOwner s.owner m none, mpc := p }

theorem acquire_some {s s' : State} {m : Mtx} {tid : Nat} (h : acquire s m tid = some s') : s.owner m = none ∧ s' = { s with owner := setOwner s.owner m (some tid) } := by
  unfold acquire at h
  split at h
  · rename_i h0; simp at h; exact ⟨h0, h.symm⟩
  · cases h

theorem stepMain_Main {j : Job} {wake : Nat} {s s' : State} (h : stepMain j wake s = some s') : Main j s s' := by
  have hacq : ∀ {m p}, (acquire s m 0).map (fun s => { s with mpc := p }) = some s' →
      s.owner m = none ∧ s' = { s with owner := setOwner s.owner m (some 0), mpc := p } := by
    intro m p h
    obtain ⟨s1, h1, rfl⟩ := Option.map_eq_some_iff.mp h
    obtain ⟨h0, rfl⟩ := acquire_some h1
    exact ⟨h0, rfl⟩
  unfold stepMain at h
  split at h
  · rename_i hpc
    split at h
    · rename_i hs
      split at h
      · rename_i hp; simp at h; subst h; exact .drain hpc hs hp
      · cases h
    · rename_i t suf hs; simp at h; subst h; exact .read t suf hpc hs
  · rename_i hpc; simp at h; subst h; exact .ready hpc
  · rename_i d ds hpc
    split at h
    · rename_i hr; simp at h; subst h; exact .readOk d ds hpc hr
    · rename_i hr
      split at h
      · cases h
      · rename_i t suf hs; simp at h; subst h; exact .readPending d ds t suf hpc hr hs
    · rename_i hr; simp at h; subst h; exact .readFail d ds hpc hr
  · rename_i hpc; obtain ⟨h0, rfl⟩ := hacq h; exact .acq _ _ h0 (by simp [hpc])
  · rename_i hpc; simp at h; subst h; exact .inc hpc
  · rename_i hpc; simp at h; subst h; exact .incNotify hpc
  · rename_i hpc; simp at h; subst h; exact .rel _ _ (by simp [hpc])
  · rename_i hpc; obtain ⟨h0, rfl⟩ := hacq h; exact .acq _ _ h0 (by simp [hpc])
  · rename_i hpc
    split at h
    · cases h
    · rename_i t suf hs; simp at h; subst h; exact .add t suf hpc hs
  · rename_i hpc
    obtain ⟨s1, h1, rfl⟩ := Option.map_eq_some_iff.mp h
    unfold notifyPool at h1
    split at h1
    · rename_i hw; simp at h1; subst h1; exact .addWake wake hpc hw
    · split at h1
      · cases h1
      · rename_i hn; simp at h1; subst h1; exact .addNone hpc hn
  · rename_i hpc; simp at h; subst h; exact .rel .pool (wrapPc s.suf) (by simp [hpc])
  · rename_i hpc; obtain ⟨h0, rfl⟩ := hacq h; exact .acq _ _ h0 (by simp [hpc])
  · rename_i hpc
    split at h
    · rename_i hst; simp at h; subst h; exact .evTest hpc hst
    · rename_i hst; simp at h; subst h; exact .rel .event .evSleep (by simp [hpc, hst])
  · cases h
  · rename_i hpc; simp at h; subst h; exact .evReset hpc
  · rename_i hpc; simp at h; subst h; exact .rel .event .loop (by simp [hpc])
  · rename_i hpc; obtain ⟨h0, rfl⟩ := hacq h; exact .acq _ _ h0 (by simp [hpc])
  · rename_i hpc
    split at h
    · rename_i hst; simp at h; subst h; exact .ctTest hpc hst
    · rename_i hst; simp at h; subst h; exact .rel .counter .ctSleep (by simp [hpc, hst])
  · cases h
  · rename_i hpc; simp at h; subst h; exact .rel .counter .epLock (by simp [hpc])
  · rename_i hpc; obtain ⟨h0, rfl⟩ := hacq h; exact .acq _ _ h0 (by simp [hpc])
  · rename_i hpc; simp at h; subst h; exact .epTake hpc
  · rename_i e hpc; simp at h; subst h; exact .rel .eptr (.dropCounter e) (by simp [hpc])
  · rename_i e hpc; simp at h; subst h; exact .dropCounter e hpc
  · rename_i t hpc; simp at h; subst h; exact .rethrow t hpc
  · rename_i hpc; simp at h; subst h; exact .ret hpc
  · cases h
  · cases h

/-- Steps of the worker `k`, which is at `p` before and at `p'` afterwards. -/
inductive Work (k : Nat) (s : State) : WPc → WPc → State → Prop
  | sleep : s.queue = [] → Work k s .test .asleep { s with owner := setOwner s.owner .pool none, wpcs := s.wpcs.set k .asleep }
  | pop (t q) : s.queue = t :: q → Work k s .test (.unlock t) { s with queue := q, hist := s.hist ++ [.start t], wpcs := s.wpcs.set k (.unlock t) }
  | success (t) : Work k s (.body t) (.evLock t)
      { s with results := setResult s.results t .success, hist := s.hist ++ [.finish t .success], wpcs := s.wpcs.set k (.evLock t) }
  | failure (t) : Work k s (.body t) (.epLock t)
      { s with results := setResult s.results t .failure, hist := s.hist ++ [.finish t .failure], wpcs := s.wpcs.set k (.epLock t) }
  | threw (t) : Work k s (.body t) (.epLock t) { s with hist := s.hist ++ [.finish t .threw], wpcs := s.wpcs.set k (.epLock t) }
  | epStore (t) : Work k s (.epStore t) (.epUnlock t)
      { s with eptr := match s.eptr with | none => some t | some x => some x, wpcs := s.wpcs.set k (.epUnlock t) }
  | evSet (t) : Work k s (.evSet t) (.evNotify t) { s with status := true, wpcs := s.wpcs.set k (.evNotify t) }
  | evWake (t) : s.mpc = .evSleep → Work k s (.evNotify t) (.evUnlock t) { s with mpc := .evLock, wpcs := s.wpcs.set k (.evUnlock t) }
  | evNone (t) : s.mpc ≠ .evSleep → Work k s (.evNotify t) (.evUnlock t) { s with wpcs := s.wpcs.set k (.evUnlock t) }
  | ctDec (t) : Work k s (.ctDec t) (.ctNotify t) { s with value := s.value - 1, wpcs := s.wpcs.set k (.ctNotify t) }
  | ctWake (t) : s.mpc = .ctSleep → Work k s (.ctNotify t) (.ctUnlock t) { s with mpc := .ctLock, wpcs := s.wpcs.set k (.ctUnlock t) }
  | ctNone (t) : s.mpc ≠ .ctSleep → Work k s (.ctNotify t) (.ctUnlock t) { s with wpcs := s.wpcs.set k (.ctUnlock t) }
  | acq (m p p') : s.owner m = none →
      (p = .lock ∧ p' = .test ∧ m = .pool ∨ ∃ t, p = .epLock t ∧ p' = .epStore t ∧ m = .eptr ∨ p = .evLock t ∧ p' = .evSet t ∧ m = .event ∨
       p = .ctLock t ∧ p' = .ctDec t ∧ m = .counter) →
      Work k s p p' { s with owner := setOwner s.owner m (some (k + 1)), wpcs := s.wpcs.set k p' }
  | rel (m p p') :
      (∃ t, p = .unlock t ∧ p' = .body t ∧ m = .pool ∨ p = .epUnlock t ∧ p' = .evLock t ∧ m = .eptr ∨ p = .evUnlock t ∧ p' = .ctLock t ∧ m = .event ∨
       p = .ctUnlock t ∧ p' = .lock ∧ m = .counter) →
      Work k s p p' { s with owner := setOwner s.owner m none, wpcs := s.wpcs.set k p' }
  /-- this is also performed without being notified -/
  | wake : Work k s .asleep .lock { s with wpcs := s.wpcs.set k .lock }

theorem stepWork_Work {k : Nat} {o : Outcome} {s s' : State} (h : stepWork k o s = some s') : ∃ p p', s.wpcs[k]? = some p ∧ p ≠ .asleep ∧ Work k s p p' s' := by
  have hacq : ∀ {m p}, (acquire s m (k + 1)).map (fun s => s.at k p) = some s' →
      s.owner m = none ∧ s' = { s with owner := setOwner s.owner m (some (k + 1)), wpcs := s.wpcs.set k p } := by
    intro m p h
    obtain ⟨s1, h1, rfl⟩ := Option.map_eq_some_iff.mp h
    obtain ⟨h0, rfl⟩ := acquire_some h1
    exact ⟨h0, rfl⟩
  unfold stepWork at h
  split at h
  · cases h
  · rename_i hp; obtain ⟨h0, rfl⟩ := hacq h; exact ⟨_, _, hp, by simp, .acq _ _ _ h0 (by simp)⟩
  · rename_i hp
    split at h
    · rename_i hq; simp at h; subst h; exact ⟨_, _, hp, by simp, .sleep hq⟩
    · rename_i t q hq; simp at h; subst h; exact ⟨_, _, hp, by simp, .pop t q hq⟩
  · cases h
  · rename_i t hp; simp at h; subst h; exact ⟨_, _, hp, by simp, .rel .pool _ _ ⟨t, by simp⟩⟩
  · rename_i t hp
    split at h <;> simp at h <;> subst h
    · exact ⟨_, _, hp, by simp, .success t⟩
    · exact ⟨_, _, hp, by simp, .failure t⟩
    · exact ⟨_, _, hp, by simp, .threw t⟩
  · rename_i t hp; obtain ⟨h0, rfl⟩ := hacq h; exact ⟨_, _, hp, by simp, .acq _ _ _ h0 (.inr ⟨t, by simp⟩)⟩
  · rename_i t hp; simp at h; subst h; exact ⟨_, _, hp, by simp, .epStore t⟩
  · rename_i t hp; simp at h; subst h; exact ⟨_, _, hp, by simp, .rel .eptr _ _ ⟨t, by simp⟩⟩
  · rename_i t hp; obtain ⟨h0, rfl⟩ := hacq h; exact ⟨_, _, hp, by simp, .acq _ _ _ h0 (.inr ⟨t, by simp⟩)⟩
  · rename_i t hp; simp at h; subst h; exact ⟨_, _, hp, by simp, .evSet t⟩
  · rename_i t hp
    simp at h; subst h
    refine ⟨_, .evUnlock t, hp, by simp, ?_⟩
    unfold notifyEvent
    split
    · rename_i hm; exact .evWake t hm
    · rename_i hm; exact .evNone t hm
  · rename_i t hp; simp at h; subst h; exact ⟨_, _, hp, by simp, .rel .event _ _ ⟨t, by simp⟩⟩
  · rename_i t hp; obtain ⟨h0, rfl⟩ := hacq h; exact ⟨_, _, hp, by simp, .acq _ _ _ h0 (.inr ⟨t, by simp⟩)⟩
  · rename_i t hp; simp at h; subst h; exact ⟨_, _, hp, by simp, .ctDec t⟩
  · rename_i t hp
    simp at h; subst h
    refine ⟨_, .ctUnlock t, hp, by simp, ?_⟩
    unfold notifyCounter
    split
    · rename_i hm; exact .ctWake t hm
    · rename_i hm; exact .ctNone t hm
  · rename_i t hp; simp at h; subst h; exact ⟨_, _, hp, by simp, .rel .counter _ _ ⟨t, by simp⟩⟩

/-- All steps: of the main thread, of a worker, and without notification. -/
inductive Any (j : Job) (s : State) : State → Prop
  | main {s'} : Main j s s' → Any j s s'
  | work {s'} (k p p') : s.wpcs[k]? = some p → Work k s p p' s' → Any j s s'
  | event : s.mpc = .evSleep → Any j s { s with mpc := .evLock }
  | counter : s.mpc = .ctSleep → Any j s { s with mpc := .ctLock }

theorem step_Any {j : Job} {a : Act} {s s' : State} (h : step j a s = some s') : Any j s s' := by
  cases a with
  | main wake => exact .main (stepMain_Main h)
  | work k o =>
    obtain ⟨p, p', hp, _, hw⟩ := stepWork_Work h
    exact .work k p p' hp hw
  | spurious tid =>
    cases tid with
    | zero =>
      simp only [step, stepSpurious] at h
      split at h
      · rename_i hm; simp at h; subst h; exact .event hm
      · rename_i hm; simp at h; subst h; exact .counter hm
      · cases h
    | succ k =>
      simp only [step, stepSpurious] at h
      split at h
      · rename_i hk; simp at h; subst h; exact .work k _ _ hk .wake
      · cases h

/-! ## Who has which mutex -/

structure Own (s : State) : Prop where
  main : ∀ m, s.owner m = some 0 ↔ s.mpc.holds = some m
  work : ∀ m k, s.owner m = some (k + 1) ↔ ∃ p, s.wpcs[k]? = some p ∧ p.holds = some m

theorem wrapPc_holds (suf : List Nat) : (wrapPc suf).holds = none := by unfold wrapPc; split <;> rfl

/-- The main thread moves, and does not lock or unlock anything. -/
theorem Own.stay {s s' : State} (h : Own s) (h1 : s'.owner = s.owner) (h2 : s'.wpcs = s.wpcs) (h3 : s'.mpc.holds = s.mpc.holds) : Own s' :=
  ⟨by rw [h1, h3]; exact h.main, by rw [h1, h2]; exact h.work⟩

theorem Own.acqMain {s : State} {m : Mtx} {p : MPc} (h : Own s) (h0 : s.owner m = none) (h1 : s.mpc.holds = none) (h2 : p.holds = some m) :
    Own { s with owner := setOwner s.owner m (some 0), mpc := p } := by
  constructor
  · intro x
    simp only [setOwner, h2, Option.some.injEq]
    split
    · rename_i e; simp [e]
    · rename_i e
      have := h.main x
      rw [h1] at this
      simp only [this, reduceCtorEq, false_iff]
      exact fun h => e h.symm
  · intro x k
    simp only [setOwner]
    split
    · rename_i e
      subst e
      have := h.work x k
      rw [h0] at this
      simp only [reduceCtorEq, false_iff] at this
      simp only [Option.some.injEq]
      constructor
      · intro h; omega
      · intro h; exact absurd h this
    · exact h.work x k

theorem Own.relMain {s : State} {m : Mtx} {p : MPc} (h : Own s) (h1 : s.mpc.holds = some m) (h2 : p.holds = none) :
    Own { s with owner := setOwner s.owner m none, mpc := p } := by
  constructor
  · intro x
    simp only [setOwner, h2]
    split
    · simp
    · rename_i e
      have := h.main x
      rw [h1] at this
      simp only [this, Option.some.injEq, reduceCtorEq, iff_false]
      exact fun h => e h.symm
  · intro x k
    simp only [setOwner]
    split
    · rename_i e
      subst e
      have := h.work x k
      rw [(h.main x).mpr h1] at this
      simp only [Option.some.injEq] at this
      simp only [reduceCtorEq, false_iff]
      intro h
      have := this.mpr h
      omega
    · exact h.work x k

/-- A worker moves, and does not lock or unlock anything. -/
theorem Own.stayWork {s s' : State} {k : Nat} {p p' : WPc} (h : Own s) (hk : s.wpcs[k]? = some p) (h1 : s'.owner = s.owner) (h2 : s'.wpcs = s.wpcs.set k p')
    (h3 : p'.holds = p.holds) (h4 : s'.mpc.holds = s.mpc.holds) : Own s' := by
  refine ⟨by rw [h1, h4]; exact h.main, fun x i => ?_⟩
  rw [h1, h2, h.work x i]
  by_cases e : i = k
  · subst e
    have hlt := (List.getElem?_eq_some_iff.mp hk).1
    simp [hk, List.getElem?_set_self hlt, h3]
  · rw [List.getElem?_set_ne (fun h => e h.symm)]

theorem Own.acqWork {s : State} {m : Mtx} {k : Nat} {p p' : WPc} (h : Own s) (hk : s.wpcs[k]? = some p) (h0 : s.owner m = none) (h1 : p.holds = none)
    (h2 : p'.holds = some m) : Own { s with owner := setOwner s.owner m (some (k + 1)), wpcs := s.wpcs.set k p' } := by
  have hlt := (List.getElem?_eq_some_iff.mp hk).1
  constructor
  · intro x
    simp only [setOwner]
    split
    · rename_i e
      subst e
      have := h.main x
      rw [h0] at this
      simp only [reduceCtorEq, false_iff] at this
      simp [this]
    · exact h.main x
  · intro x i
    simp only [setOwner]
    by_cases e : i = k
    · subst e
      simp only [List.getElem?_set_self hlt, Option.some.injEq, exists_eq_left', h2]
      split
      · rename_i e; simp [e]
      · rename_i e
        have := h.work x i
        simp only [hk, Option.some.injEq, exists_eq_left', h1, reduceCtorEq, iff_false] at this
        simp only [this, false_iff]
        exact fun h => e h.symm
    · rw [List.getElem?_set_ne (fun h => e h.symm)]
      split
      · rename_i e'
        subst e'
        have := h.work x i
        rw [h0] at this
        simp only [reduceCtorEq, false_iff] at this
        simp only [this, iff_false, Option.some.injEq]
        omega
      · exact h.work x i

theorem Own.relWork {s : State} {m : Mtx} {k : Nat} {p p' : WPc} (h : Own s) (hk : s.wpcs[k]? = some p) (h1 : p.holds = some m) (h2 : p'.holds = none) :
    Own { s with owner := setOwner s.owner m none, wpcs := s.wpcs.set k p' } := by
  have hlt := (List.getElem?_eq_some_iff.mp hk).1
  have hown : s.owner m = some (k + 1) := (h.work m k).mpr ⟨p, hk, h1⟩
  constructor
  · intro x
    simp only [setOwner]
    split
    · rename_i e
      subst e
      have := h.main x
      rw [hown] at this
      simp only [Option.some.injEq] at this
      simp only [reduceCtorEq, false_iff]
      intro h
      have := this.mpr h
      omega
    · exact h.main x
  · intro x i
    simp only [setOwner]
    by_cases e : i = k
    · subst e
      simp only [List.getElem?_set_self hlt, Option.some.injEq, exists_eq_left', h2, reduceCtorEq, iff_false]
      split
      · simp
      · rename_i e
        have := h.work x i
        simp only [hk, Option.some.injEq, exists_eq_left', h1] at this
        rw [this]
        exact fun h => e h.symm
    · rw [List.getElem?_set_ne (fun h => e h.symm)]
      split
      · rename_i e'
        subst e'
        have := h.work x i
        rw [hown] at this
        simp only [Option.some.injEq] at this
        simp only [reduceCtorEq, false_iff]
        intro h
        have := this.mpr h
        omega
      · exact h.work x i

theorem Own.step {j : Job} {s s' : State} (h : Own s) (hs : Any j s s') : Own s' := by
  cases hs with
  | main hm =>
    cases hm with
    | acq m p h0 hc =>
      rcases hc with ⟨e, rfl, rfl⟩ | ⟨e, rfl, rfl⟩ | ⟨e, rfl, rfl⟩ | ⟨e, rfl, rfl⟩ | ⟨e, rfl, rfl⟩ <;> exact h.acqMain h0 (by rw [e]; rfl) rfl
    | rel m p hc =>
      rcases hc with ⟨e, rfl, rfl⟩ | ⟨e, rfl, rfl⟩ | ⟨e, rfl, rfl, _⟩ | ⟨e, rfl, rfl⟩ | ⟨e, rfl, rfl, _⟩ | ⟨e, rfl, rfl⟩ | ⟨⟨e', e, rfl⟩, rfl⟩ <;>
        exact h.relMain (by rw [e]; rfl) (by first | rfl | exact wrapPc_holds _)
    | addWake wake hp hw => exact h.stayWork hw rfl rfl rfl (by rw [hp]; rfl)
    | readPending d ds t suf hp => exact h.stay rfl rfl (by rw [hp]; exact wrapPc_holds _)
    | drain hp | read _ _ hp | ready hp | readOk _ _ hp | readFail _ _ hp | inc hp | incNotify hp | add _ _ hp | addNone hp | evTest hp | evReset hp | ctTest hp | epTake hp
    | dropCounter _ hp | rethrow _ hp | ret hp => exact h.stay rfl rfl (by rw [hp]; rfl)
  | work k p p' hk hw =>
    cases hw with
    | acq m p p' h0 hc =>
      rcases hc with ⟨rfl, rfl, rfl⟩ | ⟨t, ⟨rfl, rfl, rfl⟩ | ⟨rfl, rfl, rfl⟩ | ⟨rfl, rfl, rfl⟩⟩ <;> exact h.acqWork hk h0 rfl rfl
    | rel m p p' hc =>
      rcases hc with ⟨t, ⟨rfl, rfl, rfl⟩ | ⟨rfl, rfl, rfl⟩ | ⟨rfl, rfl, rfl⟩ | ⟨rfl, rfl, rfl⟩⟩ <;> exact h.relWork hk rfl rfl
    | sleep => exact h.relWork hk rfl rfl
    | evWake t hp => exact h.stayWork hk rfl rfl rfl (by rw [hp]; rfl)
    | ctWake t hp => exact h.stayWork hk rfl rfl rfl (by rw [hp]; rfl)
    | pop | success | failure | threw | epStore | evSet | evNone | ctDec | ctNone | wake => exact h.stayWork hk rfl rfl rfl rfl
  | event hp => exact h.stay rfl rfl (by rw [hp]; rfl)
  | counter hp => exact h.stay rfl rfl (by rw [hp]; rfl)

end Maike.TaskList.Threads
