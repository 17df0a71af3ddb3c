/-!
# Waiting for a condition variable

`Event` (core/sched/event.hpp), `SignalingCounter` (core/sched/signaling_counter.hpp) and
`AsyncTaskResult` (core/sched/thread_pool.hpp:26-76) have the same shape: some data protected by a mutex,
operations that modify the data with the mutex held and then call `notify_one`, and operations that
wait for a predicate on the data (`m_cv.wait(lock, pred)`) and then do something
before the mutex is released.

`Obj` describes the data, and `step` how threads use it. Since everything happens with the mutex
held, the granularity is: one modification with its notification; one evaluation of the predicate, either
followed by the rest of the critical section, or by going to sleep
(`condition_variable::wait` releases the mutex and blocks atomically).
Sleeping threads may wake up spuriously.
-/

namespace Maike.Sched

/-- A class with a mutex and a condition variable. `Op` is the type of modifying operations. -/
structure Obj (σ : Type) (Op : Type) where
  /-- a modification; it is followed by `notify_one` -/
  op : Op → σ → σ
  /-- what thread `i` waits for -/
  pred : Nat → σ → Bool
  /-- what thread `i` does when it has got what it was waiting for, with the mutex still held -/
  pass : Nat → σ → σ

/-- Where a waiting thread is. -/
inductive WaitPc where
  /-- about to lock the mutex and evaluate the predicate (for the first time, or after waking up) -/
  | testing
  /-- blocked on the condition variable -/
  | asleep
  /-- has got what it was waiting for -/
  | done
deriving DecidableEq, Repr

/-- The data together with the state of all threads that wait. -/
structure Mon (σ : Type) where
  val : σ
  pcs : List WaitPc

inductive MonAct (Op : Type) where
  /-- somebody executes an operation; `notify_one` wakes thread `wake` if there is a sleeping thread -/
  | op (o : Op) (wake : Nat)
  /-- a waiting thread proceeds -/
  | run (i : Nat)
  /-- a sleeping thread wakes up without having been notified -/
  | spurious (i : Nat)
  /-- a thread that is done waits again -/
  | again (i : Nat)
deriving Repr

/-- One step; `none` if it is not possible, or if the chosen thread cannot be the one which
`notify_one` wakes up. -/
def Mon.step {σ Op : Type} (o : Obj σ Op) (a : MonAct Op) (m : Mon σ) : Option (Mon σ) :=
  match a with
  | .op f wake =>
    if .asleep ∈ m.pcs then
      if m.pcs[wake]? = some .asleep then some ⟨o.op f m.val, m.pcs.set wake .testing⟩ else none
    else some ⟨o.op f m.val, m.pcs⟩
  | .run i =>
    if m.pcs[i]? = some .testing then
      if o.pred i m.val then some ⟨o.pass i m.val, m.pcs.set i .done⟩
      else some ⟨m.val, m.pcs.set i .asleep⟩
    else none
  | .spurious i => if m.pcs[i]? = some .asleep then some ⟨m.val, m.pcs.set i .testing⟩ else none
  | .again i => if m.pcs[i]? = some .done then some ⟨m.val, m.pcs.set i .testing⟩ else none

/-- Perform a schedule. -/
def Mon.exec {σ Op : Type} (o : Obj σ Op) : List (MonAct Op) → Mon σ → Option (Mon σ)
  | [], m => some m
  | a :: as, m =>
    match m.step o a with
    | some m' => exec o as m'
    | none => none

variable {σ Op : Type}

/-- With one waiting thread no wake-up is lost: whatever the operations and their order are, the thread is
never asleep while its predicate holds. -/
theorem no_lost_wakeup {o : Obj σ Op} {v : σ} {as : List (MonAct Op)} {m : Mon σ}
    (h : Mon.exec o as ⟨v, [.testing]⟩ = some m) (hp : o.pred 0 m.val = true) : m.pcs ≠ [.asleep] := by
  suffices H : ∀ (as : List (MonAct Op)) (m₀ m : Mon σ), m₀.pcs.length = 1 →
      (m₀.pcs = [.asleep] → o.pred 0 m₀.val = false) → Mon.exec o as m₀ = some m →
      m.pcs = [.asleep] → o.pred 0 m.val = false by
    intro hc
    have := H as _ _ rfl (by simp) h hc
    rw [hp] at this; cases this
  clear h hp
  intro as
  induction as with
  | nil => intro m₀ m _ hi h; simp [Mon.exec] at h; subst h; exact hi
  | cons a as ih =>
    intro m₀ m hl hi h
    simp only [Mon.exec] at h
    cases hs : m₀.step o a with
    | none => simp [hs] at h
    | some m₁ =>
      simp only [hs] at h
      refine ih m₁ m ?_ ?_ h
      · unfold Mon.step at hs
        split at hs <;> (repeat' split at hs) <;> first | cases hs; done | (cases hs; simp [hl])
      · obtain ⟨val, pcs⟩ := m₀
        obtain ⟨pc, rfl⟩ := List.length_eq_one_iff.mp hl
        intro hpc
        unfold Mon.step at hs
        split at hs
        · rename_i f wake
          split at hs
          · split at hs
            · rename_i hw
              cases hs
              rcases wake with _ | wake
              · simp at hpc
              · simp at hw
            · cases hs
          · rename_i hn
            cases hs
            simp only [List.cons.injEq, and_true] at hpc
            subst hpc
            simp at hn
        · rename_i i
          split at hs
          · rename_i hi'
            rcases i with _ | i
            · split at hs
              · cases hs; simp at hpc
              · rename_i hnp; cases hs; simpa using hnp
            · simp at hi'
          · cases hs
        · rename_i i
          split at hs
          · rename_i hi'
            rcases i with _ | i
            · cases hs; simp at hpc
            · simp at hi'
          · cases hs
        · rename_i i
          split at hs
          · rename_i hi'
            rcases i with _ | i
            · cases hs; simp at hpc
            · simp at hi'
          · cases hs

theorem exec_pcs_length {o : Obj σ Op} {as : List (MonAct Op)} : ∀ {m₀ m : Mon σ},
    Mon.exec o as m₀ = some m → m.pcs.length = m₀.pcs.length := by
  induction as with
  | nil => intro m₀ m h; simp [Mon.exec] at h; subst h; rfl
  | cons a as ih =>
    intro m₀ m h
    simp only [Mon.exec] at h
    cases hs : m₀.step o a with
    | none => simp [hs] at h
    | some m₁ =>
      simp only [hs] at h
      rw [ih h]
      unfold Mon.step at hs
      split at hs <;> (repeat' split at hs) <;> first | cases hs; done | (cases hs; simp)

/-- Hence a thread which waits can go on exactly when its predicate holds. This justifies that the other
models have a single action for `wait`, which is enabled when the predicate holds. -/
theorem wait_enabled_iff {o : Obj σ Op} {v : σ} {as : List (MonAct Op)} {m : Mon σ}
    (h : Mon.exec o as ⟨v, [.testing]⟩ = some m) (hw : m.pcs ≠ [.done]) :
    m.step o (.run 0) = some ⟨o.pass 0 m.val, [.done]⟩ ↔ o.pred 0 m.val = true := by
  have hl := exec_pcs_length h
  have hn := no_lost_wakeup h
  obtain ⟨val, pcs⟩ := m
  obtain ⟨pc, rfl⟩ := List.length_eq_one_iff.mp hl
  constructor
  · intro hs
    unfold Mon.step at hs
    simp only at hs
    split at hs
    · split at hs
      · assumption
      · simp at hs
    · cases hs
  · intro hp
    have : pc = .testing := by
      cases pc with
      | testing => rfl
      | asleep => exact absurd rfl (hn hp)
      | done => exact absurd rfl hw
    subst this
    simp only at hp
    simp [Mon.step, hp]

/-- The other direction, for any number of threads: a wait ends only when the predicate holds, and what follows has been done. -/
theorem wait_done {o : Obj σ Op} {a : MonAct Op} {m m' : Mon σ} (hs : m.step o a = some m') {i : Nat} (hi : m'.pcs[i]? = some .done)
    (hn : m.pcs[i]? ≠ some .done) : o.pred i m.val = true ∧ m'.val = o.pass i m.val := by
  have hset : ∀ {j : Nat} {c : WaitPc}, c ≠ .done → (m.pcs.set j c)[i]? ≠ some .done := by
    intro j c hc hk
    rw [List.getElem?_set] at hk
    split at hk
    · split at hk
      · exact hc (Option.some.inj hk)
      · cases hk
    · exact hn hk
  cases a with
  | op f wake =>
    simp only [Mon.step] at hs
    split at hs
    · split at hs
      · cases hs; exact absurd hi (hset (by simp))
      · cases hs
    · cases hs; exact absurd hi hn
  | run j =>
    simp only [Mon.step] at hs
    split at hs
    · split at hs
      · rename_i hp
        cases hs
        by_cases e : i = j
        · subst e; exact ⟨hp, rfl⟩
        · have hi : (m.pcs.set j .done)[i]? = some .done := hi
          rw [List.getElem?_set_ne (Ne.symm e)] at hi
          exact absurd hi hn
      · cases hs; exact absurd hi (hset (by simp))
    · cases hs
  | spurious j =>
    simp only [Mon.step] at hs
    split at hs
    · cases hs; exact absurd hi (hset (by simp))
    · cases hs
  | again j =>
    simp only [Mon.step] at hs
    split at hs
    · cases hs; exact absurd hi (hset (by simp))
    · cases hs

/-! ## The classes -/

/-- `Event`, core/sched/event.hpp:8-33: `waitAndReset` lines 15-20, `set` lines 22-27. -/
def event : Obj Bool Unit where
  op _ _ := true
  pred _ s := s
  pass _ _ := false

/-- `Event::waitAndReset` blocks until `set` has been called since the last return of
`waitAndReset`; a call of `set` is not lost if it happens before the wait, or while the
waiting thread is about to fall asleep. `m.val` is whether this is the case: it becomes true with `set`, and
false when the wait returns. -/
theorem event_wait {as : List (MonAct Unit)} {m : Mon Bool}
    (h : Mon.exec event as ⟨false, [.testing]⟩ = some m) (hw : m.pcs ≠ [.done]) :
    m.step event (.run 0) = some ⟨false, [.done]⟩ ↔ m.val = true :=
  wait_enabled_iff h hw

/-- `SignalingCounter`, core/sched/signaling_counter.hpp:12-69: `wait` lines 22-26, `++` lines 28-34, `--` lines
36-42. The counter is an unbounded integer. `waitFor i` is the value that thread `i` waits for. -/
def counter (waitFor : Nat → Int) : Obj Int Bool where
  op up v := if up then v + 1 else v - 1
  pred i v := v == waitFor i
  pass _ v := v

/-- A single thread which waits for a value of a `SignalingCounter` can go on exactly when the counter has
that value. -/
theorem counter_wait {w : Int} {v : Int} {as : List (MonAct Bool)} {m : Mon Int}
    (h : Mon.exec (counter fun _ => w) as ⟨v, [.testing]⟩ = some m) (hw : m.pcs ≠ [.done]) :
    m.step (counter fun _ => w) (.run 0) = some ⟨m.val, [.done]⟩ ↔ m.val = w := by
  rw [show (some (⟨m.val, [.done]⟩ : Mon Int)) = some ⟨(counter fun _ => w).pass 0 m.val, [.done]⟩ from rfl,
    wait_enabled_iff h hw]
  simp [counter]

/-- With two threads that wait for different values this is false: `notify_one` may wake the wrong one. -/
theorem counter_two_waiters :
    ∃ (as : List (MonAct Bool)) (m : Mon Int),
      Mon.exec (counter fun i => i + 1) as ⟨0, [.testing, .testing]⟩ = some m ∧
      m.val = 1 ∧ m.pcs = [.asleep, .asleep] :=
  ⟨[.run 0, .run 1, .op true 1, .run 1], _, rfl, rfl, rfl⟩

/-! ## Asynchronous results -/

/-- The members of `AsyncTaskResult`, core/sched/thread_pool.hpp:67-68, and what the calls of `get`
returned or threw so far (thread, outcome). -/
structure Async (T E : Type) where
  result : Option T := none
  except : Option E := none
  got : List (Nat × Except E T) := []

/-- The two overloads of `set`. -/
inductive SetOp (T E : Type) where
  | value (t : T)
  | exception (e : E)

/-- `AsyncTaskResult::ready`, core/sched/thread_pool.hpp:72-75. -/
def Async.ready {T E : Type} (a : Async T E) : Bool := a.result.isSome || a.except.isSome

/-- `AsyncTaskResult`: `get` lines 30-36 (`take`, lines 38-44, leaves a moved-from value behind, the
optional is still engaged), `set` lines 46-58. The destructor (lines 60-64) waits like `get`. -/
def asyncResult (T E : Type) : Obj (Async T E) (SetOp T E) where
  op o a := match o with
    | .value t => { a with result := some t }
    | .exception e => { a with except := some e }
  pred _ a := a.ready
  pass i a :=
    match a.except, a.result with
    | some e, _ => { a with got := a.got ++ [(i, .error e)] }
    | none, some t => { a with got := a.got ++ [(i, .ok t)] }
    | none, none => a

/-- What a `set` call is supposed to hand over. -/
def SetOp.outcome {T E : Type} : SetOp T E → Except E T
  | .value t => .ok t
  | .exception e => .error e

/-- The calls of `set` in a schedule. -/
def setsOf {T E : Type} (as : List (MonAct (SetOp T E))) : List (SetOp T E) :=
  as.filterMap fun | .op o _ => some o | _ => none

/-- State of a result on which `sets` have been called, at most once. -/
theorem async_state {T E : Type} {n : Nat} {as : List (MonAct (SetOp T E))} {m : Mon (Async T E)} :
    Mon.exec (asyncResult T E) as ⟨{}, List.replicate n .testing⟩ = some m → (setsOf as).length ≤ 1 →
    (setsOf as = [] → m.val.result = none ∧ m.val.except = none ∧ m.val.got = []) ∧
    ∀ o, setsOf as = [o] →
      (match o with
        | .value t => m.val.result = some t ∧ m.val.except = none
        | .exception e => m.val.result = none ∧ m.val.except = some e) ∧
      ∀ x ∈ m.val.got, x.2 = o.outcome := by
  suffices H : ∀ (as : List (MonAct (SetOp T E))) (pre : List (SetOp T E)) (m₀ m : Mon (Async T E)),
      (pre = [] → m₀.val.result = none ∧ m₀.val.except = none ∧ m₀.val.got = []) ∧
      (∀ o, pre = [o] →
        (match o with
          | .value t => m₀.val.result = some t ∧ m₀.val.except = none
          | .exception e => m₀.val.result = none ∧ m₀.val.except = some e) ∧
        ∀ x ∈ m₀.val.got, x.2 = o.outcome) →
      Mon.exec (asyncResult T E) as m₀ = some m → (pre ++ setsOf as).length ≤ 1 →
      (pre ++ setsOf as = [] → m.val.result = none ∧ m.val.except = none ∧ m.val.got = []) ∧
      ∀ o, pre ++ setsOf as = [o] →
        (match o with
          | .value t => m.val.result = some t ∧ m.val.except = none
          | .exception e => m.val.result = none ∧ m.val.except = some e) ∧
        ∀ x ∈ m.val.got, x.2 = o.outcome by
    intro h hl
    exact H as [] _ m ⟨fun _ => ⟨rfl, rfl, rfl⟩, by simp⟩ h hl
  intro as
  induction as with
  | nil => intro pre m₀ m hi h _; simp [Mon.exec] at h; subst h; simpa [setsOf] using hi
  | cons a as ih =>
    intro pre m₀ m hi h hl
    simp only [Mon.exec] at h
    cases hs : m₀.step (asyncResult T E) a with
    | none => simp [hs] at h
    | some m₁ =>
      simp only [hs] at h
      cases a with
      | op o wake =>
        have he : pre ++ setsOf (.op o wake :: as) = (pre ++ [o]) ++ setsOf as := by simp [setsOf]
        rw [he] at hl ⊢
        have hpre : pre = [] := by
          rcases pre with _ | ⟨x, pre⟩
          · rfl
          · simp at hl
        subst hpre
        obtain ⟨h1, h2, h3⟩ := hi.1 rfl
        refine ih _ m₁ m ⟨by simp, ?_⟩ h hl
        intro o' ho'
        simp only [List.nil_append, List.cons.injEq, and_true] at ho'
        subst ho'
        have hv : m₁.val = (asyncResult T E).op o m₀.val := by
          unfold Mon.step at hs
          simp only at hs
          (repeat' split at hs) <;> first | cases hs; done | (cases hs; rfl)
        rw [hv]
        cases o <;> simp [asyncResult, h1, h2, h3]
      | run i =>
        have he : pre ++ setsOf (.run i :: as) = pre ++ setsOf as := by simp [setsOf]
        rw [he] at hl ⊢
        refine ih pre m₁ m ?_ h hl
        unfold Mon.step at hs
        simp only at hs
        split at hs
        · split at hs
          · rename_i hp
            cases hs
            constructor
            · intro h0
              obtain ⟨h1, h2, h3⟩ := hi.1 h0
              simp [asyncResult, Async.ready, h1, h2] at hp
            · intro o ho
              obtain ⟨h1, h2⟩ := hi.2 o ho
              cases o with
              | value t =>
                simp only at h1
                simp only [asyncResult, h1.1, h1.2]
                refine ⟨⟨by simp, by simp⟩, fun x hx => ?_⟩
                rcases List.mem_append.mp hx with hx | hx
                · exact h2 x hx
                · simp at hx; subst hx; rfl
              | exception e =>
                simp only at h1
                simp only [asyncResult, h1.1, h1.2]
                refine ⟨⟨by simp, by simp⟩, fun x hx => ?_⟩
                rcases List.mem_append.mp hx with hx | hx
                · exact h2 x hx
                · simp at hx; subst hx; rfl
          · cases hs; exact hi
        · cases hs
      | spurious i =>
        have he : pre ++ setsOf (.spurious i :: as) = pre ++ setsOf as := by simp [setsOf]
        rw [he] at hl ⊢
        refine ih pre m₁ m ?_ h hl
        unfold Mon.step at hs
        simp only at hs
        split at hs
        · cases hs; exact hi
        · cases hs
      | again i =>
        have he : pre ++ setsOf (.again i :: as) = pre ++ setsOf as := by simp [setsOf]
        rw [he] at hl ⊢
        refine ih pre m₁ m ?_ h hl
        unfold Mon.step at hs
        simp only at hs
        split at hs
        · cases hs; exact hi
        · cases hs

/-- **C58** (values). `ThreadPool::addTask` calls `set` once, with the value that the function returned or with the
exception it threw (core/sched/thread_pool.hpp:94-101). Each call of `get`, by any number of threads and in any
order, returns that value or throws that exception, and none returns before `set` has been called. -/
theorem C58_get_outcome {T E : Type} {n : Nat} {as : List (MonAct (SetOp T E))} {m : Mon (Async T E)}
    (h : Mon.exec (asyncResult T E) as ⟨{}, List.replicate n .testing⟩ = some m)
    (hset : (setsOf as).length ≤ 1) :
    ∀ x ∈ m.val.got, ∃ o, setsOf as = [o] ∧ x.2 = o.outcome := by
  obtain ⟨h1, h2⟩ := async_state h hset
  intro x hx
  match hs : setsOf as, hset with
  | [], _ => rw [(h1 hs).2.2] at hx; cases hx
  | [o], _ => exact ⟨o, rfl, (h2 o hs).2 x hx⟩
  | _ :: _ :: _, hset => simp at hset

/-- A thread that is done has been given something. -/
theorem async_done {T E : Type} {as : List (MonAct (SetOp T E))} {m₀ m : Mon (Async T E)} (h : Mon.exec (asyncResult T E) as m₀ = some m)
    (h0 : ∀ i, m₀.pcs[i]? = some .done → ∃ x, (i, x) ∈ m₀.val.got) (i : Nat) (hi : m.pcs[i]? = some .done) : ∃ x, (i, x) ∈ m.val.got := by
  induction as generalizing m₀ with
  | nil => simp [Mon.exec] at h; subst h; exact h0 i hi
  | cons a as ih =>
    simp only [Mon.exec] at h
    cases hs : m₀.step (asyncResult T E) a with
    | none => simp [hs] at h
    | some m₁ =>
      simp only [hs] at h
      refine ih h fun k hk => ?_
      have hset : ∀ {j : Nat} {c : WaitPc}, c ≠ .done → (m₀.pcs.set j c)[k]? = some .done → m₀.pcs[k]? = some .done := by
        intro j c hc hk
        rw [List.getElem?_set] at hk
        split at hk
        · split at hk
          · exact absurd (Option.some.inj hk) hc
          · cases hk
        · exact hk
      cases a with
      | op o wake =>
        have hgot : ∀ v : Async T E, ((asyncResult T E).op o v).got = v.got := fun v => by cases o <;> rfl
        simp only [Mon.step] at hs
        split at hs
        · split at hs
          · cases hs
            rw [hgot]; exact h0 k (hset (by simp) hk)
          · cases hs
        · cases hs
          rw [hgot]; exact h0 k hk
      | run j =>
        simp only [Mon.step] at hs
        split at hs
        · split at hs
          · rename_i hp
            cases hs
            have hgot : ∃ x, ((asyncResult T E).pass j m₀.val).got = m₀.val.got ++ [(j, x)] := by
              simp only [asyncResult, Async.ready, Bool.or_eq_true] at hp ⊢
              cases he : m₀.val.except with
              | some e => exact ⟨_, rfl⟩
              | none =>
                cases hr : m₀.val.result with
                | some t => exact ⟨_, rfl⟩
                | none => rw [he, hr] at hp; simp at hp
            obtain ⟨x, hx⟩ := hgot
            rw [hx]
            by_cases hkj : k = j
            · subst hkj; exact ⟨x, by simp⟩
            · have hk : (m₀.pcs.set j .done)[k]? = some .done := hk
              rw [List.getElem?_set_ne (Ne.symm hkj)] at hk
              obtain ⟨y, hy⟩ := h0 k hk
              exact ⟨y, List.mem_append_left _ hy⟩
          · cases hs; exact h0 k (hset (by simp) hk)
        · cases hs
      | spurious j =>
        simp only [Mon.step] at hs
        split at hs
        · cases hs; exact h0 k (hset (by simp) hk)
        · cases hs
      | again j =>
        simp only [Mon.step] at hs
        split at hs
        · cases hs; exact h0 k (hset (by simp) hk)
        · cases hs

/-- **C58** (values). If `get` has returned in thread `i`, or thrown an exception, then `set` has been called, and it is what `set` was called with. -/
theorem C58_get_done {T E : Type} {n : Nat} {as : List (MonAct (SetOp T E))} {m : Mon (Async T E)}
    (h : Mon.exec (asyncResult T E) as ⟨{}, List.replicate n .testing⟩ = some m) (hset : (setsOf as).length ≤ 1) {i : Nat} (hi : m.pcs[i]? = some .done) :
    ∃ o, setsOf as = [o] ∧ (i, o.outcome) ∈ m.val.got := by
  obtain ⟨x, hx⟩ := async_done h (fun k hk => by
    simp only [List.getElem?_replicate] at hk
    split at hk <;> cases hk) i hi
  obtain ⟨o, ho, e⟩ := C58_get_outcome h hset _ hx
  have e : x = o.outcome := e
  exact ⟨o, ho, e ▸ hx⟩

/-- **C58** (blocking). A thread that waits for the result can go on exactly if `set` has been called, also if
this happened before the thread began to wait. -/
theorem C58_get_returns {T E : Type} {as : List (MonAct (SetOp T E))} {m : Mon (Async T E)}
    (h : Mon.exec (asyncResult T E) as ⟨{}, [.testing]⟩ = some m) (hset : (setsOf as).length ≤ 1)
    (hw : m.pcs ≠ [.done]) :
    (∃ m', m.step (asyncResult T E) (.run 0) = some m' ∧ m'.pcs = [.done]) ↔ setsOf as ≠ [] := by
  have hr : m.val.ready = true ↔ setsOf as ≠ [] := by
    obtain ⟨h1, h2⟩ := async_state (n := 1) h hset
    match hs : setsOf as, hset with
    | [], _ => simp [Async.ready, (h1 hs).1, (h1 hs).2.1]
    | [.value t], _ => have := (h2 _ hs).1; simp only at this; simp [Async.ready, this]
    | [.exception t], _ => have := (h2 _ hs).1; simp only at this; simp [Async.ready, this]
    | _ :: _ :: _, hset => simp at hset
  rw [← hr]
  have := wait_enabled_iff h hw
  constructor
  · rintro ⟨m', hs, hd⟩
    apply this.mp
    rw [hs]
    have hl := exec_pcs_length h
    obtain ⟨val, pcs⟩ := m
    obtain ⟨pc, rfl⟩ := List.length_eq_one_iff.mp hl
    unfold Mon.step at hs
    simp only at hs
    split at hs
    · split at hs
      · cases hs; rfl
      · cases hs; simp at hd
    · cases hs
  · intro hr
    exact ⟨_, this.mpr hr, rfl⟩

/-- The class only supports a single waiting thread: with two of them one may be blocked forever after `set`, since
`set` notifies only one of them. (The destructor waits too.) -/
theorem C58_two_waiters {T E : Type} (t : T) :
    ∃ (as : List (MonAct (SetOp T E))) (m : Mon (Async T E)),
      Mon.exec (asyncResult T E) as ⟨{}, [.testing, .testing]⟩ = some m ∧
      m.val.result = some t ∧ m.pcs = [.done, .asleep] :=
  ⟨[.run 0, .run 1, .op (.value t) 0, .run 0], _, rfl, rfl, rfl⟩

section Examples

/-- A thread sleeps, a value is set, the thread gets it. -/
example : ∃ m, Mon.exec (asyncResult Nat String) [.run 0, .op (.value 5) 0, .run 0] ⟨{}, [.testing]⟩ = some m ∧
    m.val.got = [(0, .ok 5)] := ⟨_, rfl, rfl⟩

/-- An exception is set first. -/
example : ∃ m, Mon.exec (asyncResult Nat String) [.op (.exception "bad") 0, .run 0] ⟨{}, [.testing]⟩ = some m ∧
    m.val.got = [(0, .error "bad")] := ⟨_, rfl, rfl⟩

example : ∃ m, Mon.exec event [.run 0, .op () 0, .op () 7] ⟨false, [.testing]⟩ = some m ∧
    m.pcs ≠ [.done] ∧ m.val = true := ⟨_, rfl, by decide, rfl⟩

example : ∃ m, Mon.exec (counter fun _ => 0) [.run 0, .op false 0, .run 0, .op false 0] ⟨2, [.testing]⟩ = some m ∧
    m.pcs ≠ [.done] ∧ m.val = 0 := ⟨_, rfl, by decide, rfl⟩

end Examples

end Maike.Sched
