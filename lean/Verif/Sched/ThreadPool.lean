/-!
# Model of `ThreadPool` (core/sched/thread_pool.cpp, core/sched/thread_pool.hpp:78-163)

All threads and the data they share are one transition system; `step` is `none` when the thread is blocked. What
happens between locking and unlocking `m_mtx` (or `m_eptr_mtx`) is one action. The condition variable is modelled
with its set of sleeping threads: `notify_one` wakes one of them, chosen by the schedule, and
`notify_all` wakes all of them. Threads may also wake up spuriously.

Tasks are identified by values of an arbitrary type. They may be added by the owner of the pool or by
running tasks. A task either returns or throws. The owner does not add tasks after it
has entered the destructor.
-/

namespace Maike.Sched.Pool

/-- Where a worker thread is in `performTasks`, core/sched/thread_pool.cpp:40-58. -/
inductive Pc (τ : Type) where
  /-- about to lock the mutex and evaluate the predicate (lines 44-45), for the first time or after
  having been woken up -/
  | testing
  /-- blocked on the condition variable, line 45 -/
  | asleep
  /-- in `task()`, line 51 -/
  | running (t : τ)
  /-- in the handler of the wrapper made by `addTask`, core/sched/thread_pool.hpp:121-125 -/
  | storing (t : τ)
  /-- returned, line 55 -/
  | exited
deriving DecidableEq, Repr

/-- Externally visible events. -/
inductive Ev (τ : Type) where
  | added (t : τ)
  | started (t : τ)
  | ended (t : τ) (threw : Bool)
  /-- an exception has been handed over to the pool -/
  | raised (t : τ)
  /-- `takeLastException` has returned this (the exception thrown by this task, or null) -/
  | took (r : Option τ)
deriving DecidableEq, Repr

structure State (τ : Type) where
  queue : List τ
  terminate : Bool
  pcs : List (Pc τ)
  eptr : Option τ
  /-- the destructor has returned -/
  joined : Bool
  hist : List (Ev τ)

/-- The constructor, core/sched/thread_pool.cpp:8-24, with `n` threads. -/
def init (τ : Type) (n : Nat) : State τ where
  queue := []
  terminate := false
  pcs := List.replicate n .testing
  eptr := none
  joined := false
  hist := []

inductive Act (τ : Type) where
  /-- `addTask`, core/sched/thread_pool.hpp:89-133, called by the owner (`none`) or by the task that is being executed
  by a worker; `wake` is the thread which `notify_one` wakes up if any is asleep -/
  | add (caller : Option Nat) (t : τ) (wake : Nat)
  /-- a worker proceeds; if it is executing a task, the task ends, and `threw` tells how -/
  | work (k : Nat) (threw : Bool)
  | spurious (k : Nat)
  /-- the destructor is entered, core/sched/thread_pool.cpp:28-32 -/
  | destroy
  /-- the destructor returns, core/sched/thread_pool.cpp:34-37 -/
  | join
  /-- `takeLastException`, core/sched/thread_pool.hpp:135-141 -/
  | take
deriving DecidableEq, Repr

/-- Who may call `addTask`: the owner until it destroys the pool, and tasks while they are executed. -/
def mayAdd {τ : Type} (s : State τ) : Option Nat → Bool
  | none => !s.terminate
  | some k => match s.pcs[k]? with
    | some (.running _) => true
    | _ => false

/-- `m_cv.notify_one()` with the given choice of the thread. -/
def notifyOne {τ : Type} [DecidableEq τ] (pcs : List (Pc τ)) (wake : Nat) : Option (List (Pc τ)) :=
  if .asleep ∈ pcs then
    if pcs[wake]? = some .asleep then some (pcs.set wake .testing) else none
  else some pcs

/-- `m_cv.notify_all()`. -/
def notifyAll {τ : Type} (pcs : List (Pc τ)) : List (Pc τ) :=
  pcs.map fun
    | .asleep => .testing
    | p => p

/-- One iteration of `performTasks`, core/sched/thread_pool.cpp:42-57, up to the point where the mutex is released, or
one step of the task. -/
def stepWork {τ : Type} (k : Nat) (threw : Bool) (s : State τ) : Option (State τ) :=
  match s.pcs[k]? with
  | none => none
  | some .testing =>
    match s.queue with
    | t :: q => some { s with queue := q, pcs := s.pcs.set k (.running t), hist := s.hist ++ [.started t] }
    | [] =>
      if s.terminate then some { s with pcs := s.pcs.set k .exited }
      else some { s with pcs := s.pcs.set k .asleep }
  | some .asleep => none
  | some (.running t) =>
    some { s with
      pcs := s.pcs.set k (if threw then .storing t else .testing)
      hist := s.hist ++ [.ended t threw] }
  | some (.storing t) =>
    some { s with
      eptr := match s.eptr with
        | none => some t
        | some e => some e
      pcs := s.pcs.set k .testing
      hist := s.hist ++ [.raised t] }
  | some .exited => none

def step {τ : Type} [DecidableEq τ] (a : Act τ) (s : State τ) : Option (State τ) :=
  match a with
  | .add caller t wake =>
    if mayAdd s caller then
      match notifyOne s.pcs wake with
      | some pcs => some { s with queue := s.queue ++ [t], pcs := pcs, hist := s.hist ++ [.added t] }
      | none => none
    else none
  | .work k threw => stepWork k threw s
  | .spurious k => if s.pcs[k]? = some .asleep then some { s with pcs := s.pcs.set k .testing } else none
  | .destroy => if s.terminate then none else some { s with terminate := true, pcs := notifyAll s.pcs }
  | .join =>
    if s.terminate && !s.joined && s.pcs.all (· == .exited) then some { s with joined := true } else none
  | .take => some { s with eptr := none, hist := s.hist ++ [.took s.eptr] }

/-- Perform a schedule. -/
def exec {τ : Type} [DecidableEq τ] : List (Act τ) → State τ → Option (State τ)
  | [], s => some s
  | a :: as, s =>
    match step a s with
    | some s' => exec as s'
    | none => none

/-! ## Specification -/

/-- States that occur when a pool with `n` threads is used. -/
def Reachable {τ : Type} [DecidableEq τ] (n : Nat) (s : State τ) : Prop :=
  ∃ as, exec as (init τ n) = some s

/-- The tasks that were added, in this order. -/
def added {τ : Type} (h : List (Ev τ)) : List τ := h.filterMap fun | .added t => some t | _ => none

/-- The tasks whose execution began, in this order. -/
def started {τ : Type} (h : List (Ev τ)) : List τ := h.filterMap fun | .started t => some t | _ => none

/-- The tasks that returned or threw, in this order. -/
def ended {τ : Type} (h : List (Ev τ)) : List τ := h.filterMap fun | .ended t _ => some t | _ => none

/-- The tasks that threw, in this order. -/
def threw {τ : Type} (h : List (Ev τ)) : List τ := h.filterMap fun | .ended t true => some t | _ => none

/-- The tasks whose exceptions were handed over to the pool, in this order. -/
def raised {τ : Type} (h : List (Ev τ)) : List τ := h.filterMap fun | .raised t => some t | _ => none

/-- The first exception that was raised after the last call of `takeLastException`. -/
def firstSince {τ : Type} : List (Ev τ) → Option τ
  | [] => none
  | h =>
    let since := (h.reverse.takeWhile fun | .took _ => false | _ => true).reverse
    since.findSome? fun | .raised t => some t | _ => none

/-! ## Proofs -/

section Proofs

variable {τ : Type} [DecidableEq τ]

/-- What a worker is executing. -/
def Pc.task : Pc τ → Option τ
  | .running t => some t
  | _ => none

structure Inv (n : Nat) (s : State τ) : Prop where
  workers : s.pcs.length = n
  fifo : added s.hist = started s.hist ++ s.queue
  running : (started s.hist).Perm (ended s.hist ++ s.pcs.filterMap Pc.task)
  awake : s.terminate = true → .asleep ∉ s.pcs
  idle : .asleep ∈ s.pcs → s.queue.length ≤ s.pcs.count .testing
  exited : .exited ∈ s.pcs → s.terminate = true
  joined : s.joined = true → s.terminate = true ∧ ∀ p ∈ s.pcs, p = .exited
  drained : 0 < n → (∀ p ∈ s.pcs, p = .exited) → s.queue = []

omit [DecidableEq τ] in
theorem set_split {l : List (Pc τ)} {k : Nat} {x : Pc τ} (h : l[k]? = some x) :
    ∃ a b, l = a ++ x :: b ∧ ∀ y, l.set k y = a ++ y :: b := by
  induction l generalizing k with
  | nil => simp at h
  | cons c l ih =>
    cases k with
    | zero =>
      simp at h; subst h
      exact ⟨[], l, rfl, fun y => rfl⟩
    | succ k =>
      simp at h
      obtain ⟨a, b, rfl, h2⟩ := ih h
      exact ⟨c :: a, b, rfl, fun y => by simp [h2]⟩

omit [DecidableEq τ] in
@[simp] theorem added_append (h g : List (Ev τ)) : added (h ++ g) = added h ++ added g := by simp [added]
omit [DecidableEq τ] in
@[simp] theorem started_append (h g : List (Ev τ)) : started (h ++ g) = started h ++ started g := by simp [started]
omit [DecidableEq τ] in
@[simp] theorem ended_append (h g : List (Ev τ)) : ended (h ++ g) = ended h ++ ended g := by simp [ended]

omit [DecidableEq τ] in
@[simp] theorem added_added (t : τ) : added [.added t] = [t] := rfl
omit [DecidableEq τ] in
@[simp] theorem added_started (t : τ) : added [.started t] = [] := rfl
omit [DecidableEq τ] in
@[simp] theorem added_ended (t : τ) (b : Bool) : added [.ended t b] = [] := rfl
omit [DecidableEq τ] in
@[simp] theorem added_raised (t : τ) : added [.raised t] = [] := rfl
omit [DecidableEq τ] in
@[simp] theorem added_took (r : Option τ) : added [.took r] = [] := rfl
omit [DecidableEq τ] in
@[simp] theorem started_added (t : τ) : started [.added t] = [] := rfl
omit [DecidableEq τ] in
@[simp] theorem started_started (t : τ) : started [.started t] = [t] := rfl
omit [DecidableEq τ] in
@[simp] theorem started_ended (t : τ) (b : Bool) : started [.ended t b] = [] := rfl
omit [DecidableEq τ] in
@[simp] theorem started_raised (t : τ) : started [.raised t] = [] := rfl
omit [DecidableEq τ] in
@[simp] theorem started_took (r : Option τ) : started [.took r] = [] := rfl
omit [DecidableEq τ] in
@[simp] theorem ended_added (t : τ) : ended [.added t] = [] := rfl
omit [DecidableEq τ] in
@[simp] theorem ended_started (t : τ) : ended [.started t] = [] := rfl
omit [DecidableEq τ] in
@[simp] theorem ended_ended (t : τ) (b : Bool) : ended [.ended t b] = [t] := rfl
omit [DecidableEq τ] in
@[simp] theorem ended_raised (t : τ) : ended [.raised t] = [] := rfl
omit [DecidableEq τ] in
@[simp] theorem ended_took (r : Option τ) : ended [.took r] = [] := rfl
omit [DecidableEq τ] in
@[simp] theorem task_testing : (Pc.testing : Pc τ).task = none := rfl
omit [DecidableEq τ] in
@[simp] theorem task_asleep : (Pc.asleep : Pc τ).task = none := rfl
omit [DecidableEq τ] in
@[simp] theorem task_storing (t : τ) : (Pc.storing t : Pc τ).task = none := rfl
omit [DecidableEq τ] in
@[simp] theorem task_exited : (Pc.exited : Pc τ).task = none := rfl
omit [DecidableEq τ] in
@[simp] theorem task_running (t : τ) : (Pc.running t).task = some t := rfl

theorem inv_init (n : Nat) : Inv n (init τ n) where
  workers := by simp [init]
  fifo := rfl
  running := by
    have : (List.replicate n (Pc.testing : Pc τ)).filterMap Pc.task = [] := by
      rw [List.filterMap_eq_nil_iff]; intro p hp; rw [List.eq_of_mem_replicate hp]; rfl
    simp [init, started, ended, this]
  awake := by intro h; cases h
  idle := by intro h; exact absurd (List.eq_of_mem_replicate h) (by simp)
  exited := by intro h; exact absurd (List.eq_of_mem_replicate h) (by simp)
  joined := by intro h; cases h
  drained := fun _ _ => rfl

/-- Someone who may add tasks exists only as long as not all threads have exited. -/
theorem mayAdd_alive {n : Nat} {s : State τ} (hi : Inv n s) (hn : 0 < n) {caller : Option Nat}
    (hm : mayAdd s caller = true) : ¬ ∀ p ∈ s.pcs, p = .exited := by
  intro hall
  have hne : s.pcs ≠ [] := by
    intro h; have := hi.workers; rw [h] at this; simp at this; omega
  obtain ⟨p, hp⟩ := List.exists_mem_of_ne_nil _ hne
  have hp' := hp
  rw [hall p hp] at hp'
  cases caller with
  | none => simp [mayAdd, hi.exited hp'] at hm
  | some k =>
    simp only [mayAdd] at hm
    split at hm
    · rename_i t ht
      have := hall _ (List.mem_of_getElem? ht)
      cases this
    · cases hm

theorem inv_step {n : Nat} {s s' : State τ} {a : Act τ} (hi : Inv n s) (h : step a s = some s') : Inv n s' := by
  obtain ⟨hw, hf, hr, ha, hd, he, hj, hdr⟩ := hi
  cases a with
  | add caller t wake =>
    simp only [step] at h
    split at h
    · rename_i hm
      have hal := fun hn => mayAdd_alive ⟨hw, hf, hr, ha, hd, he, hj, hdr⟩ hn hm
      have hnj : s.joined = true → s.pcs = [] := by
        intro hjo
        rcases Nat.eq_zero_or_pos n with h0 | h0
        · exact List.eq_nil_of_length_eq_zero (by omega)
        · exact absurd (hj hjo).2 (hal h0)
      unfold notifyOne at h
      split at h
      · rename_i pcs hpcs
        cases h
        split at hpcs
        · split at hpcs
          · rename_i hmem hk
            cases hpcs
            obtain ⟨a, b, hab, hset⟩ := set_split hk
            rw [hset]
            have hnt := fun ht => ha ht hmem
            constructor
            · simp only; rw [hab] at hw; simpa using hw
            · simp [hf]
            · simp only [started_append, ended_append]
              rw [hab] at hr
              simpa [List.filterMap_cons] using hr
            · intro ht; exact absurd ht (by simpa using hnt)
            · intro _
              have := hd hmem
              rw [hab] at this
              simp at this ⊢
              omega
            · intro hx; apply he; rw [hab]; simpa using hx
            · intro hx
              have := hnj hx; rw [this] at hmem; cases hmem
            · intro hn hx
              have := hx .testing (by simp)
              cases this
          · cases hpcs
        · rename_i hmem
          cases hpcs
          exact ⟨hw, by simp [hf], by simpa using hr, ha,
            fun hx => absurd hx hmem, he, hj, fun hn hx => absurd hx (hal hn)⟩
      · cases h
    · cases h
  | work k threw =>
    simp only [step, stepWork] at h
    split at h
    · cases h
    · rename_i hk
      obtain ⟨a, b, hab, hset⟩ := set_split hk
      have hnj : s.joined = true → False := by
        intro hjo
        have := (hj hjo).2 .testing (by rw [hab]; simp)
        cases this
      split at h
      · rename_i t q hq
        cases h
        rw [hset]
        constructor
        · simp only; rw [hab] at hw; simpa using hw
        · simp only [added_append, started_append]; rw [hf, hq]; simp
        · simp only [started_append, ended_append]
          rw [hab] at hr
          simp only [started_started, ended_started, List.filterMap_append, List.filterMap_cons,
            List.append_nil, task_testing, task_running] at hr ⊢
          have h1 := hr.append_right [t]
          refine h1.trans ?_
          simp only [List.append_assoc]
          refine List.Perm.append_left _ (List.Perm.append_left _ ?_)
          exact List.perm_append_comm
        · intro ht hx; apply ha ht; rw [hab]; simpa using hx
        · intro hx
          have hx' : (.asleep : Pc τ) ∈ s.pcs := by rw [hab]; simpa using hx
          have := hd hx'
          rw [hab, hq] at this
          simp at this ⊢
          omega
        · intro hx; apply he; rw [hab]; simpa using hx
        · intro hx; exact (hnj hx).elim
        · intro hn hx
          have := hx (.running t) (by simp)
          cases this
      · rename_i hq
        split at h
        · rename_i ht
          cases h
          rw [hset]
          constructor
          · simp only; rw [hab] at hw; simpa using hw
          · exact hf
          · rw [hab] at hr; simpa [List.filterMap_cons] using hr
          · intro ht hx; apply ha ht; rw [hab]; simpa using hx
          · intro hx
            exact absurd (show (.asleep : Pc τ) ∈ s.pcs by rw [hab]; simpa using hx) (ha ht)
          · intro _; exact ht
          · intro hx; exact (hnj hx).elim
          · intro _ _; exact hq
        · rename_i ht
          cases h
          rw [hset]
          constructor
          · simp only; rw [hab] at hw; simpa using hw
          · exact hf
          · rw [hab] at hr; simpa [List.filterMap_cons] using hr
          · intro ht' hx; exact absurd ht' ht
          · intro hx; simp [hq]
          · intro hx; apply he; rw [hab]; simpa using hx
          · intro hx; exact (hnj hx).elim
          · intro _ _; exact hq
    · cases h
    · rename_i t hk
      obtain ⟨a, b, hab, hset⟩ := set_split hk
      have hnj : s.joined = true → False := by
        intro hjo
        have := (hj hjo).2 (.running t) (by rw [hab]; simp)
        cases this
      cases h
      rw [hset]
      have hy : ∃ y : Pc τ, (if threw = true then Pc.storing t else .testing) = y ∧ y.task = none ∧ y ≠ .asleep ∧
          y ≠ .exited := by
        cases threw
        · exact ⟨_, rfl, rfl, by simp, by simp⟩
        · exact ⟨_, rfl, rfl, by simp, by simp⟩
      obtain ⟨y, hy, hy1, hy2, hy3⟩ := hy
      rw [hy]
      constructor
      · simp only; rw [hab] at hw; simpa using hw
      · simp [hf]
      · simp only [started_append, ended_append]
        rw [hab] at hr
        simp only [started_ended, ended_ended, List.filterMap_append, List.filterMap_cons,
          List.append_nil, task_running, hy1] at hr ⊢
        refine hr.trans ?_
        rw [List.append_assoc]
        refine List.Perm.append_left _ ?_
        exact List.perm_middle
      · intro ht hx; apply ha ht; rw [hab]
        simp only [List.mem_append, List.mem_cons] at hx ⊢
        rcases hx with h | h | h
        · exact .inl h
        · exact absurd h.symm hy2
        · exact .inr (.inr h)
      · intro hx
        have hx' : (.asleep : Pc τ) ∈ s.pcs := by
          rw [hab]
          simp only [List.mem_append, List.mem_cons] at hx ⊢
          rcases hx with h | h | h
          · exact .inl h
          · exact absurd h.symm hy2
          · exact .inr (.inr h)
        have := hd hx'
        rw [hab] at this
        simp only [List.count_append, List.count_cons] at this ⊢
        have h0 : ((Pc.running t : Pc τ) == .testing) = false := by simp
        rw [h0] at this
        simp only [Bool.false_eq_true, ↓reduceIte] at this
        omega
      · intro hx; apply he; rw [hab]
        simp only [List.mem_append, List.mem_cons] at hx ⊢
        rcases hx with h | h | h
        · exact .inl h
        · exact absurd h.symm hy3
        · exact .inr (.inr h)
      · intro hx; exact (hnj hx).elim
      · intro hn hx
        exact absurd (hx y (by simp)) hy3
    · rename_i t hk
      obtain ⟨a, b, hab, hset⟩ := set_split hk
      have hnj : s.joined = true → False := by
        intro hjo
        have := (hj hjo).2 (.storing t) (by rw [hab]; simp)
        cases this
      cases h
      rw [hset]
      constructor
      · simp only; rw [hab] at hw; simpa using hw
      · simp [hf]
      · simp only [started_append, ended_append]
        rw [hab] at hr
        simpa [List.filterMap_cons] using hr
      · intro ht hx; apply ha ht; rw [hab]; simpa using hx
      · intro hx
        have hx' : (.asleep : Pc τ) ∈ s.pcs := by rw [hab]; simpa using hx
        have := hd hx'
        rw [hab] at this
        simp at this ⊢
        omega
      · intro hx; apply he; rw [hab]; simpa using hx
      · intro hx; exact (hnj hx).elim
      · intro hn hx
        have := hx .testing (by simp)
        cases this
    · cases h
  | spurious k =>
    simp only [step] at h
    split at h
    · rename_i hk
      obtain ⟨a, b, hab, hset⟩ := set_split hk
      have hmem : (.asleep : Pc τ) ∈ s.pcs := by rw [hab]; simp
      cases h
      rw [hset]
      constructor
      · simp only; rw [hab] at hw; simpa using hw
      · exact hf
      · rw [hab] at hr; simpa [List.filterMap_cons] using hr
      · intro ht; exact absurd hmem (ha ht)
      · intro hx
        have := hd hmem
        rw [hab] at this
        simp at this ⊢
        omega
      · intro hx; apply he; rw [hab]; simpa using hx
      · intro hx
        have := (hj hx).2 _ hmem
        cases this
      · intro hn hx
        have := hx .testing (by simp)
        cases this
    · cases h
  | destroy =>
    simp only [step] at h
    split at h
    · cases h
    · rename_i ht
      cases h
      have hna : (.asleep : Pc τ) ∉ notifyAll s.pcs := by
        intro hx
        simp only [notifyAll, List.mem_map] at hx
        obtain ⟨p, _, hp⟩ := hx
        cases p <;> simp at hp
      have hnx : (.exited : Pc τ) ∉ s.pcs := fun hx => absurd (he hx) ht
      constructor
      · simpa [notifyAll] using hw
      · exact hf
      · simp only
        have : (notifyAll s.pcs).filterMap Pc.task = s.pcs.filterMap Pc.task := by
          unfold notifyAll
          rw [List.filterMap_map]
          congr 1
          funext p
          cases p <;> rfl
        rw [this]; exact hr
      · intro _; exact hna
      · intro hx; exact absurd hx hna
      · intro _; rfl
      · intro hx
        exact absurd (hj hx).1 ht
      · intro hn hx
        simp only at hx
        have hne : s.pcs ≠ [] := by
          intro h; rw [h] at hw; simp at hw; omega
        obtain ⟨p, hp⟩ := List.exists_mem_of_ne_nil _ hne
        have h1 := hx _ (List.mem_map.mpr ⟨p, hp, rfl⟩)
        cases p <;> simp at h1
        exact absurd hp hnx
  | join =>
    simp only [step] at h
    split at h
    · rename_i hc
      cases h
      simp only [Bool.and_eq_true, List.all_eq_true, beq_iff_eq] at hc
      exact ⟨hw, hf, hr, ha, hd, he, fun _ => ⟨hc.1.1, hc.2⟩, hdr⟩
    · cases h
  | take =>
    simp only [step] at h
    cases h
    exact ⟨hw, by simpa using hf, by simpa using hr, ha, hd, he, hj, hdr⟩

theorem exec_inv {P : State τ → Prop} (hstep : ∀ s s' a, P s → step a s = some s' → P s') {as : List (Act τ)} :
    ∀ {s s' : State τ}, P s → exec as s = some s' → P s' := by
  induction as with
  | nil => intro s s' h0 h; simp [exec] at h; subst h; exact h0
  | cons a as ih =>
    intro s s' h0 h
    simp only [exec] at h
    cases hs : step a s with
    | none => simp [hs] at h
    | some s₁ =>
      simp only [hs] at h
      exact ih (hstep _ _ _ h0 hs) h

theorem Reachable.inv {n : Nat} {s : State τ} (h : Reachable n s) : Inv n s := by
  obtain ⟨as, h⟩ := h
  exact exec_inv (P := Inv n) (fun _ _ _ => inv_step) (inv_init n) h

/-! ## Theorems -/

/-- **C22** (order, at most once). The tasks that have been started are, in this order, the tasks that were
added, except for the last ones, which are still waiting in the queue. -/
theorem C22_fifo {n : Nat} {s : State τ} (h : Reachable n s) : added s.hist = started s.hist ++ s.queue :=
  h.inv.fifo

/-- **C22** (number of threads). At most `n` tasks have been started and have not ended. Every task that has ended was
started, and it ended once for each time it was started. -/
theorem C22_concurrency {n : Nat} {s : State τ} (h : Reachable n s) :
    ∃ busy : List τ, (started s.hist).Perm (ended s.hist ++ busy) ∧ busy.length ≤ n := by
  refine ⟨_, h.inv.running, ?_⟩
  rw [← h.inv.workers]
  exact List.length_filterMap_le _ _

/-- **C22** (completeness). When the destructor returns, every task that was added has been executed to its end, once
for each time it was added. -/
theorem C22_drained {n : Nat} (hn : 0 < n) {s : State τ} (h : Reachable n s) (hj : s.joined = true) :
    started s.hist = added s.hist ∧ (ended s.hist).Perm (added s.hist) := by
  have hi := h.inv
  have hall := (hi.joined hj).2
  have hq := hi.drained hn hall
  have hf := hi.fifo
  rw [hq, List.append_nil] at hf
  refine ⟨hf.symm, ?_⟩
  have hr := hi.running
  have : s.pcs.filterMap Pc.task = [] := by
    rw [List.filterMap_eq_nil_iff]
    intro p hp; rw [hall p hp]; rfl
  rw [this, List.append_nil] at hr
  rw [hf]
  exact hr.symm

/-- **C22** (no thread idles). As long as a thread sleeps, each task that waits in the queue can be taken by
a thread that is awake and not busy: wake-ups are not lost although `addTask` notifies one thread only. -/
theorem C22_no_idling {n : Nat} {s : State τ} (h : Reachable n s) (hs : .asleep ∈ s.pcs) :
    s.queue.length ≤ s.pcs.count .testing :=
  h.inv.idle hs

/-- **C23** (no deadlock). After the destructor has been entered, each thread that has not returned can proceed
whatever the other threads do, and if all have returned then the destructor can return. -/
theorem C23_no_deadlock {n : Nat} {s : State τ} (h : Reachable n s) (ht : s.terminate = true) :
    (∀ (k : Nat) (p : Pc τ), s.pcs[k]? = some p → p ≠ .exited → ∀ threw, (step (.work k threw) s).isSome) ∧
    ((∀ p ∈ s.pcs, p = .exited) → s.joined = false → (step .join s).isSome) := by
  have hi := h.inv
  constructor
  · intro k p hk hp threw
    have hna : p ≠ .asleep := fun hx => hi.awake ht (hx ▸ List.mem_of_getElem? hk)
    simp only [step, stepWork, hk]
    cases p with
    | testing =>
      simp only
      split
      · rfl
      · simp [ht]
    | asleep => exact absurd rfl hna
    | running t => rfl
    | storing t => rfl
    | exited => exact absurd rfl hp
  · intro hall hj
    have : s.pcs.all (· == .exited) = true := by simpa using hall
    simp [step, ht, hj, this]

/-- Number of steps that a worker thread, without taking further tasks, needs to return. -/
def Pc.weight : Pc τ → Nat
  | .testing => 1
  | .asleep => 1
  | .running _ => 3
  | .storing _ => 2
  | .exited => 0

def measure (s : State τ) : Nat :=
  3 * s.queue.length + (s.pcs.map Pc.weight).sum + if s.joined then 0 else 1

/-- Whether an action is a step of a thread of the pool, or of the destructor. -/
def Act.internal : Act τ → Bool
  | .work _ _ => true
  | .spurious _ => true
  | .join => true
  | _ => false

def Act.adds : Act τ → Bool
  | .add _ _ _ => true
  | _ => false

theorem measure_step {n : Nat} {s s' : State τ} {a : Act τ} (hi : Inv n s) (ht : s.terminate = true)
    (h : step a s = some s') :
    s'.terminate = true ∧
    measure s' + (if a.internal then 1 else 0) ≤ measure s + (if a.adds then 3 else 0) := by
  cases a with
  | add caller t wake =>
    simp only [step] at h
    split at h
    · unfold notifyOne at h
      rw [if_neg (hi.awake ht)] at h
      simp only at h
      cases h
      refine ⟨ht, ?_⟩
      simp [measure, Act.internal, Act.adds]
      omega
    · cases h
  | work k threw =>
    simp only [step, stepWork] at h
    split at h
    · cases h
    · rename_i hk
      obtain ⟨a, b, hab, hset⟩ := set_split hk
      split at h
      · rename_i t q hq
        cases h
        refine ⟨ht, ?_⟩
        simp only [measure, Act.internal, Act.adds, hset, hq]
        rw [hab]
        simp [Pc.weight]
        omega
      · rename_i hq
        rw [if_pos ht] at h
        cases h
        refine ⟨ht, ?_⟩
        simp only [measure, Act.internal, Act.adds, hset, hq]
        rw [hab]
        simp [Pc.weight]
        omega
    · cases h
    · rename_i t hk
      obtain ⟨a, b, hab, hset⟩ := set_split hk
      cases h
      refine ⟨ht, ?_⟩
      simp only [measure, Act.internal, Act.adds, hset]
      rw [hab]
      cases threw <;> simp [Pc.weight] <;> omega
    · rename_i t hk
      obtain ⟨a, b, hab, hset⟩ := set_split hk
      cases h
      refine ⟨ht, ?_⟩
      simp only [measure, Act.internal, Act.adds, hset]
      rw [hab]
      simp [Pc.weight]
      omega
    · cases h
  | spurious k =>
    simp only [step] at h
    split at h
    · rename_i hk
      exact absurd (List.mem_of_getElem? hk) (hi.awake ht)
    · cases h
  | destroy => simp [step, ht] at h
  | join =>
    simp only [step] at h
    split at h
    · rename_i hc
      cases h
      refine ⟨ht, ?_⟩
      have hj : s.joined = false := by
        simp only [Bool.and_eq_true, Bool.not_eq_true'] at hc
        exact hc.1.2
      simp [measure, Act.internal, Act.adds, hj]
    · cases h
  | take =>
    simp only [step] at h
    cases h
    refine ⟨ht, ?_⟩
    simp [measure, Act.internal, Act.adds]

/-- **C23** (bound). After the destructor has been entered, the threads of the pool, and the destructor, only perform
a number of steps which is bounded by the number of tasks in the queue, the number of threads, and the number of
tasks that are still added (by running tasks). Spurious wake-ups do not happen any more. Together with
`C23_no_deadlock`: the destructor returns, provided that tasks terminate and do not add tasks forever. -/
theorem C23_bounded {n : Nat} {s s' : State τ} (h : Reachable n s) (ht : s.terminate = true)
    {as : List (Act τ)} (hx : exec as s = some s') :
    (as.filter Act.internal).length ≤ 3 * s.queue.length + 3 * n + 1 + 3 * (as.filter Act.adds).length := by
  have hi := h.inv
  have key : ∀ (as : List (Act τ)) (s s' : State τ), Inv n s → s.terminate = true → exec as s = some s' →
      (as.filter Act.internal).length + measure s' ≤ measure s + 3 * (as.filter Act.adds).length := by
    intro as
    induction as with
    | nil => intro s s' _ _ h; simp [exec] at h; subst h; simp
    | cons a as ih =>
      intro s s' hi ht h
      simp only [exec] at h
      cases hs : step a s with
      | none => simp [hs] at h
      | some s₁ =>
        simp only [hs] at h
        obtain ⟨ht', hm⟩ := measure_step hi ht hs
        have := ih _ _ (inv_step hi hs) ht' h
        rw [List.filter_cons, List.filter_cons]
        split <;> split <;> simp_all <;> omega
  have := key as s s' hi ht hx
  have hsum : (s.pcs.map Pc.weight).sum ≤ 3 * n := by
    rw [← hi.workers]
    generalize s.pcs = l
    induction l with
    | nil => simp
    | cons p l ih =>
      have : p.weight ≤ 3 := by cases p <;> simp [Pc.weight]
      simp only [List.map_cons, List.sum_cons, List.length_cons]
      omega
  have : measure s ≤ 3 * s.queue.length + 3 * n + 1 := by
    unfold measure; split <;> omega
  omega

omit [DecidableEq τ] in
theorem firstSince_snoc (h : List (Ev τ)) (e : Ev τ) :
    firstSince (h ++ [e]) = match e with
      | .took _ => none
      | .raised t => (firstSince h).or (some t)
      | _ => firstSince h := by
  have hne : ∀ (l : List (Ev τ)), firstSince l =
      (l.reverse.takeWhile fun | .took _ => false | _ => true).reverse.findSome?
        fun | .raised t => some t | _ => none := by
    intro l; cases l <;> rfl
  rw [hne, hne h]
  cases e <;> simp [List.findSome?_append]

/-- **C24.** Each call of `takeLastException` returns the first exception which was handed over since the previous
call, and nothing if there was none. -/
theorem C24_first_exception {n : Nat} {s : State τ} (h : Reachable n s) {before after : List (Ev τ)} {r : Option τ}
    (hs : s.hist = before ++ .took r :: after) : r = firstSince before := by
  suffices H : s.eptr = firstSince s.hist ∧ ∀ before r after, s.hist = before ++ .took r :: after →
      r = firstSince before from H.2 _ _ _ hs
  clear hs
  obtain ⟨as, h⟩ := h
  refine exec_inv (P := fun s : State τ => s.eptr = firstSince s.hist ∧
    ∀ before r after, s.hist = before ++ .took r :: after → r = firstSince before) ?_ ⟨rfl, ?_⟩ h
  · rintro s s' a ⟨h1, h2⟩ hs
    have snoc : ∀ (e : Ev τ) (eptr : Option τ), eptr = firstSince (s.hist ++ [e]) →
        (∀ r, e = .took r → r = firstSince s.hist) →
        eptr = firstSince (s.hist ++ [e]) ∧ ∀ before r after, s.hist ++ [e] = before ++ .took r :: after →
          r = firstSince before := by
      intro e eptr he hr
      refine ⟨he, ?_⟩
      intro before r after hb
      rcases List.eq_nil_or_concat after with rfl | ⟨after', x, rfl⟩
      · have := List.append_inj' hb (by simp)
        simp at this
        rw [← this.1]
        exact hr r this.2
      · have hb' : s.hist ++ [e] = (before ++ .took r :: after') ++ [x] := by rw [hb]; simp
        have := List.append_inj' hb' (by simp)
        exact h2 _ _ _ this.1
    cases a with
    | add caller t wake =>
      simp only [step] at hs
      split at hs
      · split at hs
        · cases hs
          exact snoc _ _ (by rw [firstSince_snoc, h1]) (by simp)
        · cases hs
      · cases hs
    | work k threw =>
      simp only [step, stepWork] at hs
      split at hs
      · cases hs
      · split at hs
        · cases hs
          exact snoc _ _ (by rw [firstSince_snoc, h1]) (by simp)
        · split at hs <;> cases hs <;> exact ⟨h1, h2⟩
      · cases hs
      · cases hs
        exact snoc _ _ (by rw [firstSince_snoc, h1]) (by simp)
      · cases hs
        refine snoc _ _ ?_ (by simp)
        rw [firstSince_snoc, ← h1]
        cases s.eptr <;> rfl
      · cases hs
    | spurious k =>
      simp only [step] at hs
      split at hs <;> cases hs
      exact ⟨h1, h2⟩
    | destroy =>
      simp only [step] at hs
      split at hs <;> cases hs
      exact ⟨h1, h2⟩
    | join =>
      simp only [step] at hs
      split at hs <;> cases hs
      exact ⟨h1, h2⟩
    | take =>
      simp only [step] at hs
      cases hs
      refine snoc _ _ ?_ ?_
      · rw [firstSince_snoc]
      · rintro r ⟨⟩; exact h1
  · intro before r after hb
    simp [init] at hb

/-- The task whose exception a worker is about to hand over. -/
def Pc.failed : Pc τ → Option τ
  | .storing t => some t
  | _ => none

/-- **C24** (nothing is dropped). The exception of each task that throws is handed over to the pool, before the thread takes
another task and, in particular, before the destructor returns. -/
theorem C24_all_raised {n : Nat} {s : State τ} (h : Reachable n s) :
    (∃ storing : List τ, (threw s.hist).Perm (raised s.hist ++ storing) ∧ storing.length ≤ n) ∧
    (s.joined = true → (threw s.hist).Perm (raised s.hist)) := by
  have hi := h.inv
  suffices H : (threw s.hist).Perm (raised s.hist ++ s.pcs.filterMap Pc.failed) by
    refine ⟨⟨_, H, ?_⟩, ?_⟩
    · rw [← hi.workers]
      exact List.length_filterMap_le _ _
    · intro hj
      have hall := (hi.joined hj).2
      have : s.pcs.filterMap Pc.failed = [] := by
        rw [List.filterMap_eq_nil_iff]
        intro p hp; rw [hall p hp]; rfl
      rw [this, List.append_nil] at H
      exact H
  obtain ⟨as, h⟩ := h
  refine exec_inv (P := fun s : State τ => (threw s.hist).Perm (raised s.hist ++ s.pcs.filterMap Pc.failed)) ?_ ?_ h
  · intro s s' a hr hs
    have happ1 : ∀ (h g : List (Ev τ)), threw (h ++ g) = threw h ++ threw g := by intros; simp [threw]
    have happ2 : ∀ (h g : List (Ev τ)), raised (h ++ g) = raised h ++ raised g := by intros; simp [raised]
    have same : ∀ (e : Ev τ) (k : Nat) (x y : Pc τ), s.pcs[k]? = some x → threw [e] = [] → raised [e] = [] →
        x.failed = none → y.failed = none →
        (threw (s.hist ++ [e])).Perm (raised (s.hist ++ [e]) ++ (s.pcs.set k y).filterMap Pc.failed) := by
      intro e k x y hk h1 h2 h3 h4
      obtain ⟨a, b, hab, hset⟩ := set_split hk
      rw [hset, happ1, happ2, h1, h2]
      rw [hab] at hr
      simpa [List.filterMap_cons, h3, h4] using hr
    have same' : ∀ (k : Nat) (x y : Pc τ), s.pcs[k]? = some x →
        x.failed = none → y.failed = none →
        (threw s.hist).Perm (raised s.hist ++ (s.pcs.set k y).filterMap Pc.failed) := by
      intro k x y hk h3 h4
      obtain ⟨a, b, hab, hset⟩ := set_split hk
      rw [hset]
      rw [hab] at hr
      simpa [List.filterMap_cons, h3, h4] using hr
    cases a with
    | add caller t wake =>
      simp only [step] at hs
      split at hs
      · unfold notifyOne at hs
        split at hs
        · rename_i pcs hpcs
          cases hs
          split at hpcs
          · split at hpcs
            · rename_i hk
              cases hpcs
              exact same _ _ _ _ hk rfl rfl rfl rfl
            · cases hpcs
          · cases hpcs
            simp only [happ1, happ2]
            simpa [threw, raised] using hr
        · cases hs
      · cases hs
    | work k thr =>
      simp only [step, stepWork] at hs
      split at hs
      · cases hs
      · rename_i hk
        split at hs
        · cases hs
          exact same _ _ _ _ hk rfl rfl rfl rfl
        · split at hs <;> cases hs <;> exact same' _ _ _ hk rfl rfl
      · cases hs
      · rename_i t hk
        cases hs
        cases thr
        · exact same _ _ _ _ hk rfl rfl rfl rfl
        · obtain ⟨a, b, hab, hset⟩ := set_split hk
          simp only [if_true, hset, happ1, happ2]
          rw [hab] at hr
          have h1 := hr.append_right [t]
          simp only [threw, raised, List.filterMap_append, List.filterMap_cons, List.filterMap_nil, List.append_nil,
            Pc.failed] at h1 ⊢
          refine h1.trans ?_
          simp only [List.append_assoc]
          refine List.Perm.append_left _ (List.Perm.append_left _ ?_)
          exact List.perm_append_comm
      · rename_i t hk
        cases hs
        obtain ⟨a, b, hab, hset⟩ := set_split hk
        simp only [hset, happ1, happ2]
        rw [hab] at hr
        simp only [threw, raised, List.filterMap_append, List.filterMap_cons, List.filterMap_nil, List.append_nil,
          Pc.failed] at hr ⊢
        refine hr.trans ?_
        rw [List.append_assoc]
        refine List.Perm.append_left _ ?_
        exact List.perm_middle
      · cases hs
    | spurious k =>
      simp only [step] at hs
      split at hs <;> cases hs
      rename_i hk
      exact same' _ _ _ hk rfl rfl
    | destroy =>
      simp only [step] at hs
      split at hs <;> cases hs
      simp only
      have : (notifyAll s.pcs).filterMap Pc.failed = s.pcs.filterMap Pc.failed := by
        unfold notifyAll
        rw [List.filterMap_map]
        congr 1
        funext p
        cases p <;> rfl
      rw [this]; exact hr
    | join =>
      simp only [step] at hs
      split at hs <;> cases hs
      exact hr
    | take =>
      simp only [step] at hs
      cases hs
      simp only [happ1, happ2]
      simpa [threw, raised] using hr
  · have : (List.replicate n (Pc.testing : Pc τ)).filterMap Pc.failed = [] := by
      rw [List.filterMap_eq_nil_iff]; intro p hp; rw [List.eq_of_mem_replicate hp]; rfl
    simp [init, threw, raised, this]

end Proofs

section Examples

/-- Two threads and three tasks, the second of which throws. Thread 0 has fallen asleep before the first task was
added, and runs tasks 1 and 3; the destructor waits for all of them. -/
def demo : List (Act Nat) :=
  [.work 0 false, .add none 1 0, .add none 2 0, .work 0 false, .work 1 false, .add none 3 0, .work 1 true, .destroy,
   .work 1 false, .work 0 false, .work 0 false, .take, .work 1 false, .work 0 false, .work 0 false, .join]

example : (exec demo (init Nat 2)).map (fun s => (s.joined, added s.hist, ended s.hist)) =
    some (true, [1, 2, 3], [2, 1, 3]) := by decide

example : ∃ s : State Nat, Reachable 2 s ∧ s.joined = true ∧ s.hist.length = 11 := by
  refine ⟨_, ⟨demo, rfl⟩, by decide, by decide⟩

/-- After `destroy` in that schedule. -/
example : ∃ s : State Nat, Reachable 2 s ∧ s.terminate = true ∧ s.queue = [3] ∧ s.joined = false := by
  refine ⟨_, ⟨demo.take 8, rfl⟩, by decide, by decide, by decide⟩

example : ∃ (s : State Nat) (before after : List (Ev Nat)), Reachable 2 s ∧ s.hist = before ++ .took (some 2) :: after := by
  refine ⟨_, [.added 1, .added 2, .started 1, .started 2, .added 3, .ended 2 true, .raised 2, .ended 1 false,
    .started 3], [.ended 3 false], ⟨demo, rfl⟩, by decide⟩

/-- A thread sleeps and nothing is in the queue. -/
example : ∃ s : State Nat, Reachable 2 s ∧ .asleep ∈ s.pcs := by
  refine ⟨_, ⟨demo.take 1, rfl⟩, by decide⟩

end Examples

end Maike.Sched.Pool
