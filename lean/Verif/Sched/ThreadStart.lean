import Verif.Sched.ThreadPool

/-!
# Threads that cannot be started (C113)

`pthread_create` fails if there are too many threads or there is not enough memory. The constructor of the pool (core/sched/thread_pool.cpp:8-24) ignores its result, and the destructor (core/sched/thread_pool.cpp:34-37) joins
all the handles. `communicateWith` (core/exec/execve.cpp:138-139) starts two objects of type `std::thread`, whose constructors throw.
-/

namespace Maike.Sched.Start

/-! ## Model -/

/-- The loop in the constructor, core/sched/thread_pool.cpp:13-23. The list tells which calls of `pthread_create` succeed; `next` is the number of the next thread. If a call fails, then the handle does not belong to a thread. -/
def create (next : Nat) : List Bool → List (Option Nat)
  | [] => []
  | true :: rest => some next :: create (next + 1) rest
  | false :: rest => none :: create next rest

/-- The workers that have been started. -/
def workers (outcomes : List Bool) : List Nat := (create 0 outcomes).filterMap id

/-- How a sequence of calls of `pthread_join` ends: the threads that have been joined, or undefined behaviour. -/
inductive Joined where
  | all (threads : List Nat)
  | undefined
deriving DecidableEq, Repr

/-- The loop in the destructor, core/sched/thread_pool.cpp:34-37. It is undefined what happens when a handle is joined that does not belong to a thread, or that has been joined. -/
def join (done : List Nat) : List (Option Nat) → Joined
  | [] => .all done
  | none :: _ => .undefined
  | some k :: rest => if k ∈ done then .undefined else join (done ++ [k]) rest

/-- What becomes of core/exec/execve.cpp:138-146. -/
inductive Readers where
  /-- both readers are running; they are joined in l. 145-146 -/
  | running
  /-- an exception leaves the function, with no thread left behind -/
  | threw
  /-- `std::terminate` has been called, by the destructor of a `std::thread` that has not been joined -/
  | terminated
deriving DecidableEq, Repr

/-- core/exec/execve.cpp:138-139: `err` and `out` tell if the threads can be started. -/
def startReaders (err out : Bool) : Readers :=
  if err then
    if out then .running else .terminated
  else .threw

/-! ## Lemmas -/

theorem create_lt {next : Nat} {outcomes : List Bool} {k : Nat} (h : some k ∈ create next outcomes) : next ≤ k := by
  induction outcomes generalizing next with
  | nil => cases h
  | cons b rest ih =>
    cases b with
    | true =>
      rcases List.mem_cons.mp h with h | h
      · cases h; exact Nat.le_refl _
      · exact Nat.le_of_succ_le (ih h)
    | false =>
      rcases List.mem_cons.mp h with h | h
      · cases h
      · exact ih h

theorem create_all {next : Nat} {outcomes : List Bool} (h : ∀ b ∈ outcomes, b = true) : create next outcomes = (List.range' next outcomes.length).map some := by
  induction outcomes generalizing next with
  | nil => rfl
  | cons b rest ih =>
    obtain rfl := h b (by simp)
    simp [create, ih fun x hx => h x (by simp [hx]), List.range'_succ]

theorem create_workers (next : Nat) (outcomes : List Bool) : (create next outcomes).filterMap id = List.range' next (outcomes.count true) := by
  induction outcomes generalizing next with
  | nil => rfl
  | cons b rest ih => cases b <;> simp [create, ih, List.range'_succ]

theorem join_range {next : Nat} (n : Nat) {done : List Nat} (h : ∀ k ∈ done, k < next) : join done ((List.range' next n).map some) = .all (done ++ List.range' next n) := by
  induction n generalizing next done with
  | zero => simp [join]
  | succ n ih =>
    rw [List.range'_succ, List.map_cons, join, if_neg fun hx => Nat.lt_irrefl _ (h _ hx), ih]
    · simp
    · intro k hk
      rcases List.mem_append.mp hk with hk | hk
      · exact Nat.lt_succ_of_lt (h k hk)
      · simp at hk; omega

theorem join_none {hs : List (Option Nat)} (h : none ∈ hs) (done : List Nat) : join done hs = .undefined := by
  induction hs generalizing done with
  | nil => cases h
  | cons x hs ih =>
    cases x with
    | none => rfl
    | some k =>
      rw [join]
      split
      · rfl
      · exact ih (by simpa using h) _

theorem none_mem_create {outcomes : List Bool} (h : false ∈ outcomes) (next : Nat) : none ∈ create next outcomes := by
  induction outcomes generalizing next with
  | nil => cases h
  | cons b rest ih =>
    cases b with
    | true => exact List.mem_cons_of_mem _ (ih (by simpa using h) _)
    | false => simp [create]

/-! ## Theorems -/

/-- **C113 (how many workers there are).** There are as many workers as calls of `pthread_create` have succeeded. -/
theorem C113_workers (outcomes : List Bool) : workers outcomes = List.range (outcomes.count true) := by
  rw [workers, create_workers, List.range_eq_range']

/-- **C113 (the destructor).** If all threads have been started, then the destructor joins each of them once. -/
theorem C113_join_partial {outcomes : List Bool} (h : ∀ b ∈ outcomes, b = true) : join [] (create 0 outcomes) = .all (workers outcomes) := by
  rw [create_all h, join_range _ (by simp), C113_workers, List.nil_append, List.range_eq_range', List.count_eq_length.mpr fun b hb => (h b hb).symm]

/-- **C113 (the destructor).** Otherwise, it has undefined behaviour, even if the other threads have done all the work. -/
theorem C113_join_undefined {outcomes : List Bool} : join [] (create 0 outcomes) = .undefined ↔ false ∈ outcomes := by
  constructor
  · intro h
    refine Classical.byContradiction fun hf => ?_
    have := C113_join_partial (outcomes := outcomes) fun b hb => by cases b with | true => rfl | false => exact absurd hb hf
    rw [h] at this
    cases this
  · exact fun h => join_none (none_mem_create h 0) []

/-- **C113 (no workers).** If no thread can be started, then no task is ever started. -/
theorem C113_no_workers {τ : Type} [DecidableEq τ] {outcomes : List Bool} (h : true ∉ outcomes) {s : Pool.State τ} (hs : Pool.Reachable (workers outcomes).length s) :
    Pool.started s.hist = [] := by
  rw [C113_workers, List.length_range, List.count_eq_zero_of_not_mem h] at hs
  obtain ⟨as, hs⟩ := hs
  refine (Pool.exec_inv (P := fun s : Pool.State τ => s.pcs = [] ∧ Pool.started s.hist = []) ?_ ⟨rfl, rfl⟩ hs).2
  rintro s s' a ⟨h1, h2⟩ ha
  cases a with
  | add caller t wake =>
    simp only [Pool.step, Pool.notifyOne, h1] at ha
    split at ha
    · simp at ha
      subst ha
      exact ⟨rfl, by simp [Pool.started] at h2 ⊢; exact h2⟩
    · cases ha
  | work k threw => simp [Pool.step, Pool.stepWork, h1] at ha
  | spurious k => simp [Pool.step, h1] at ha
  | destroy =>
    simp only [Pool.step] at ha
    split at ha
    · cases ha
    · cases ha
      exact ⟨by simp [Pool.notifyAll, h1], h2⟩
  | join =>
    simp only [Pool.step] at ha
    split at ha
    · cases ha
      exact ⟨h1, h2⟩
    · cases ha
  | take =>
    simp only [Pool.step] at ha
    cases ha
    exact ⟨h1, by simp [Pool.started] at h2 ⊢; exact h2⟩

/-- **C113 (the remaining workers).** As long as one thread could be started, everything that is added to the pool is executed before the destructor joins the threads. -/
theorem C113_drained {τ : Type} [DecidableEq τ] {outcomes : List Bool} (h : true ∈ outcomes) {s : Pool.State τ} (hs : Pool.Reachable (workers outcomes).length s) (hj : s.joined = true) :
    Pool.started s.hist = Pool.added s.hist ∧ (Pool.ended s.hist).Perm (Pool.added s.hist) := by
  refine Pool.C22_drained ?_ hs hj
  rw [C113_workers, List.length_range]
  exact List.count_pos_iff.mpr h

/-- **C113 (readers).** The output of a recipe is read by two threads if both can be started. If the first one cannot be started, then an exception is thrown. If only the first one can be started, then the program
is terminated. -/
theorem C113_readers (err out : Bool) : (startReaders err out = .running ↔ err = true ∧ out = true) ∧ (startReaders err out = .threw ↔ err = false) ∧
    (startReaders err out = .terminated ↔ err = true ∧ out = false) := by
  cases err <;> cases out <;> simp [startReaders]

/-! ## Examples -/

example : create 0 [true, false, true] = [some 0, none, some 1] ∧ workers [true, false, true] = [0, 1] := by decide +kernel

example : join [] (create 0 [true, true, true]) = .all [0, 1, 2] := by decide +kernel

/-- With one worker of two, a task is executed, and the destructor is entered when there is nothing left to do. -/
example : ∃ s : Pool.State Nat, Pool.Reachable (workers [true, false]).length s ∧ s.terminate = true ∧ s.pcs = [.exited] ∧ Pool.ended s.hist = [7] := by
  have h : (Pool.exec [.add none 7 0, .work 0 false, .work 0 false, .destroy, .work 0 false] (Pool.init Nat (workers [true, false]).length)).map
      (fun s => (s.terminate, s.pcs, Pool.ended s.hist)) = some (true, [.exited], [7]) := by decide +kernel
  obtain ⟨s, h1, h2⟩ := Option.map_eq_some_iff.mp h
  simp only [Prod.mk.injEq] at h2
  exact ⟨s, ⟨_, h1⟩, h2⟩

/-- **C113 is false** for the pool: one of two threads cannot be started, and the destructor has undefined behaviour. -/
theorem C113_false : ∃ outcomes : List Bool, true ∈ outcomes ∧ join [] (create 0 outcomes) = .undefined := ⟨[true, false], by simp, by decide +kernel⟩

/-- **C113 is false** for readers: the program is terminated, instead of reporting that the command has failed. -/
theorem C113_false_readers : startReaders true false = .terminated := rfl

end Maike.Sched.Start
