/-!
# Concurrent launches of recipes (C67)

core/exec/execve.cpp: pipes, `fork`, inheritance of file descriptors, and how `execve` waits for the child process. Any number of threads
may call `execve` at the same time.

The model keeps track of who has the write ends of the pipes open, since this is what decides when a reader sees the end of the data.
Read ends and the data that are transferred are left out: the reader threads read whatever there is, so that a
child process is never blocked by a full pipe once the readers have been started. Before that, it may be blocked.
-/

namespace Maike.Exec.Launch

/-! ## Model -/

/-- The pipes of a launch, core/exec/execve.cpp:172-175. -/
inductive Kind where
  | stdin
  | stdout
  | stderr
  | execErr
deriving DecidableEq, Repr

/-- How far a call of `execve` has come. -/
inductive Phase where
  /-- not yet called -/
  | idle
  /-- the pipes before this one have been created, core/exec/execve.cpp:172-175 -/
  | creating (k : Kind)
  /-- about to lock the mutex, l. 177 -/
  | created
  /-- about to fork, l. 178 -/
  | locked
  /-- about to close the write end of `exec_err`, l. 210 -/
  | forked
  /-- about to unlock, l. 211 -/
  | closed
  /-- reading from `exec_err`, l. 213 -/
  | reading
  /-- about to close the write ends of `stdout` and `stderr`, l. 224-225 -/
  | launched
  | halfClosed
  /-- the readers have been started; in `waitpid`, l. 138-143 -/
  | waiting
  /-- waiting for the readers, l. 145-146 -/
  | joinStdout
  | joinStderr
  /-- about to destroy the pipes -/
  | leaving
  /-- has returned the status of the child -/
  | done
  /-- has thrown because the recipe could not be launched, l. 213-220 -/
  | failed
deriving DecidableEq, Repr

/-- State of a child process. -/
inductive Child where
  | none
  /-- between `fork` and `execve`, l. 186-196 -/
  | starting
  /-- the recipe is being executed -/
  | running
  /-- a zombie, or gone. All file descriptors are closed. -/
  | ended
deriving DecidableEq, Repr

/-- All calls of `execve` (core/exec/execve.cpp:158-228), and their child processes. Calls are numbered. -/
structure State where
  phase : Nat → Phase
  child : Nat → Child
  /-- who holds `exec_mutex` -/
  mutex : Option Nat
  /-- the write end of a pipe of a launch is open in the main process -/
  parent : Nat → Kind → Bool
  /-- it is open in the child process of a launch (the first argument) -/
  holds : Nat → Nat → Kind → Bool
  /-- an error number has been written to `exec_err` -/
  errno : Nat → Bool
  /-- ghost: launches in the order of their `fork` -/
  order : List Nat

/-- Before any call; `exec_mutex` (core/exec/execve.cpp:158) is free. -/
def init : State where
  phase := fun _ => .idle
  child := fun _ => .none
  mutex := none
  parent := fun _ _ => false
  holds := fun _ _ _ => false
  errno := fun _ => false
  order := []

/-- Assignment to the variable of one call. -/
def set {α : Type} (f : Nat → α) (i : Nat) (x : α) : Nat → α := fun j => if j = i then x else f j

/-- Assignment to the state of one pipe of one call. -/
def set2 {α : Type} (f : Nat → Kind → α) (i : Nat) (k : Kind) (x : α) : Nat → Kind → α :=
  fun j l => if j = i ∧ l = k then x else f j l

/-- Nobody can write to the pipe any more. File descriptors of processes that have ended do not count. -/
def atEnd (s : State) (i : Nat) (k : Kind) : Prop :=
  s.parent i k = false ∧ ∀ j, s.holds j i k = true → s.child j = .ended ∨ s.child j = .none

/-- What may happen: core/exec/execve.cpp:172-228 for the calls, l. 186-206 for the child processes. Each system call is one step. That
`pipe` or `fork` fails (l. 30, 184), and that reading is interrupted, is left out. `eof i` tells whether the recipe of launch `i` reads its standard input to the end before it ends. -/
inductive Step (eof : Nat → Bool) : State → State → Prop
  /-- `execve` is called -/
  | call {s i} : s.phase i = .idle → Step eof s { s with phase := set s.phase i (.creating .stdin) }
  | pipe1 {s i} : s.phase i = .creating .stdin →
      Step eof s { s with phase := set s.phase i (.creating .stdout), parent := set2 s.parent i .stdin true }
  | pipe2 {s i} : s.phase i = .creating .stdout →
      Step eof s { s with phase := set s.phase i (.creating .stderr), parent := set2 s.parent i .stdout true }
  | pipe3 {s i} : s.phase i = .creating .stderr →
      Step eof s { s with phase := set s.phase i (.creating .execErr), parent := set2 s.parent i .stderr true }
  | pipe4 {s i} : s.phase i = .creating .execErr →
      Step eof s { s with phase := set s.phase i .created, parent := set2 s.parent i .execErr true }
  | lock {s i} : s.phase i = .created → s.mutex = none → Step eof s { s with phase := set s.phase i .locked, mutex := some i }
  /-- `fork`: the child has everything open that is open in the main process -/
  | fork {s i} : s.phase i = .locked →
      Step eof s { s with phase := set s.phase i .forked, child := set s.child i .starting, holds := fun j l k => if j = i then s.parent l k else s.holds j l k,
                          order := s.order ++ [i] }
  | closeErr {s i} : s.phase i = .forked →
      Step eof s { s with phase := set s.phase i .closed, parent := set2 s.parent i .execErr false }
  | unlock {s i} : s.phase i = .closed → Step eof s { s with phase := set s.phase i .reading, mutex := none }
  /-- an error number is read from `exec_err`; the destructors close the pipes -/
  | readErr {s i} : s.phase i = .reading → s.errno i = true →
      Step eof s { s with phase := set s.phase i .failed, parent := fun j k => if j = i then false else s.parent j k }
  /-- the end of `exec_err` is reached -/
  | readEnd {s i} : s.phase i = .reading → s.errno i = false → atEnd s i .execErr → Step eof s { s with phase := set s.phase i .launched }
  | close1 {s i} : s.phase i = .launched →
      Step eof s { s with phase := set s.phase i .halfClosed, parent := set2 s.parent i .stdout false }
  | close2 {s i} : s.phase i = .halfClosed →
      Step eof s { s with phase := set s.phase i .waiting, parent := set2 s.parent i .stderr false }
  | waitpid {s i} : s.phase i = .waiting → s.child i = .ended → Step eof s { s with phase := set s.phase i .joinStdout }
  | join1 {s i} : s.phase i = .joinStdout → atEnd s i .stdout → Step eof s { s with phase := set s.phase i .joinStderr }
  | join2 {s i} : s.phase i = .joinStderr → atEnd s i .stderr → Step eof s { s with phase := set s.phase i .leaving }
  | leave {s i} : s.phase i = .leaving →
      Step eof s { s with phase := set s.phase i .done, parent := fun j k => if j = i then false else s.parent j k }
  /-- the child starts the recipe, which closes its copy of `exec_err`; before, it has closed the write end of its standard input -/
  | exec {s i} : s.child i = .starting →
      Step eof s { s with child := set s.child i .running,
                          holds := fun j l k => if j = i ∧ l = i ∧ (k = .execErr ∨ k = .stdin) then false else s.holds j l k }
  /-- the recipe cannot be started -/
  | execFails {s i} : s.child i = .starting →
      Step eof s { s with child := set s.child i .ended, errno := set s.errno i true }
  /-- the recipe ends. If it reads its standard input to the end, this has to be at its end. -/
  | exit {s i} : s.child i = .running → (eof i = true → atEnd s i .stdin) → Step eof s { s with child := set s.child i .ended }

/-- Executions, with the number of steps. -/
inductive Steps (eof : Nat → Bool) : Nat → State → State → Prop
  | refl {s} : Steps eof 0 s s
  | tail {n s t u} : Steps eof n s t → Step eof t u → Steps eof (n + 1) s u

/-! ## Specification -/

/-- A thread is inside of `execve`. -/
def Phase.Active (p : Phase) : Prop := p ≠ .idle ∧ p ≠ .done ∧ p ≠ .failed

/-- Steps that are bound to happen when they are possible, if recipes end when their output is read. Whether a recipe ends while nobody
reads its output, and whether `execve` is called, is open. -/
def Must (s t : State) : Prop :=
  (∀ i, s.phase i = .idle → t.phase i = .idle) ∧
  (∀ i, s.child i = .running → t.child i = .ended → s.phase i = .waiting)

/-! ## Invariant -/

structure Inv (s : State) : Prop where
  mutex : ∀ i, (s.phase i = .locked ∨ s.phase i = .forked ∨ s.phase i = .closed) ↔ s.mutex = some i
  order : ∀ i, i ∈ s.order ↔ s.child i ≠ .none
  nodup : s.order.Nodup
  child : ∀ i, s.child i = .none ↔ s.phase i = .idle ∨ (∃ k, s.phase i = .creating k) ∨ s.phase i = .created ∨ s.phase i = .locked
  errParent : ∀ i, s.parent i .execErr = true → s.phase i = .created ∨ s.phase i = .locked ∨ s.phase i = .forked
  outParent : ∀ i, s.parent i .stdout = true → s.phase i = .creating .stderr ∨ s.phase i = .creating .execErr ∨ s.phase i = .created ∨
    s.phase i = .locked ∨ s.phase i = .forked ∨ s.phase i = .closed ∨ s.phase i = .reading ∨ s.phase i = .launched
  errParent2 : ∀ i, s.parent i .stderr = true → s.phase i = .creating .execErr ∨ s.phase i = .created ∨
    s.phase i = .locked ∨ s.phase i = .forked ∨ s.phase i = .closed ∨ s.phase i = .reading ∨ s.phase i = .launched ∨ s.phase i = .halfClosed
  errOpen : ∀ i, s.phase i = .created ∨ s.phase i = .locked → s.parent i .execErr = true
  startHolds : ∀ i, s.child i = .starting → s.holds i i .execErr = true
  /-- the standard input of a recipe stays open until `execve` ends -/
  inOpen : ∀ i, s.phase i ≠ .idle → s.phase i ≠ .creating .stdin → s.phase i ≠ .done → s.phase i ≠ .failed → s.parent i .stdin = true
  waited : ∀ i, (s.phase i = .joinStdout ∨ s.phase i = .joinStderr ∨ s.phase i = .leaving ∨ s.phase i = .done ∨ s.phase i = .failed) →
    s.child i = .ended
  /-- a child that has `exec_err` of another launch open was forked before the child of that launch -/
  before : ∀ i j, s.holds j i .execErr = true → s.child j ≠ .none → (j = i ∧ (s.child j = .starting ∨ s.child j = .ended)) ∨
    (j ≠ i ∧ ∀ l₁ l₂, s.order = l₁ ++ i :: l₂ → j ∈ l₁)
  errno : ∀ i, s.errno i = true → s.child i = .ended
  launched : ∀ i, (s.phase i = .launched ∨ s.phase i = .halfClosed ∨ s.phase i = .waiting ∨ s.phase i = .joinStdout ∨ s.phase i = .joinStderr ∨
    s.phase i = .leaving ∨ s.phase i = .done) → s.errno i = false ∧ s.child i ≠ .starting
  failed : ∀ i, s.phase i = .failed → s.errno i = true

theorem init_inv : Inv init := by
  constructor <;> simp [init]

set_option linter.unusedSimpArgs false
set_option maxHeartbeats 1000000

theorem inv_call {s : State} {i : Nat} (h : Inv s) (q0 : s.phase i = .idle) :
    Inv { s with phase := set s.phase i (.creating .stdin) } := by
  obtain ⟨h1, h2, h3, h4, h5, h6, h7, h8, h9, h10, h11, h12, h13, h14, h15⟩ := h
  constructor <;> simp only [set, set2, atEnd] at * <;> grind

theorem inv_pipe1 {s : State} {i : Nat} (h : Inv s) (q0 : s.phase i = .creating .stdin) :
    Inv { s with phase := set s.phase i (.creating .stdout), parent := set2 s.parent i .stdin true } := by
  obtain ⟨h1, h2, h3, h4, h5, h6, h7, h8, h9, h10, h11, h12, h13, h14, h15⟩ := h
  constructor <;> simp only [set, set2, atEnd] at * <;> grind

theorem inv_pipe2 {s : State} {i : Nat} (h : Inv s) (q0 : s.phase i = .creating .stdout) :
    Inv { s with phase := set s.phase i (.creating .stderr), parent := set2 s.parent i .stdout true } := by
  obtain ⟨h1, h2, h3, h4, h5, h6, h7, h8, h9, h10, h11, h12, h13, h14, h15⟩ := h
  constructor <;> simp only [set, set2, atEnd] at * <;> grind

theorem inv_pipe3 {s : State} {i : Nat} (h : Inv s) (q0 : s.phase i = .creating .stderr) :
    Inv { s with phase := set s.phase i (.creating .execErr), parent := set2 s.parent i .stderr true } := by
  obtain ⟨h1, h2, h3, h4, h5, h6, h7, h8, h9, h10, h11, h12, h13, h14, h15⟩ := h
  constructor <;> simp only [set, set2, atEnd] at * <;> grind

theorem inv_pipe4 {s : State} {i : Nat} (h : Inv s) (q0 : s.phase i = .creating .execErr) :
    Inv { s with phase := set s.phase i .created, parent := set2 s.parent i .execErr true } := by
  obtain ⟨h1, h2, h3, h4, h5, h6, h7, h8, h9, h10, h11, h12, h13, h14, h15⟩ := h
  constructor <;> simp only [set, set2, atEnd] at * <;> grind

theorem inv_lock {s : State} {i : Nat} (h : Inv s) (q0 : s.phase i = .created) (q1 : s.mutex = none) :
    Inv { s with phase := set s.phase i .locked, mutex := some i } := by
  obtain ⟨h1, h2, h3, h4, h5, h6, h7, h8, h9, h10, h11, h12, h13, h14, h15⟩ := h
  constructor <;> simp only [set, set2, atEnd] at * <;> grind

theorem snoc_split {i : Nat} {l l₁ l₂ : List Nat} (h : i ∉ l) (he : l ++ [i] = l₁ ++ i :: l₂) : l₁ = l ∧ l₂ = [] := by
  induction l generalizing l₁ with
  | nil => cases l₁ <;> simp_all
  | cons x l ih =>
    cases l₁ with
    | nil =>
      simp only [List.cons_append, List.nil_append, List.cons.injEq] at he
      exact absurd (List.mem_cons.2 (.inl he.1.symm)) h
    | cons y l₁ =>
      simp only [List.cons_append, List.cons.injEq] at he
      have := ih (fun hm => h (List.mem_cons_of_mem _ hm)) he.2
      simp [he.1, this]

theorem snoc_split' {i k : Nat} {l l₁ l₂ : List Nat} (h : k ≠ i) (he : l ++ [i] = l₁ ++ k :: l₂) : ∃ l₃, l = l₁ ++ k :: l₃ := by
  induction l generalizing l₁ with
  | nil => cases l₁ <;> simp_all
  | cons x l ih =>
    cases l₁ with
    | nil =>
      simp only [List.cons_append, List.nil_append, List.cons.injEq] at he
      exact ⟨l, by simp [he.1]⟩
    | cons y l₁ =>
      simp only [List.cons_append, List.cons.injEq] at he
      obtain ⟨l₃, h₃⟩ := ih he.2
      exact ⟨l₃, by simp [he.1, h₃]⟩

theorem inv_fork {s : State} {i : Nat} (h : Inv s) (q0 : s.phase i = .locked) :
    Inv { s with phase := set s.phase i .forked, child := set s.child i .starting, holds := fun j l k => if j = i then s.parent l k else s.holds j l k,
                          order := s.order ++ [i] } := by
  obtain ⟨h1, h2, h3, h4, h5, h6, h7, h8, h9, h10, h11, h12, h13, h14, h15⟩ := h
  constructor
  case before =>
    intro k j hj hc
    simp only [set] at hj hc ⊢
    have hi : i ∉ s.order := by grind
    by_cases hji : j = i
    · subst hji
      by_cases hk : j = k
      · left
        simp [hk]
      · right
        refine ⟨hk, fun l₁ l₂ he => ?_⟩
        have : k ∈ s.order ++ [j] := by simp [he]
        grind
    · simp only [hji, if_false] at hj hc
      rcases h12 k j hj hc with ⟨h, h'⟩ | ⟨h, h'⟩
      · left
        simp only [hji, if_false]
        exact ⟨h, h'⟩
      · right
        refine ⟨h, fun l₁ l₂ he => ?_⟩
        by_cases hk : k = i
        · subst hk
          have := snoc_split hi he
          rw [this.1]
          exact (h2 j).2 hc
        · obtain ⟨l₃, h₃⟩ := snoc_split' hk he
          exact h' _ _ h₃
  all_goals simp only [set, set2, atEnd] at * <;> grind

theorem inv_closeErr {s : State} {i : Nat} (h : Inv s) (q0 : s.phase i = .forked) :
    Inv { s with phase := set s.phase i .closed, parent := set2 s.parent i .execErr false } := by
  obtain ⟨h1, h2, h3, h4, h5, h6, h7, h8, h9, h10, h11, h12, h13, h14, h15⟩ := h
  constructor <;> simp only [set, set2, atEnd] at * <;> grind

theorem inv_unlock {s : State} {i : Nat} (h : Inv s) (q0 : s.phase i = .closed) :
    Inv { s with phase := set s.phase i .reading, mutex := none } := by
  obtain ⟨h1, h2, h3, h4, h5, h6, h7, h8, h9, h10, h11, h12, h13, h14, h15⟩ := h
  constructor <;> simp only [set, set2, atEnd] at * <;> grind

theorem inv_readErr {s : State} {i : Nat} (h : Inv s) (q0 : s.phase i = .reading) (q1 : s.errno i = true) :
    Inv { s with phase := set s.phase i .failed, parent := fun j k => if j = i then false else s.parent j k } := by
  obtain ⟨h1, h2, h3, h4, h5, h6, h7, h8, h9, h10, h11, h12, h13, h14, h15⟩ := h
  constructor <;> simp only [set, set2, atEnd] at * <;> grind

theorem inv_readEnd {s : State} {i : Nat} (h : Inv s) (q0 : s.phase i = .reading) (q1 : s.errno i = false) (q2 : atEnd s i .execErr) :
    Inv { s with phase := set s.phase i .launched } := by
  obtain ⟨h1, h2, h3, h4, h5, h6, h7, h8, h9, h10, h11, h12, h13, h14, h15⟩ := h
  constructor <;> simp only [set, set2, atEnd] at * <;> grind

theorem inv_close1 {s : State} {i : Nat} (h : Inv s) (q0 : s.phase i = .launched) :
    Inv { s with phase := set s.phase i .halfClosed, parent := set2 s.parent i .stdout false } := by
  obtain ⟨h1, h2, h3, h4, h5, h6, h7, h8, h9, h10, h11, h12, h13, h14, h15⟩ := h
  constructor <;> simp only [set, set2, atEnd] at * <;> grind

theorem inv_close2 {s : State} {i : Nat} (h : Inv s) (q0 : s.phase i = .halfClosed) :
    Inv { s with phase := set s.phase i .waiting, parent := set2 s.parent i .stderr false } := by
  obtain ⟨h1, h2, h3, h4, h5, h6, h7, h8, h9, h10, h11, h12, h13, h14, h15⟩ := h
  constructor <;> simp only [set, set2, atEnd] at * <;> grind

theorem inv_waitpid {s : State} {i : Nat} (h : Inv s) (q0 : s.phase i = .waiting) (q1 : s.child i = .ended) :
    Inv { s with phase := set s.phase i .joinStdout } := by
  obtain ⟨h1, h2, h3, h4, h5, h6, h7, h8, h9, h10, h11, h12, h13, h14, h15⟩ := h
  constructor <;> simp only [set, set2, atEnd] at * <;> grind

theorem inv_join1 {s : State} {i : Nat} (h : Inv s) (q0 : s.phase i = .joinStdout) (q1 : atEnd s i .stdout) :
    Inv { s with phase := set s.phase i .joinStderr } := by
  obtain ⟨h1, h2, h3, h4, h5, h6, h7, h8, h9, h10, h11, h12, h13, h14, h15⟩ := h
  constructor <;> simp only [set, set2, atEnd] at * <;> grind

theorem inv_join2 {s : State} {i : Nat} (h : Inv s) (q0 : s.phase i = .joinStderr) (q1 : atEnd s i .stderr) :
    Inv { s with phase := set s.phase i .leaving } := by
  obtain ⟨h1, h2, h3, h4, h5, h6, h7, h8, h9, h10, h11, h12, h13, h14, h15⟩ := h
  constructor <;> simp only [set, set2, atEnd] at * <;> grind

theorem inv_leave {s : State} {i : Nat} (h : Inv s) (q0 : s.phase i = .leaving) :
    Inv { s with phase := set s.phase i .done, parent := fun j k => if j = i then false else s.parent j k } := by
  obtain ⟨h1, h2, h3, h4, h5, h6, h7, h8, h9, h10, h11, h12, h13, h14, h15⟩ := h
  constructor <;> simp only [set, set2, atEnd] at * <;> grind

theorem inv_exec {s : State} {i : Nat} (h : Inv s) (q0 : s.child i = .starting) :
    Inv { s with child := set s.child i .running,
                          holds := fun j l k => if j = i ∧ l = i ∧ (k = .execErr ∨ k = .stdin) then false else s.holds j l k } := by
  obtain ⟨h1, h2, h3, h4, h5, h6, h7, h8, h9, h10, h11, h12, h13, h14, h15⟩ := h
  constructor <;> simp only [set, set2, atEnd] at * <;> grind

theorem inv_execFails {s : State} {i : Nat} (h : Inv s) (q0 : s.child i = .starting) :
    Inv { s with child := set s.child i .ended, errno := set s.errno i true } := by
  obtain ⟨h1, h2, h3, h4, h5, h6, h7, h8, h9, h10, h11, h12, h13, h14, h15⟩ := h
  constructor <;> simp only [set, set2, atEnd] at * <;> grind

theorem inv_exit {s : State} {i : Nat} (h : Inv s) (q0 : s.child i = .running) :
    Inv { s with child := set s.child i .ended } := by
  obtain ⟨h1, h2, h3, h4, h5, h6, h7, h8, h9, h10, h11, h12, h13, h14, h15⟩ := h
  constructor <;> simp only [set, set2, atEnd] at * <;> grind

theorem step_inv {eof : Nat → Bool} {s t : State} (h : Inv s) (hs : Step eof s t) : Inv t := by
  cases hs with
  | call q0 => exact inv_call h q0
  | pipe1 q0 => exact inv_pipe1 h q0
  | pipe2 q0 => exact inv_pipe2 h q0
  | pipe3 q0 => exact inv_pipe3 h q0
  | pipe4 q0 => exact inv_pipe4 h q0
  | lock q0 q1 => exact inv_lock h q0 q1
  | fork q0 => exact inv_fork h q0
  | closeErr q0 => exact inv_closeErr h q0
  | unlock q0 => exact inv_unlock h q0
  | readErr q0 q1 => exact inv_readErr h q0 q1
  | readEnd q0 q1 q2 => exact inv_readEnd h q0 q1 q2
  | close1 q0 => exact inv_close1 h q0
  | close2 q0 => exact inv_close2 h q0
  | waitpid q0 q1 => exact inv_waitpid h q0 q1
  | join1 q0 q1 => exact inv_join1 h q0 q1
  | join2 q0 q1 => exact inv_join2 h q0 q1
  | leave q0 => exact inv_leave h q0
  | exec q0 => exact inv_exec h q0
  | execFails q0 => exact inv_execFails h q0
  | exit q0 q1 => exact inv_exit h q0

theorem steps_inv {eof : Nat → Bool} {n : Nat} {s : State} (h : Steps eof n init s) : Inv s := by
  generalize hi : init = r at h
  induction h with
  | refl => exact hi ▸ init_inv
  | tail _ hs ih => exact step_inv (ih hi) hs

theorem first_split {P : Nat → Prop} (l : List Nat) {i : Nat} (hi : i ∈ l) (hp : P i) :
    ∃ l₁ j l₂, l = l₁ ++ j :: l₂ ∧ P j ∧ ∀ k ∈ l₁, ¬ P k := by
  induction l with
  | nil => cases hi
  | cons x l ih =>
    by_cases hx : P x
    · exact ⟨[], x, l, rfl, hx, by simp⟩
    · have : i ∈ l := by
        rcases List.mem_cons.1 hi with h | h
        · exact absurd (h ▸ hp) hx
        · exact h
      obtain ⟨l₁, j, l₂, he, hj, hk⟩ := ih this
      refine ⟨x :: l₁, j, l₂, by simp [he], hj, ?_⟩
      intro k hk'
      rcases List.mem_cons.1 hk' with h | h
      · exact h ▸ hx
      · exact hk k h

/-! ## Steps that are possible -/

theorem can_own {eof : Nat → Bool} {s : State} {i : Nat}
    (hp : (∃ k, s.phase i = .creating k) ∨ s.phase i = .locked ∨ s.phase i = .forked ∨ s.phase i = .closed ∨ s.phase i = .launched ∨
      s.phase i = .halfClosed ∨ s.phase i = .leaving) : ∃ t, Step eof s t ∧ Must s t := by
  have hm : ∀ (t : State) (p : Phase), t.phase = set s.phase i p → t.child = s.child → s.phase i ≠ .idle → Must s t := by
    intro t p h1 h2 h3
    refine ⟨fun j hj => ?_, fun j hj hj' => ?_⟩
    · rw [h1, set]
      grind
    · rw [h2, hj] at hj'
      cases hj'
  rcases hp with ⟨k, hp⟩ | hp | hp | hp | hp | hp | hp
  · cases k with
    | stdin => exact ⟨_, .pipe1 hp, hm _ _ rfl rfl (by simp [hp])⟩
    | stdout => exact ⟨_, .pipe2 hp, hm _ _ rfl rfl (by simp [hp])⟩
    | stderr => exact ⟨_, .pipe3 hp, hm _ _ rfl rfl (by simp [hp])⟩
    | execErr => exact ⟨_, .pipe4 hp, hm _ _ rfl rfl (by simp [hp])⟩
  · refine ⟨_, .fork hp, fun j hj => ?_, fun j hj hj' => ?_⟩
    · simp only [set]
      grind
    · simp only [set] at hj'
      grind
  · exact ⟨_, .closeErr hp, hm _ _ rfl rfl (by simp [hp])⟩
  · exact ⟨_, .unlock hp, hm _ _ rfl rfl (by simp [hp])⟩
  · exact ⟨_, .close1 hp, hm _ _ rfl rfl (by simp [hp])⟩
  · exact ⟨_, .close2 hp, hm _ _ rfl rfl (by simp [hp])⟩
  · exact ⟨_, .leave hp, hm _ _ rfl rfl (by simp [hp])⟩

theorem can_read {eof : Nat → Bool} {s : State} {i : Nat} (h : Inv s) (hp : s.phase i = .reading)
    (he : ∀ j, s.holds j i .execErr = true → s.child j = .ended ∨ s.child j = .none) : ∃ t, Step eof s t ∧ Must s t := by
  cases hn : s.errno i with
  | true =>
    refine ⟨_, .readErr hp hn, fun j hj => ?_, fun j hj hj' => ?_⟩
    · simp only [set]
      grind
    · simp only [hj] at hj'
      cases hj'
  | false =>
    have : s.parent i .execErr = false := by
      cases hq : s.parent i .execErr with
      | false => rfl
      | true =>
        have := h.errParent i hq
        simp [hp] at this
    refine ⟨_, .readEnd hp hn ⟨this, he⟩, fun j hj => ?_, fun j hj hj' => ?_⟩
    · simp only [set]
      grind
    · simp only [hj] at hj'
      cases hj'

/-! ## C67 -/

/-- **C67.** As long as some call of `execve` has not returned, something happens: threads that launch recipes at the same time do not block each
other for ever, although the child processes inherit file descriptors of each other, provided that recipes end when their output is read, and
that they do not wait for the end of their standard input. -/
theorem C67_no_deadlock {n : Nat} {s : State} (hr : Steps (fun _ => false) n init s) {i : Nat} (ha : (s.phase i).Active) :
    ∃ t, Step (fun _ => false) s t ∧ Must s t := by
  have h := steps_inv hr
  by_cases hs : ∃ j, s.child j = .starting
  · obtain ⟨j, hj⟩ := hs
    refine ⟨_, .exec hj, fun _ hk => hk, fun k hk hk' => ?_⟩
    simp only [set] at hk'
    grind
  · have hs : ∀ j, s.child j ≠ .starting := fun j hj => hs ⟨j, hj⟩
    by_cases ho : ∃ j, (∃ k, s.phase j = .creating k) ∨ s.phase j = .locked ∨ s.phase j = .forked ∨ s.phase j = .closed ∨
        s.phase j = .launched ∨ s.phase j = .halfClosed ∨ s.phase j = .leaving
    · obtain ⟨j, hj⟩ := ho
      exact can_own hj
    · by_cases hrun : ∃ j, s.child j = .running
      · obtain ⟨j, hj⟩ := hrun
        obtain ⟨l₁, k, l₂, he, hk, hfirst⟩ := first_split (P := fun j => s.child j = .running) s.order ((h.order j).2 (by simp [hj])) hj
        have hph : s.phase k = .reading ∨ s.phase k = .waiting := by
          have h1 := h.child k
          have h2 := h.waited k
          cases hp : s.phase k <;> grind
        rcases hph with hp | hp
        · refine can_read h hp fun j' hj' => ?_
          by_cases hn : s.child j' = .none
          · exact .inr hn
          · rcases h.before k j' hj' hn with ⟨_, h' | h'⟩ | ⟨_, h'⟩
            · exact absurd h' (hs _)
            · exact .inl h'
            · have := hfirst j' (h' _ _ he)
              have := hs j'
              cases hc : s.child j' <;> simp_all
        · refine ⟨_, .exit hk (by simp), fun _ hk => hk, fun k' hk1 hk2 => ?_⟩
          simp only [set] at hk2
          grind
      · have hall : ∀ j, s.child j = .ended ∨ s.child j = .none := by
          intro j
          have h1 := hs j
          cases hc : s.child j <;> grind
        have hm : ∀ (t : State) (p : Phase), t.phase = set s.phase i p → t.child = s.child → s.phase i ≠ .idle → Must s t := by
          intro t p h1 h2 h3
          refine ⟨fun j hj => ?_, fun j hj hj' => ?_⟩
          · rw [h1, set]
            grind
          · rw [h2, hj] at hj'
            cases hj'
        have h4 := h.child i
        have h6 := h.outParent i
        have h7 := h.errParent2 i
        cases hp : s.phase i with
        | idle => exact absurd hp ha.1
        | done => exact absurd hp ha.2.1
        | failed => exact absurd hp ha.2.2
        | created =>
          cases hmx : s.mutex with
          | none => exact ⟨_, .lock hp hmx, hm _ _ rfl rfl (by simp [hp])⟩
          | some j =>
            have := (h.mutex j).2 hmx
            exact absurd ⟨j, by grind⟩ ho
        | reading => exact can_read h hp fun j _ => hall j
        | waiting =>
          have : s.child i = .ended := by
            have := hall i
            grind
          exact ⟨_, .waitpid hp this, hm _ _ rfl rfl (by simp [hp])⟩
        | joinStdout => exact ⟨_, .join1 hp ⟨by grind, fun j _ => hall j⟩, hm _ _ rfl rfl (by simp [hp])⟩
        | joinStderr => exact ⟨_, .join2 hp ⟨by grind, fun j _ => hall j⟩, hm _ _ rfl rfl (by simp [hp])⟩
        | creating k => exact absurd ⟨i, .inl ⟨k, hp⟩⟩ ho
        | locked => exact absurd ⟨i, by simp [hp]⟩ ho
        | forked => exact absurd ⟨i, by simp [hp]⟩ ho
        | closed => exact absurd ⟨i, by simp [hp]⟩ ho
        | launched => exact absurd ⟨i, by simp [hp]⟩ ho
        | halfClosed => exact absurd ⟨i, by simp [hp]⟩ ho
        | leaving => exact absurd ⟨i, by simp [hp]⟩ ho

/-- How far a launch has come, in numbers. -/
def rank (s : State) (i : Nat) : Nat :=
  (match s.phase i with
    | .idle => 0
    | .creating .stdin => 1
    | .creating .stdout => 2
    | .creating .stderr => 3
    | .creating .execErr => 4
    | .created => 5
    | .locked => 6
    | .forked => 7
    | .closed => 8
    | .reading => 9
    | .launched => 10
    | .halfClosed => 11
    | .waiting => 12
    | .joinStdout => 13
    | .joinStderr => 14
    | .leaving => 15
    | .done => 16
    | .failed => 16) +
  match s.child i with
    | .none => 0
    | .starting => 0
    | .running => 1
    | .ended => 2

def total (s : State) : Nat → Nat
  | 0 => 0
  | n + 1 => total s n + rank s n

theorem rank_le (s : State) (i : Nat) : rank s i ≤ 18 := by
  unfold rank
  split <;> split <;> omega

theorem total_le (s : State) (n : Nat) : total s n ≤ 18 * n := by
  induction n with
  | zero => simp [total]
  | succ n ih =>
    have := rank_le s n
    simp only [total]
    omega

theorem total_mono {s t : State} (n : Nat) (h : ∀ i, rank s i ≤ rank t i) : total s n ≤ total t n := by
  induction n with
  | zero => simp [total]
  | succ n ih =>
    have := h n
    simp only [total]
    omega

theorem total_lt {s t : State} {n i : Nat} (h : ∀ i, rank s i ≤ rank t i) (hi : i < n) (hlt : rank s i < rank t i) :
    total s n < total t n := by
  induction n with
  | zero => omega
  | succ n ih =>
    have := h n
    have := total_mono n h
    simp only [total]
    by_cases hin : i = n
    · subst hin
      omega
    · have := ih (by omega)
      omega

theorem step_rank {eof : Nat → Bool} {s t : State} (h : Inv s) (hs : Step eof s t) :
    ∃ i, rank s i < rank t i ∧ (∀ j, rank s j ≤ rank t j) ∧ t.phase i ≠ .idle ∧ ∀ j, s.phase j ≠ .idle → t.phase j ≠ .idle := by
  have h4 := h.child
  cases hs with
  | @call i q0 | @pipe1 i q0 | @pipe2 i q0 | @pipe3 i q0 | @pipe4 i q0 | @lock i q0 q1 | @closeErr i q0 | @unlock i q0 | @readErr i q0 q1
  | @readEnd i q0 q1 q2 | @close1 i q0 | @close2 i q0 | @waitpid i q0 q1 | @join1 i q0 q1 | @join2 i q0 q1 | @leave i q0 =>
    refine ⟨i, ?_, fun j => ?_, ?_, fun j hj => ?_⟩
    · simp [rank, set, q0]
    · by_cases hj : j = i
      · subst hj
        simp [rank, set, q0]
      · simp [rank, set, hj]
    · simp [set]
    · simp only [set]
      grind
  | @fork i q0 =>
    have hc : s.child i = .none := by grind
    refine ⟨i, ?_, fun j => ?_, ?_, fun j hj => ?_⟩
    · simp [rank, set, q0, hc]
    · by_cases hj : j = i
      · subst hj
        simp [rank, set, q0, hc]
      · simp [rank, set, hj]
    · simp [set]
    · simp only [set]
      grind
  | @exec i q0 | @execFails i q0 | @exit i q0 q1 =>
    refine ⟨i, ?_, fun j => ?_, ?_, fun j hj => hj⟩
    · simp [rank, set, q0]
    · by_cases hj : j = i
      · subst hj
        simp [rank, set, q0]
      · simp [rank, set, hj]
    · have := h4 i
      show s.phase i ≠ .idle
      grind

/-- **C67.** When only `m` calls are made, at most `18 m` steps are possible, whatever the schedule is. With `C67_no_deadlock`, every call returns. -/
theorem C67_bounded {eof : Nat → Bool} {n m : Nat} {s : State} (hr : Steps eof n init s) (hm : ∀ i, m ≤ i → s.phase i = .idle) : n ≤ 18 * m := by
  have key : n ≤ total s m := by
    generalize hi : init = r at hr
    induction hr with
    | refl => exact Nat.zero_le _
    | @tail n r t u hst hs ih =>
      subst hi
      obtain ⟨i, hlt, hle, hne, hmono⟩ := step_rank (steps_inv hst) hs
      have hi : i < m := by
        rcases Nat.lt_or_ge i m with h | h
        · exact h
        · exact absurd (hm i h) hne
      have h1 := ih (fun j hj => Classical.byContradiction fun hn => hmono j hn (hm j hj)) rfl
      have h2 := total_lt hle hi hlt
      omega
  have := total_le s m
  omega

/-- When nothing more is bound to happen, every call that was made has returned or thrown. -/
theorem C67_returns {n : Nat} {s : State} (hr : Steps (fun _ => false) n init s) (hend : ∀ t, Step (fun _ => false) s t → ¬ Must s t) (i : Nat) :
    s.phase i = .idle ∨ s.phase i = .done ∨ s.phase i = .failed := by
  refine Classical.byContradiction fun hn => ?_
  obtain ⟨t, ht, hm⟩ := C67_no_deadlock hr (i := i) ⟨fun h => hn (.inl h), fun h => hn (.inr (.inl h)), fun h => hn (.inr (.inr h))⟩
  exact hend t ht hm

/-- In the execution that leads to `s`, the recipe of launch `i` was started. -/
def Started (eof : Nat → Bool) (i : Nat) (s : State) : Prop :=
  ∃ m n u v, Steps eof m init u ∧ Step eof u v ∧ u.child i = .starting ∧ v.child i = .running ∧ Steps eof n v s

/-- In the execution that leads to `s`, the recipe of launch `i` could not be started. -/
def Refused (eof : Nat → Bool) (i : Nat) (s : State) : Prop :=
  ∃ m n u v, Steps eof m init u ∧ Step eof u v ∧ u.child i = .starting ∧ v.child i = .ended ∧ Steps eof n v s

theorem Started.tail {eof : Nat → Bool} {i : Nat} {s t : State} (h : Started eof i s) (hs : Step eof s t) : Started eof i t :=
  let ⟨m, n, u, v, h1, h2, h3, h4, h5⟩ := h
  ⟨m, n + 1, u, v, h1, h2, h3, h4, .tail h5 hs⟩

theorem Refused.tail {eof : Nat → Bool} {i : Nat} {s t : State} (h : Refused eof i s) (hs : Step eof s t) : Refused eof i t :=
  let ⟨m, n, u, v, h1, h2, h3, h4, h5⟩ := h
  ⟨m, n + 1, u, v, h1, h2, h3, h4, .tail h5 hs⟩

theorem history {eof : Nat → Bool} {n : Nat} {s : State} (hr : Steps eof n init s) (i : Nat) :
    (s.errno i = true → Refused eof i s) ∧ (s.errno i = false → s.child i = .running ∨ s.child i = .ended → Started eof i s) := by
  generalize hi : init = r at hr
  induction hr with
  | refl =>
    subst hi
    simp [init]
  | @tail n r t u hst hs ih =>
    subst hi
    obtain ⟨ih1, ih2⟩ := ih rfl
    have hinv := steps_inv hst
    have hu := Steps.tail hst hs
    by_cases hch : u.child i = t.child i ∧ u.errno i = t.errno i
    · rw [hch.1, hch.2]
      exact ⟨fun h => (ih1 h).tail hs, fun h h' => (ih2 h h').tail hs⟩
    · have hs' := hs
      cases hs with
      | @fork j q0 =>
        by_cases hj : i = j
        · subst hj
          have h13 := hinv.errno i
          have h4 := hinv.child i
          simp only [set, if_true]
          grind
        · simp [set, hj] at hch
      | @exec j q0 =>
        by_cases hj : i = j
        · subst hj
          have h13 := hinv.errno i
          refine ⟨fun h => ?_, fun _ _ => ⟨_, _, _, _, hst, hs', q0, by simp [set], .refl⟩⟩
          simp only at h
          grind
        · simp [set, hj] at hch
      | @execFails j q0 =>
        by_cases hj : i = j
        · subst hj
          refine ⟨fun h => ⟨_, _, _, _, hst, hs', q0, by simp [set], .refl⟩, fun h => ?_⟩
          simp [set] at h
        · simp [set, hj] at hch
      | @exit j q0 q1 =>
        by_cases hj : i = j
        · subst hj
          have h13 := hinv.errno i
          refine ⟨fun h => ?_, fun h _ => (ih2 h (.inl q0)).tail hs'⟩
          simp only at h
          grind
        · simp [set, hj] at hch
      | _ => exact absurd ⟨rfl, rfl⟩ hch

/-- **C67.** A call returns a status only if the recipe was started and has ended, and throws only if the recipe could not be started. -/
theorem C67_reported {eof : Nat → Bool} {n : Nat} {s : State} (hr : Steps eof n init s) (i : Nat) :
    (s.phase i = .done → Started eof i s ∧ s.child i = .ended) ∧ (s.phase i = .failed → Refused eof i s) := by
  have h := steps_inv hr
  have hh := history hr i
  refine ⟨fun hp => ?_, fun hp => hh.1 (h.failed i hp)⟩
  have h1 := (h.launched i (by simp [hp])).1
  have h2 := h.waited i (by simp [hp])
  exact ⟨hh.2 h1 (.inr h2), h2⟩

/-- **C67.** `fork` and what belongs to it is done by one thread at a time. -/
theorem C67_one_at_a_time {eof : Nat → Bool} {n : Nat} {s : State} (hr : Steps eof n init s) {i j : Nat}
    (hi : s.phase i = .locked ∨ s.phase i = .forked ∨ s.phase i = .closed) (hj : s.phase j = .locked ∨ s.phase j = .forked ∨ s.phase j = .closed) :
    i = j := by
  have h := steps_inv hr
  have h1 := (h.mutex i).1 hi
  have h2 := (h.mutex j).1 hj
  rw [h1] at h2
  exact Option.some.inj h2

/-- **C67**, the provision is needed: a recipe that reads its standard input to the end never ends, and the call never returns a status,
because the write end of the pipe is closed only after the recipe has ended. -/
theorem C67_stdin_never_ends {eof : Nat → Bool} {n : Nat} {s : State} (hr : Steps eof n init s) {i : Nat} (he : eof i = true)
    (hst : s.child i = .running) : ∀ {t m}, Steps eof m s t → t.child i = .running ∧ t.phase i ≠ .done ∧ t.phase i ≠ .failed := by
  intro t m ht
  have hfin : ∀ u k, Steps eof k init u → u.child i = .running → u.phase i ≠ .done ∧ u.phase i ≠ .failed := by
    intro u k hu hc
    have := (steps_inv hu).waited i
    grind
  have key : (∃ k, Steps eof k init t) ∧ t.child i = .running := by
    induction ht with
    | refl => exact ⟨⟨_, hr⟩, hst⟩
    | @tail m s t u hstep hs ih =>
      obtain ⟨⟨k, hk⟩, hc⟩ := ih hr hst
      refine ⟨⟨_, .tail hk hs⟩, ?_⟩
      have hinv := steps_inv hk
      have hf := hfin _ _ hk hc
      cases hs with
      | @fork j q0 =>
        have := hinv.child j
        simp only [set]
        grind
      | @exec j q0 | @execFails j q0 =>
        simp only [set]
        grind
      | @exit j q0 q1 =>
        simp only [set]
        split
        · rename_i hij
          subst hij
          have h1 := (q1 he).1
          have h2 := hinv.inOpen i
          have h3 := hinv.child i
          grind
        · exact hc
      | _ => exact hc
  obtain ⟨⟨k, hk⟩, hc⟩ := key
  exact ⟨hc, hfin _ _ hk hc⟩

/-! ## The hypotheses can be met -/

/-- The recipe of launch 0 is running, and has `exec_err` of launch 1 open; launch 1 has to wait for its end. -/
example (eof : Nat → Bool) : ∃ n s, Steps eof n init s ∧ s.phase 0 = .waiting ∧ s.child 0 = .running ∧ s.phase 1 = .reading ∧
    s.child 1 = .running ∧ s.holds 0 1 .execErr = true := by
  refine ⟨_, _, .tail (.tail (.tail (.tail (.tail (.tail (.tail (.tail (.tail (.tail (.tail (.tail (.tail (.tail (.tail (.tail (.tail (.tail
    (.tail (.tail (.tail (.tail (.tail .refl (.call (i := 0) rfl)) (.pipe1 (i := 0) rfl)) (.pipe2 (i := 0) rfl)) (.pipe3 (i := 0) rfl))
    (.pipe4 (i := 0) rfl)) (.call (i := 1) rfl)) (.pipe1 (i := 1) rfl)) (.pipe2 (i := 1) rfl)) (.pipe3 (i := 1) rfl)) (.pipe4 (i := 1) rfl))
    (.lock (i := 0) rfl rfl)) (.fork (i := 0) rfl)) (.exec (i := 0) rfl)) (.closeErr (i := 0) rfl)) (.unlock (i := 0) rfl))
    (.readEnd (i := 0) rfl rfl ⟨rfl, ?_⟩)) (.close1 (i := 0) rfl)) (.close2 (i := 0) rfl)) (.lock (i := 1) rfl rfl)) (.fork (i := 1) rfl))
    (.closeErr (i := 1) rfl)) (.unlock (i := 1) rfl)) (.exec (i := 1) rfl), rfl, rfl, rfl, rfl, rfl⟩
  intro j hj
  simp [init, set, set2] at hj

/-- A launch that fails. -/
example (eof : Nat → Bool) : ∃ n s, Steps eof n init s ∧ s.phase 0 = .failed := by
  exact ⟨_, _, .tail (.tail (.tail (.tail (.tail (.tail (.tail (.tail (.tail (.tail (.tail .refl (.call (i := 0) rfl)) (.pipe1 (i := 0) rfl))
    (.pipe2 (i := 0) rfl)) (.pipe3 (i := 0) rfl)) (.pipe4 (i := 0) rfl)) (.lock (i := 0) rfl rfl)) (.fork (i := 0) rfl)) (.execFails (i := 0) rfl))
    (.closeErr (i := 0) rfl)) (.unlock (i := 0) rfl)) (.readErr (i := 0) rfl rfl), rfl⟩

end Maike.Exec.Launch
