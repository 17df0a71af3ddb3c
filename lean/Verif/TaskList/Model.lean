/-!
# Model of `TaskList::process` (core/db/task_list.cpp:59-127)

The main thread, the worker threads and everything they share are one transition system.
`step j a s` performs the action `a`, or is `none` when the acting thread is blocked
(waiting for a condition variable or for work) or has ended. Schedules are arbitrary
sequences of actions.

Granularity: every access to shared data (a result cell, the event, the counter, the task queue,
the stored exception) is an action of its own. Accesses which are protected by the same
mutex are atomic, because they are executed with the mutex held. Condition variables are
modelled by their predicates: `wait(lock, p)` is enabled when `p` holds. This
over-approximates which wake-ups happen; that no wake-up is lost by the code is
the subject of `Sched/CondVar`. `Threads.lean` has each of these operations as an action of its own;
`C104_refines` proves that nothing is missed here.

Simplifications: idle threads are not distinguished from each other (at most `workers` tasks are
running at any time); the body of a task (`runIfNecessary` plus logging) is one action
with an arbitrary outcome, which excludes bodies that do not terminate.
-/

namespace Maike.TaskList

/-- `TaskResult`, core/db/task_result.hpp:6-11. -/
inductive TaskResult where
  | pending
  | success
  | failure
deriving DecidableEq, Repr

/-- How the body of a task ends, core/db/task_list.cpp:97-114: a result is recorded as a success
(line 114), it is recorded as a failure followed by a throw (lines 102-108), or something throws
before any result is recorded (e.g. `invoker.execve` in line 98). -/
inductive Outcome where
  | success
  | failure
  | threw
deriving DecidableEq, Repr

/-- What `process` works on: the tasks in the order of `m_tasks` (identified by the id of their
node), the references of `buildDeps` followed by `m_use_deps` for each of them (the order in
which `Task::status` reads them, core/db/task.cpp:51-61), and the number of threads. -/
structure Job where
  tasks : List Nat
  deps : Nat → List Nat
  workers : Nat

/-- Where a worker is in the execution of a task. -/
inductive Stage where
  /-- the task has been taken from the queue; its body is being executed
  (core/sched/thread_pool.cpp:48-51, core/db/task_list.cpp:97-114) -/
  | body
  /-- the body threw; the handler in `addTask` is about to store the exception
  (core/sched/thread_pool.hpp:121-125) -/
  | throwing
  /-- the closure is being destroyed; `at_exit` is about to set the event
  (core/db/task_list.cpp:96) -/
  | exiting
  /-- the closure is being destroyed; the lock on the counter is about to be released
  (core/db/task_list.cpp:94). Members of a closure are destroyed in reverse order of
  declaration by GCC and Clang. -/
  | unlocking
deriving DecidableEq, Repr

/-- Program counter of the main thread. -/
inductive Pc where
  /-- `while(!tasks.empty())`, line 77 -/
  | loop
  /-- inside of `i->status(*this)`, line 79: the dependencies that remain to be read -/
  | reading (rest : List Nat)
  /-- blocked in `e.waitAndReset()`, line 71 -/
  | waiting
  /-- `counter.wait(0)`, line 122 -/
  | draining
  /-- `process` has returned the number of submitted tasks, line 126 -/
  | returned (n : Nat)
  /-- `process` has rethrown the exception of a task, line 124 -/
  | rethrown (t : Nat)
deriving DecidableEq, Repr

/-- Externally visible events, for stating properties. -/
inductive Ev where
  /-- handed to the thread pool -/
  | submit (t : Nat)
  /-- a worker begins executing the body -/
  | start (t : Nat)
  /-- the body ends, after having recorded the result, if any -/
  | finish (t : Nat) (o : Outcome)
deriving DecidableEq, Repr

/-- The shared state. `m_tasks` is `pre ++ suf`, and the iterator `i` points at the first element
of `suf` (at the end if `suf` is empty). -/
structure State where
  pc : Pc
  pre : List Nat
  suf : List Nat
  results : Nat → TaskResult
  event : Bool
  counter : Nat
  num : Nat
  queue : List Nat
  running : List (Nat × Stage)
  eptr : Option Nat
  hist : List Ev

/-- State at core/db/task_list.cpp:77 on entry. Results as left by the constructors
(core/db/task_list.cpp:21-29 and 46-54): `Pending` for each task, `Success` for nodes without target. -/
def init (j : Job) : State where
  pc := .loop
  pre := []
  suf := j.tasks
  results := fun t => if t ∈ j.tasks then .pending else .success
  event := false
  counter := 0
  num := 0
  queue := []
  running := []
  eptr := none
  hist := []

/-- Which thread moves, and for the end of a task body, how it ends. -/
inductive Act where
  | main
  /-- an idle worker takes a task from the queue -/
  | take
  /-- the `k`th running task proceeds -/
  | work (k : Nat) (o : Outcome)
deriving DecidableEq, Repr

def setResult (f : Nat → TaskResult) (t : Nat) (r : TaskResult) : Nat → TaskResult :=
  fun u => if u = t then r else f u

/-- `wrap_iterator`, core/db/task_list.cpp:67-73: at the end of the list wait for the event.
(`i = begin` is performed after the wait here; `i` is not used in between.) -/
def wrap (s : State) : State :=
  if s.suf = [] then { s with pc := .waiting } else { s with pc := .loop }

/-- One step of the main thread, core/db/task_list.cpp:77-126. -/
def stepMain (j : Job) (s : State) : Option State :=
  match s.pc with
  | .loop =>
    match s.suf with
    | [] => if s.pre = [] then some { s with pc := .draining } else none
    | t :: _ => some { s with pc := .reading (j.deps t) }
  | .reading [] =>
    -- `TaskResult::Success`, lines 88-118. The lock on the counter and the insertion in the
    -- queue are one action: the former is not visible to anyone but the main thread.
    match s.suf with
    | [] => none
    | t :: suf =>
      some (wrap { s with
        num := s.num + 1, counter := s.counter + 1, queue := s.queue ++ [t], suf := suf
        hist := s.hist ++ [.submit t] })
  | .reading (d :: ds) =>
    match s.results d with
    | .success => some { s with pc := .reading ds }
    | .pending =>
      -- lines 81-84
      match s.suf with
      | [] => none
      | t :: suf => some (wrap { s with pre := s.pre ++ [t], suf := suf })
    | .failure => some { s with pre := [], suf := [], pc := .loop } -- line 86
  | .waiting =>
    -- core/sched/event.hpp:15-20, and line 70
    if s.event then some { s with event := false, suf := s.pre ++ s.suf, pre := [], pc := .loop }
    else none
  | .draining =>
    if s.counter = 0 then
      match s.eptr with
      | some t => some { s with eptr := none, pc := .rethrown t }
      | none => some { s with pc := .returned s.num }
    else none
  | .returned _ => none
  | .rethrown _ => none

/-- A worker takes the first task of the queue, core/sched/thread_pool.cpp:42-50. -/
def stepTake (j : Job) (s : State) : Option State :=
  if s.running.length < j.workers then
    match s.queue with
    | [] => none
    | t :: q => some { s with queue := q, running := s.running ++ [(t, .body)],
                              hist := s.hist ++ [.start t] }
  else none

/-- A worker proceeds with the task that it is running, core/db/task_list.cpp:97-115 and
core/sched/thread_pool.hpp:115-126. -/
def stepWork (k : Nat) (o : Outcome) (s : State) : Option State :=
  match s.running[k]? with
  | none => none
  | some (t, .body) =>
    match o with
    | .success => some { s with
        results := setResult s.results t .success, running := s.running.set k (t, .exiting)
        hist := s.hist ++ [.finish t .success] }
    | .failure => some { s with
        results := setResult s.results t .failure, running := s.running.set k (t, .throwing)
        hist := s.hist ++ [.finish t .failure] }
    | .threw => some { s with
        running := s.running.set k (t, .throwing)
        hist := s.hist ++ [.finish t .threw] }
  | some (t, .throwing) => some { s with
      eptr := match s.eptr with
        | none => some t
        | some x => some x
      running := s.running.set k (t, .exiting) }
  | some (t, .exiting) => some { s with event := true, running := s.running.set k (t, .unlocking) }
  | some (_, .unlocking) => some { s with counter := s.counter - 1, running := s.running.eraseIdx k }

/-- One action of the system; `none` if the thread in question is blocked. -/
def step (j : Job) (a : Act) (s : State) : Option State :=
  match a with
  | .main => stepMain j s
  | .take => stepTake j s
  | .work k o => stepWork k o s

/-- Perform a schedule. -/
def exec (j : Job) : List Act → State → Option State
  | [], s => some s
  | a :: as, s =>
    match step j a s with
    | some s' => exec j as s'
    | none => none

end Maike.TaskList
