import Verif.TaskList.Spec

/-!
# `TaskList::process`, one operation at a time (C104)

In `Model.lean`, critical sections are single actions, and condition variables are replaced by their predicates. Here, each lock and each unlock of a mutex, each access to
what it protects, falling asleep, and each notification is an action of its own, threads have identities, and the event and the counter are destroyed when `process` ends.

Parts: core/db/task_list.cpp:59-127 (main thread, closures), core/sched/event.hpp, core/sched/signaling_counter.hpp, core/sched/thread_pool.hpp:110-140 (`addTask`,
`takeLastException`), core/sched/thread_pool.cpp:40-58 (`performTasks`).

Simplifications: the body of a task is one action, as in `Model.lean`; so are `wait(lock, p)`'s evaluation of `p` and what follows immediately with the same mutex held.
The pool is not destroyed (`m_terminate` stays false; its destruction is in `Sched/ThreadPool`).
-/

namespace Maike.TaskList.Threads

/-- The mutexes: `ThreadPool::m_mtx`, `ThreadPool::m_eptr_mtx`, `Event::m_mtx`, `SignalingCounter::m_mtx`. -/
inductive Mtx where
  | pool
  | eptr
  | event
  | counter
deriving DecidableEq, Repr

/-- Program counter of the main thread. -/
inductive MPc where
  /-- `while(!tasks.empty())`, core/db/task_list.cpp:77 -/
  | loop
  /-- in `i->status(*this)`, core/db/task_list.cpp:79 -/
  | reading (rest : List Nat)
  /-- `std::unique_lock{counter}`: `operator++`, core/sched/signaling_counter.hpp:30-36 -/
  | incLock | inc | incNotify | incUnlock
  /-- the end of `addTask`, core/sched/thread_pool.hpp:127-131 -/
  | addLock | add | addNotify | addUnlock
  /-- `waitAndReset`, core/sched/event.hpp:15-20; the initial lock and the one after waking up are the same -/
  | evLock | evTest | evSleep | evReset | evUnlock
  /-- `counter.wait(0)`, core/sched/signaling_counter.hpp:24-28 -/
  | ctLock | ctTest | ctSleep | ctUnlock
  /-- `takeLastException`, core/sched/thread_pool.hpp:135-141 -/
  | epLock | epTake | epUnlock (e : Option Nat)
  /-- `counter` and `e` are destroyed, in reverse order of their declarations (core/db/task_list.cpp:65, 75), when `process` returns or throws -/
  | dropCounter (e : Option Nat) | dropEvent (e : Option Nat)
  | returned (n : Nat) | rethrown (t : Nat)
deriving DecidableEq, Repr

/-- Program counter of a worker. -/
inductive WPc where
  /-- `performTasks`, core/sched/thread_pool.cpp:42-50; the initial lock and the one after waking up are the same -/
  | lock | test | asleep | unlock (t : Nat)
  /-- the body of the task, core/db/task_list.cpp:97-114 -/
  | body (t : Nat)
  /-- the handler in `addTask`, core/sched/thread_pool.hpp:121-125 -/
  | epLock (t : Nat) | epStore (t : Nat) | epUnlock (t : Nat)
  /-- destruction of the closure: `at_exit` calls `e.set()`, core/sched/event.hpp:22-27 -/
  | evLock (t : Nat) | evSet (t : Nat) | evNotify (t : Nat) | evUnlock (t : Nat)
  /-- destruction of the closure: `counter.unlock()`, core/sched/signaling_counter.hpp:38-44 -/
  | ctLock (t : Nat) | ctDec (t : Nat) | ctNotify (t : Nat) | ctUnlock (t : Nat)
deriving DecidableEq, Repr

/-- Threads, locks and data. Thread 0 is the main thread, thread `k + 1` is the worker `k`. -/
structure State where
  mpc : MPc
  wpcs : List WPc
  owner : Mtx → Option Nat
  /-- `m_tasks` and the iterator, as in `Model.lean` -/
  pre : List Nat
  suf : List Nat
  num : Nat
  results : Nat → TaskResult
  /-- `Event::m_status` -/
  status : Bool
  /-- `SignalingCounter::m_value` -/
  value : Nat
  /-- `ThreadPool::m_tasks` -/
  queue : List Nat
  eptr : Option Nat
  hist : List Ev

def setOwner (f : Mtx → Option Nat) (m : Mtx) (o : Option Nat) : Mtx → Option Nat := fun x => if x = m then o else f x

/-- Lock a mutex, unless some thread has it. -/
def acquire (s : State) (m : Mtx) (tid : Nat) : Option State :=
  match s.owner m with
  | none => some { s with owner := setOwner s.owner m (some tid) }
  | some _ => none

def release (s : State) (m : Mtx) : State := { s with owner := setOwner s.owner m none }

/-- `wrap_iterator`, core/db/task_list.cpp:67-73. -/
def wrap (s : State) : State := { s with mpc := if s.suf = [] then .evLock else .loop }

/-- `notify_one` for the condition variable of the pool: one of the sleeping threads wakes up, if there is any. -/
def notifyPool (s : State) (wake : Nat) : Option State :=
  if s.wpcs[wake]? = some .asleep then some { s with wpcs := s.wpcs.set wake .lock }
  else if .asleep ∈ s.wpcs then none
  else some s

/-- One step of the main thread. `wake`: which thread is woken up, if one of several is. -/
def stepMain (j : Job) (wake : Nat) (s : State) : Option State :=
  match s.mpc with
  | .loop =>
    match s.suf with
    | [] => if s.pre = [] then some { s with mpc := .ctLock } else none
    | t :: _ => some { s with mpc := .reading (j.deps t) }
  | .reading [] => some { s with mpc := .incLock }
  | .reading (d :: ds) =>
    match s.results d with
    | .success => some { s with mpc := .reading ds }
    | .pending =>
      match s.suf with
      | [] => none
      | t :: suf => some (wrap { s with pre := s.pre ++ [t], suf := suf })
    | .failure => some { s with pre := [], suf := [], mpc := .loop }
  | .incLock => (acquire s .counter 0).map fun s => { s with mpc := .inc }
  | .inc => some { s with value := s.value + 1, mpc := .incNotify }
  -- nobody but the main thread waits for the counter
  | .incNotify => some { s with mpc := .incUnlock }
  | .incUnlock => some { release s .counter with mpc := .addLock }
  | .addLock => (acquire s .pool 0).map fun s => { s with mpc := .add }
  | .add =>
    match s.suf with
    | [] => none
    | t :: suf => some { s with queue := s.queue ++ [t], suf := suf, num := s.num + 1, hist := s.hist ++ [.submit t], mpc := .addNotify }
  | .addNotify => (notifyPool s wake).map fun s => { s with mpc := .addUnlock }
  | .addUnlock => some (wrap (release s .pool))
  | .evLock => (acquire s .event 0).map fun s => { s with mpc := .evTest }
  | .evTest => if s.status then some { s with mpc := .evReset } else some { release s .event with mpc := .evSleep }
  | .evSleep => none
  | .evReset => some { s with status := false, suf := s.pre ++ s.suf, pre := [], mpc := .evUnlock }
  | .evUnlock => some { release s .event with mpc := .loop }
  | .ctLock => (acquire s .counter 0).map fun s => { s with mpc := .ctTest }
  | .ctTest => if s.value = 0 then some { s with mpc := .ctUnlock } else some { release s .counter with mpc := .ctSleep }
  | .ctSleep => none
  | .ctUnlock => some { release s .counter with mpc := .epLock }
  | .epLock => (acquire s .eptr 0).map fun s => { s with mpc := .epTake }
  | .epTake => some { s with eptr := none, mpc := .epUnlock s.eptr }
  | .epUnlock e => some { release s .eptr with mpc := .dropCounter e }
  | .dropCounter e => some { s with mpc := .dropEvent e }
  | .dropEvent (some t) => some { s with mpc := .rethrown t }
  | .dropEvent none => some { s with mpc := .returned s.num }
  | .returned _ => none
  | .rethrown _ => none

/-- `notify_one` for the condition variable of the event: only the main thread waits for it. -/
def notifyEvent (s : State) : State := if s.mpc = .evSleep then { s with mpc := .evLock } else s

/-- `notify_one` for the condition variable of the counter. -/
def notifyCounter (s : State) : State := if s.mpc = .ctSleep then { s with mpc := .ctLock } else s

def State.at (s : State) (k : Nat) (p : WPc) : State := { s with wpcs := s.wpcs.set k p }

/-- One step of the worker `k`. `o`: how the body of the task ends. -/
def stepWork (k : Nat) (o : Outcome) (s : State) : Option State :=
  match s.wpcs[k]? with
  | none => none
  | some .lock => (acquire s .pool (k + 1)).map fun s => s.at k .test
  | some .test =>
    match s.queue with
    | [] => some ((release s .pool).at k .asleep)
    | t :: q => some ({ s with queue := q, hist := s.hist ++ [Ev.start t] }.at k (.unlock t))
  | some .asleep => none
  | some (.unlock t) => some ((release s .pool).at k (.body t))
  | some (.body t) =>
    match o with
    | .success => some ({ s with results := setResult s.results t .success, hist := s.hist ++ [Ev.finish t .success] }.at k (.evLock t))
    | .failure => some ({ s with results := setResult s.results t .failure, hist := s.hist ++ [Ev.finish t .failure] }.at k (.epLock t))
    | .threw => some ({ s with hist := s.hist ++ [Ev.finish t .threw] }.at k (.epLock t))
  | some (.epLock t) => (acquire s .eptr (k + 1)).map fun s => s.at k (.epStore t)
  | some (.epStore t) => some ({ s with eptr := match s.eptr with | none => some t | some x => some x }.at k (.epUnlock t))
  | some (.epUnlock t) => some ((release s .eptr).at k (.evLock t))
  | some (.evLock t) => (acquire s .event (k + 1)).map fun s => s.at k (.evSet t)
  | some (.evSet t) => some ({ s with status := true }.at k (.evNotify t))
  | some (.evNotify t) => some ((notifyEvent s).at k (.evUnlock t))
  | some (.evUnlock t) => some ((release s .event).at k (.ctLock t))
  | some (.ctLock t) => (acquire s .counter (k + 1)).map fun s => s.at k (.ctDec t)
  | some (.ctDec t) => some ({ s with value := s.value - 1 }.at k (.ctNotify t))
  | some (.ctNotify t) => some ((notifyCounter s).at k (.ctUnlock t))
  | some (.ctUnlock _) => some ((release s .counter).at k .lock)

/-- A thread that sleeps wakes up without having been notified. -/
def stepSpurious (tid : Nat) (s : State) : Option State :=
  match tid with
  | 0 =>
    match s.mpc with
    | .evSleep => some { s with mpc := .evLock }
    | .ctSleep => some { s with mpc := .ctLock }
    | _ => none
  | k + 1 => if s.wpcs[k]? = some .asleep then some (s.at k .lock) else none

inductive Act where
  | main (wake : Nat)
  | work (k : Nat) (o : Outcome)
  | spurious (tid : Nat)
deriving DecidableEq, Repr

def Act.isSpurious : Act → Bool
  | .spurious _ => true
  | _ => false

def step (j : Job) (a : Act) (s : State) : Option State :=
  match a with
  | .main wake => stepMain j wake s
  | .work k o => stepWork k o s
  | .spurious tid => stepSpurious tid s

/-- Perform a schedule. -/
def exec (j : Job) : List Act → State → Option State
  | [], s => some s
  | a :: as, s =>
    match step j a s with
    | some s' => exec j as s'
    | none => none

/-- A worker that has nothing to do. -/
def WPc.Idle (p : WPc) : Prop := p = .lock ∨ p = .test ∨ p = .asleep

/-- The state when `process` is called (core/db/task_list.cpp:77): the workers of the pool are idle; one of them may have the mutex of the pool. -/
structure Start (j : Job) (s : State) : Prop where
  mpc : s.mpc = .loop
  workers : s.wpcs.length = j.workers
  idle : ∀ p ∈ s.wpcs, p.Idle
  pool : ∀ tid, s.owner .pool = some tid ↔ ∃ k, tid = k + 1 ∧ s.wpcs[k]? = some .test
  free : ∀ m, m ≠ .pool → s.owner m = none
  pre : s.pre = []
  suf : s.suf = j.tasks
  num : s.num = 0
  results : s.results = fun t => if t ∈ j.tasks then .pending else .success
  status : s.status = false
  value : s.value = 0
  queue : s.queue = []
  eptr : s.eptr = none
  hist : s.hist = []

/-- `s` can be reached by some schedule. -/
def Reachable (j : Job) (s : State) : Prop := ∃ s₀ as, Start j s₀ ∧ exec j as s₀ = some s

/-! ## Specification -/

/-- What a thread is about to do. -/
inductive Op where
  | acquire (m : Mtx)
  /-- read or write what the mutex protects, or give the mutex back -/
  | use (m : Mtx)
  /-- notify the condition variable that belongs to the mutex -/
  | notify (m : Mtx)
  | destroy (m : Mtx)
  /-- read or write an (atomic) result, or the compilation log -/
  | cell
  /-- nothing that is shared -/
  | own
deriving DecidableEq, Repr

def MPc.op : MPc → Op
  | .loop => .own
  | .reading _ => .cell
  | .incLock => .acquire .counter
  | .inc => .use .counter
  | .incNotify => .notify .counter
  | .incUnlock => .use .counter
  | .addLock => .acquire .pool
  | .add => .use .pool
  | .addNotify => .notify .pool
  | .addUnlock => .use .pool
  | .evLock => .acquire .event
  | .evTest => .use .event
  | .evSleep => .own
  | .evReset => .use .event
  | .evUnlock => .use .event
  | .ctLock => .acquire .counter
  | .ctTest => .use .counter
  | .ctSleep => .own
  | .ctUnlock => .use .counter
  | .epLock => .acquire .eptr
  | .epTake => .use .eptr
  | .epUnlock _ => .use .eptr
  | .dropCounter _ => .destroy .counter
  | .dropEvent _ => .destroy .event
  | .returned _ => .own
  | .rethrown _ => .own

def WPc.op : WPc → Op
  | .lock => .acquire .pool
  | .test => .use .pool
  | .asleep => .own
  | .unlock _ => .use .pool
  | .body _ => .cell
  | .epLock _ => .acquire .eptr
  | .epStore _ => .use .eptr
  | .epUnlock _ => .use .eptr
  | .evLock _ => .acquire .event
  | .evSet _ => .use .event
  | .evNotify _ => .notify .event
  | .evUnlock _ => .use .event
  | .ctLock _ => .acquire .counter
  | .ctDec _ => .use .counter
  | .ctNotify _ => .notify .counter
  | .ctUnlock _ => .use .counter

/-- `process` has returned or thrown. -/
def State.Ended (s : State) : Prop := (∃ n, s.mpc = .returned n) ∨ (∃ t, s.mpc = .rethrown t)

/-- The object that the mutex belongs to exists: the counter and the event are local variables of `process`. -/
def State.Alive (s : State) : Mtx → Prop
  | .pool => True
  | .eptr => True
  | .counter => ¬ s.Ended ∧ ∀ e, s.mpc ≠ .dropEvent e
  | .event => ¬ s.Ended

/-- The operation is well-defined: nothing is used that has been destroyed, no mutex is locked twice by a thread, nothing is used or given back
without having locked its mutex, no mutex is destroyed that is locked, and results are not used after `process` has ended. -/
def Legal (s : State) (tid : Nat) : Op → Prop
  | .acquire m => s.Alive m ∧ s.owner m ≠ some tid
  | .use m => s.Alive m ∧ s.owner m = some tid
  | .notify m => s.Alive m
  | .destroy m => s.Alive m ∧ s.owner m = none
  | .cell => ¬ s.Ended
  | .own => True

end Maike.TaskList.Threads
