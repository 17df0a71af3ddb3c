import Verif.Tree.ScanTheorems

/-!
# The directory scanner, one operation at a time (C105)

In `Scanner.lean`, critical sections are single steps, all tasks run at the same time, and `takeResult` is a function of the state. Here, a fixed number of workers takes
tasks from the queue of the pool; each lock and each unlock of a mutex, each access to what it protects, falling asleep, and each notification is an action of its own; and
the scanner is destroyed when the scan has ended.

Parts: core/source_tree_loader/main.hpp:17-27 (`load`), core/source_tree_loader/directory_scanner.cpp:9-26 and 37-94, core/source_tree_loader/directory_scanner.hpp:74-79,
core/sched/signaling_counter.hpp, core/sched/thread_pool.hpp:110-133 (`addTask`), core/sched/thread_pool.cpp:40-58 (`performTasks`).

Simplifications: `load` does not throw anything but `std::exception`, and memory does not run out, so that the handler in `addTask` is not reached. A condition of
`wait(lock, p)` is evaluated in one action with what follows immediately with the same mutex held. `std::shared_mutex` lets a reader in whenever there is no writer. `std::end(m_source_files)` in
line 58 is evaluated without the mutex; here it is not an access to the map, since in the usual implementations it is the address of a part of the map. The pool is not
destroyed (its destruction is in `Sched/ThreadPool`).
-/

namespace Maike.Tree.Threads

open Fs Paths
open Maike.Db.Map (insertNew)

/-- The mutexes: `ThreadPool::m_mtx`, `SignalingCounter::m_mtx`, `m_source_files_mtx`, `m_errlog_mtx`. -/
inductive Mtx where
  | pool
  | counter
  | files
  | errlog
deriving DecidableEq, Repr

/-- Who adds a task: the main thread, for the start directory, or a task, for the entry `n` of the directory `p`; names that remain, and how the iteration ends. -/
inductive Adder where
  | main
  | task (p : Path) (n : Str) (rest : List Str) (err : Option Str)
deriving DecidableEq

/-- The path of the new task: core/source_tree_loader/directory_scanner.cpp:17 and 78. -/
def Adder.path {I : Type} (w : World I) : Adder → Path
  | .main => w.root
  | .task p n _ _ => p.normal / ⟨false, [n], false⟩

/-- Program counter of a thread. -/
inductive Pc (I : Type) where
  /-- `std::unique_lock{m_counter}`: `operator++`, core/sched/signaling_counter.hpp:30-36 -/
  | incLock (k : Adder) | inc (k : Adder) | incNotify (k : Adder) | incUnlock (k : Adder)
  /-- the end of `addTask`, core/sched/thread_pool.hpp:127-131 -/
  | addLock (k : Adder) | add (k : Adder) | addNotify (k : Adder) | addUnlock (k : Adder)
  /-- `performTasks`, core/sched/thread_pool.cpp:42-50; the initial lock and the one after waking up are the same -/
  | lock | test | asleep | unlock (p : Path)
  /-- core/source_tree_loader/directory_scanner.cpp:44-52 -/
  | filter (p : Path)
  /-- core/source_tree_loader/directory_scanner.cpp:54-58 -/
  | findLock (p : Path) | find (p : Path) | findUnlock (p : Path) (found : Bool)
  /-- core/source_tree_loader/directory_scanner.cpp:60 -/
  | load (p : Path)
  /-- core/source_tree_loader/directory_scanner.cpp:62-69 -/
  | insLock (p : Path) (i : I) | ins (p : Path) (i : I) | insUnlock (p : Path) (inserted : Bool)
  /-- core/source_tree_loader/directory_scanner.cpp:71-73: `is_directory`, and the iterator -/
  | dirTest (p : Path)
  /-- core/source_tree_loader/directory_scanner.cpp:74-82: the loop -/
  | spawn (p : Path) (rest : List Str) (err : Option Str)
  /-- core/source_tree_loader/directory_scanner.cpp:85-94 -/
  | errLock (p : Path) (m : Str) | errPush (p : Path) (m : Str) | errUnlock (p : Path)
  /-- the parameter `counter` is destroyed: `operator--`, core/sched/signaling_counter.hpp:38-44 -/
  | ctLock (p : Path) | ctDec (p : Path) | ctNotify | ctUnlock
  /-- `m_counter.wait(0)`, core/sched/signaling_counter.hpp:24-28 -/
  | wLock | wTest | wSleep | wUnlock
  /-- core/source_tree_loader/directory_scanner.hpp:77: `m_errlog.empty()` -/
  | readLog
  /-- core/source_tree_loader/directory_scanner.hpp:77: `throw ScanException{std::move(m_errlog)}` -/
  | takeLog
  /-- core/source_tree_loader/directory_scanner.hpp:78: `return std::move(m_source_files)` -/
  | takeFiles
  /-- the temporary in core/source_tree_loader/main.hpp:23-26 is destroyed -/
  | drop (r : Except Str (List (Path × I)))
  | finished (r : Except Str (List (Path × I)))

/-- Threads, locks and data. Thread 0 is the main thread; the others are the workers. -/
structure State (I : Type) where
  pcs : List (Pc I)
  owner : Mtx → Option Nat
  /-- the threads that share `m_source_files_mtx` -/
  readers : List Nat
  /-- `ThreadPool::m_tasks` -/
  queue : List Path
  /-- `SignalingCounter::m_value` -/
  value : Nat
  files : List (Path × I)
  errlog : List Str
  /-- whether the scanner exists -/
  alive : Bool
  /-- ghost: the paths for which `load` was called, latest first -/
  loads : List Path

variable {I : Type}

def setOwner (f : Mtx → Option Nat) (m : Mtx) (o : Option Nat) : Mtx → Option Nat := fun x => if x = m then o else f x

def State.at (s : State I) (tid : Nat) (pc : Pc I) : State I := { s with pcs := s.pcs.set tid pc }

/-- Lock a mutex (`lock_guard`, `unique_lock`) and go on, unless some thread has it. -/
def acquire (s : State I) (m : Mtx) (tid : Nat) (pc : Pc I) : Option (State I) :=
  match s.owner m with
  | none => if m = .files ∧ s.readers ≠ [] then none else some ({ s with owner := setOwner s.owner m (some tid) }.at tid pc)
  | some _ => none

def release (s : State I) (m : Mtx) (tid : Nat) (pc : Pc I) : State I := { s with owner := setOwner s.owner m none }.at tid pc

/-- Lock `m_source_files_mtx` shared (`shared_lock`) and go on, unless some thread has it exclusively. -/
def acquireShared (s : State I) (tid : Nat) (pc : Pc I) : Option (State I) :=
  match s.owner .files with
  | none => some ({ s with readers := tid :: s.readers }.at tid pc)
  | some _ => none

def releaseShared (s : State I) (tid : Nat) (pc : Pc I) : State I := { s with readers := s.readers.filter (· ≠ tid) }.at tid pc

def Pc.isAsleep : Pc I → Bool
  | .asleep => true
  | _ => false

/-- `notify_one` for the condition variable of the pool: one of the sleeping workers wakes up, if there is any. -/
def notifyPool (s : State I) (wake : Nat) : Option (State I) :=
  match s.pcs[wake]? with
  | some .asleep => some (s.at wake .lock)
  | _ => if s.pcs.any Pc.isAsleep then none else some s

/-- `notify_one` for the condition variable of the counter: only the main thread waits for it. -/
def notifyMain (s : State I) : State I :=
  match (s.pcs[0]? : Option (Pc I)) with
  | some .wSleep => s.at 0 .wLock
  | _ => s

/-- What follows when a task has been added: core/source_tree_loader/directory_scanner.cpp:25 and `takeResult`, or the next entry. -/
def Adder.next : Adder → Pc I
  | .main => .wLock
  | .task p _ rest err => .spawn p rest err

/-- One action of a thread. `wake`: which worker is woken up, if one of several is. -/
def run (w : World I) (tid wake : Nat) (s : State I) : Option (State I) :=
  match s.pcs[tid]? with
  | none => none
  | some pc =>
    match pc with
    | .incLock k => acquire s .counter tid (.inc k)
    | .inc k => some ({ s with value := s.value + 1 }.at tid (.incNotify k))
    | .incNotify k => some ((notifyMain s).at tid (.incUnlock k))
    | .incUnlock k => some (release s .counter tid (.addLock k))
    | .addLock k => acquire s .pool tid (.add k)
    | .add k => some ({ s with queue := s.queue ++ [k.path w] }.at tid (.addNotify k))
    | .addNotify k => (notifyPool s wake).map (·.at tid (.addUnlock k))
    | .addUnlock k => some (release s .pool tid k.next)
    | .lock => acquire s .pool tid .test
    | .test =>
      match s.queue with
      | [] => some (release s .pool tid .asleep)
      | p :: q => some ({ s with queue := q }.at tid (.unlock p))
    | .asleep => none
    | .unlock p => some (release s .pool tid (.filter p))
    | .filter p =>
      match w.leftOut p with
      | .error m => some (s.at tid (.errLock p m))
      | .ok true => some (s.at tid (.ctLock p))
      | .ok false => some (s.at tid (.findLock p))
    | .findLock p => acquireShared s tid (.find p)
    | .find p => some (s.at tid (.findUnlock p (Db.Map.lookup p.normal s.files).isSome))
    | .findUnlock p found => some (releaseShared s tid (if found then .ctLock p else .load p))
    | .load p =>
      match w.load p with
      | .error m => some ({ s with loads := p :: s.loads }.at tid (.errLock p m))
      | .ok i => some ({ s with loads := p :: s.loads }.at tid (.insLock p i))
    | .insLock p i => acquire s .files tid (.ins p i)
    | .ins p i =>
      match Db.Map.lookup p.normal s.files with
      | some _ => some (s.at tid (.insUnlock p false))
      | none => some ({ s with files := insertNew p.normal i s.files }.at tid (.insUnlock p true))
    | .insUnlock p inserted => some (release s .files tid (if inserted then .dirTest p else .ctLock p))
    | .dirTest p =>
      match w.isDir p.normal with
      | .error m => some (s.at tid (.errLock p m))
      | .ok false => some (s.at tid (.ctLock p))
      | .ok true => some (s.at tid (.spawn p (w.names p.normal).1 (w.names p.normal).2))
    | .spawn p (n :: rest) err => some (s.at tid (.incLock (.task p n rest err)))
    | .spawn p [] none => some (s.at tid (.ctLock p))
    | .spawn p [] (some m) => some (s.at tid (.errLock p m))
    | .errLock p m => acquire s .errlog tid (.errPush p m)
    | .errPush p m => some ({ s with errlog := m :: s.errlog }.at tid (.errUnlock p))
    | .errUnlock p => some (release s .errlog tid (.ctLock p))
    | .ctLock p => acquire s .counter tid (.ctDec p)
    | .ctDec _ => some ({ s with value := s.value - 1 }.at tid .ctNotify)
    | .ctNotify => some ((notifyMain s).at tid .ctUnlock)
    | .ctUnlock => some (release s .counter tid .lock)
    | .wLock => acquire s .counter tid .wTest
    | .wTest => if s.value = 0 then some (s.at tid .wUnlock) else some (release s .counter tid .wSleep)
    | .wSleep => none
    | .wUnlock => some (release s .counter tid .readLog)
    | .readLog => some (s.at tid (if s.errlog = [] then .takeFiles else .takeLog))
    | .takeLog => some ({ s with errlog := [] }.at tid (.drop (.error (scanException s.errlog))))
    | .takeFiles => some ({ s with files := [] }.at tid (.drop (.ok s.files)))
    | .drop r => some ({ s with alive := false }.at tid (.finished r))
    | .finished _ => none

/-- A thread that sleeps wakes up without having been notified. -/
def wakeUp (tid : Nat) (s : State I) : Option (State I) :=
  match s.pcs[tid]? with
  | some .asleep => some (s.at tid .lock)
  | some .wSleep => some (s.at tid .wLock)
  | _ => none

inductive Act where
  | run (tid wake : Nat)
  | spurious (tid : Nat)
deriving DecidableEq, Repr

def Act.isSpurious : Act → Bool
  | .spurious _ => true
  | _ => false

def step (w : World I) (a : Act) (s : State I) : Option (State I) :=
  match a with
  | .run tid wake => run w tid wake s
  | .spurious tid => wakeUp tid s

/-- Perform a schedule. -/
def exec (w : World I) : List Act → State I → Option (State I)
  | [], s => some s
  | a :: as, s =>
    match step w a s with
    | some s' => exec w as s'
    | none => none

/-- A worker that has nothing to do. -/
def Pc.Idle (pc : Pc I) : Prop := pc = .lock ∨ pc = .test ∨ pc = .asleep

/-- The state when `m_root` has been set (core/source_tree_loader/directory_scanner.cpp:13): the workers of the pool are idle; one of them may have the mutex of the pool. -/
structure Start (n : Nat) (s : State I) : Prop where
  threads : s.pcs.length = n + 1
  main : s.pcs[0]? = some (.incLock .main)
  idle : ∀ tid pc, s.pcs[tid + 1]? = some pc → pc.Idle
  pool : ∀ tid, s.owner .pool = some tid ↔ s.pcs[tid]? = some .test
  free : ∀ m, m ≠ .pool → s.owner m = none
  readers : s.readers = []
  queue : s.queue = []
  value : s.value = 0
  files : s.files = []
  errlog : s.errlog = []
  alive : s.alive = true
  loads : s.loads = []

/-- `s` can be reached by some schedule, with `n` workers. -/
def Reachable (w : World I) (n : Nat) (s : State I) : Prop := ∃ s₀ as, Start n s₀ ∧ exec w as s₀ = some s

/-- The scan has ended like this. -/
def State.Ended (s : State I) (r : Except Str (List (Path × I))) : Prop := s.pcs[0]? = some (.finished r)

/-! ## Specification -/

/-- What is shared by threads: the queue of the pool, and the members of the scanner; `setup` are those that do not change. -/
inductive Datum where
  | queue
  | value
  | files
  | errlog
  | setup
deriving DecidableEq, Repr

/-- What a thread is about to do. -/
inductive Op where
  | acquire (m : Mtx)
  | acquireShared
  | release (m : Mtx)
  | releaseShared
  /-- notify the condition variable of the pool, or that of the counter -/
  | notifyPool
  | notifyCounter
  | read (d : Datum)
  | write (d : Datum)
  /-- destroy the scanner -/
  | destroy
  /-- nothing that is shared -/
  | own
deriving DecidableEq, Repr

def Pc.op : Pc I → Op
  | .incLock _ => .acquire .counter
  | .inc _ => .write .value
  | .incNotify _ => .notifyCounter
  | .incUnlock _ => .release .counter
  | .addLock _ => .acquire .pool
  | .add _ => .write .queue
  | .addNotify _ => .notifyPool
  | .addUnlock _ => .release .pool
  | .lock => .acquire .pool
  | .test => .write .queue
  | .asleep => .own
  | .unlock _ => .release .pool
  | .filter _ => .read .setup
  | .findLock _ => .acquireShared
  | .find _ => .read .files
  | .findUnlock _ _ => .releaseShared
  | .load _ => .read .setup
  | .insLock _ _ => .acquire .files
  | .ins _ _ => .write .files
  | .insUnlock _ _ => .release .files
  -- the key in the map, which is not changed any more
  | .dirTest _ => .read .setup
  | .spawn _ _ _ => .read .setup
  | .errLock _ _ => .acquire .errlog
  | .errPush _ _ => .write .errlog
  | .errUnlock _ => .release .errlog
  | .ctLock _ => .acquire .counter
  | .ctDec _ => .write .value
  | .ctNotify => .notifyCounter
  | .ctUnlock => .release .counter
  | .wLock => .acquire .counter
  | .wTest => .read .value
  | .wSleep => .own
  | .wUnlock => .release .counter
  | .readLog => .read .errlog
  | .takeLog => .write .errlog
  | .takeFiles => .write .files
  | .drop _ => .destroy
  | .finished _ => .own

/-- The object that the mutex belongs to exists: all but the pool belong to the scanner. -/
def State.Alive (s : State I) (m : Mtx) : Prop := m = .pool ∨ s.alive = true

/-- The operation is well-defined: nothing is used that has been destroyed, no mutex is locked by a thread that has it already, no mutex is given back by a thread that does not have
it, and no mutex is destroyed that is locked. -/
def Legal (s : State I) (tid : Nat) : Op → Prop
  | .acquire m => s.Alive m ∧ s.owner m ≠ some tid ∧ (m = .files → tid ∉ s.readers)
  | .acquireShared => s.Alive .files ∧ s.owner .files ≠ some tid ∧ tid ∉ s.readers
  | .release m => s.Alive m ∧ s.owner m = some tid
  | .releaseShared => s.Alive .files ∧ tid ∈ s.readers
  | .notifyPool => s.Alive .pool
  | .notifyCounter => s.Alive .counter
  | .read d => d = .queue ∨ s.alive = true
  | .write d => d = .queue ∨ s.alive = true
  | .destroy => s.alive = true ∧ (∀ m, m ≠ .pool → s.owner m = none) ∧ s.readers = []
  | .own => True

/-- The operation accesses the datum: mutexes and condition variables are not counted, since they may be used by several threads. The destruction of the scanner is an access to
everything that belongs to the scanner. -/
def Op.accesses : Op → Datum → Bool
  | .read d, d' => d = d'
  | .write d, d' => d = d'
  | .destroy, d => d ≠ .queue
  | _, _ => false

def Op.changes : Op → Datum → Bool
  | .write d, d' => d = d'
  | .destroy, d => d ≠ .queue
  | _, _ => false

/-- The operation needs the scanner. -/
def Op.needsScanner : Op → Bool
  | .acquire m => m ≠ .pool
  | .acquireShared => true
  | .release m => m ≠ .pool
  | .releaseShared => true
  | .notifyPool => false
  | .notifyCounter => true
  | .read d => d ≠ .queue
  | .write d => d ≠ .queue
  | .destroy => true
  | .own => false

/-- Two threads are about to access the same datum, and at least one of them to change it. -/
def State.Race (s : State I) : Prop :=
  ∃ (i j : Nat) (pi pj : Pc I) (d : Datum), i ≠ j ∧ s.pcs[i]? = some pi ∧ s.pcs[j]? = some pj ∧ pi.op.accesses d = true ∧ pj.op.changes d = true

end Maike.Tree.Threads
