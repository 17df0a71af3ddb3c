import Verif.Db.Model
import Verif.TaskList.Model

/-!
# Model of the rebuild decision and of builds as seen by the file system

core/utils/fs.cpp, core/db/target_info.cpp, core/db/source_file_record.cpp,
core/db/dependency.hpp and core/db/task.cpp, on top of the scheduler in `TaskList/Model.lean`.

The file system is a function from paths to time stamps. Different (normalised) paths are different
files, i.e. there are no links.
-/

namespace Maike.Build

open Maike.Db (Dep Origin isExternal RebuildPolicy DepGraph)

/-- What `last_write_time` and `is_directory` can tell about a file that exists. -/
structure Stat where
  mtime : Nat
  dir : Bool
deriving DecidableEq, Repr

/-- The state of the file system: `none` for files that do not exist. -/
abbrev FileSys (P : Type) := P → Option Stat

/-- `std::filesystem::is_directory`. -/
def isDir {P : Type} (fs : FileSys P) (p : P) : Bool :=
  match fs p with
  | none => false
  | some st => st.dir

/-- `isNewer`, core/utils/fs.cpp:26-41. An error is the exception thrown by `filesDoNotExist`. A
file system error when reading a time stamp means that the file does not exist. -/
def isNewer {P : Type} (fs : FileSys P) (a b : P) : Except (P × P) Bool :=
  match fs a, fs b with
  | none, none => .error (a, b)
  | none, some _ => .ok false
  | some _, none => .ok true
  | some ta, some tb => .ok (ta.mtime > tb.mtime)

/-- `isOlder`, core/utils/fs.cpp:43-58. -/
def isOlder {P : Type} (fs : FileSys P) (a b : P) : Except (P × P) Bool :=
  match fs a, fs b with
  | none, none => .error (a, b)
  | none, some _ => .ok true
  | some _, none => .ok false
  | some ta, some tb => .ok (ta.mtime < tb.mtime)

/-- `isOlder(Dependency, path)`, core/db/dependency.hpp:96-101. -/
def depIsOlder {P : Type} (fs : FileSys P) (d : Dep P) (file : P) : Except (P × P) Bool :=
  if isExternal d.origin || isDir fs d.name then .ok true else isOlder fs d.name file

/-- `std::all_of` with a predicate that may throw. -/
def allOf {α E : Type} (f : α → Except E Bool) : List α → Except E Bool
  | [] => .ok true
  | x :: xs =>
    match f x with
    | .error e => .error e
    | .ok false => .ok false
    | .ok true => allOf f xs

/-- `isUpToDate` for a target, core/db/target_info.cpp:9-21. -/
def targetUpToDate {P : Type} (fs : FileSys P) (src : P) (deps : List (Dep P)) (target : P) :
    Except (P × P) Bool :=
  if isDir fs target then .ok true
  else
    match isOlder fs src target with
    | .error e => .error e
    | .ok false => .ok false
    | .ok true => allOf (fun d => depIsOlder fs d target) deps

/-- What a `Task` knows, core/db/task.hpp:79-84 and core/db/task.cpp:5-13: the path of the file,
the names of its targets, the recursive dependencies and the policy. -/
structure Task (P : Type) where
  src : P
  targets : List P
  deps : List (Dep P)
  policy : RebuildPolicy := .onlyIfOutOfDate

/-- `isUpToDate` for a file, core/db/source_file_record.cpp:11-18. -/
def isUpToDate {P : Type} (fs : FileSys P) (t : Task P) : Except (P × P) Bool :=
  allOf (targetUpToDate fs t.src t.deps) t.targets

/-- The decision in `runIfNecessary`, core/db/task.cpp:19-20: whether the command is executed. -/
def shouldRun {P : Type} (fs : FileSys P) (force : Bool) (t : Task P) : Except (P × P) Bool :=
  if force then .ok true
  else if t.policy = .always then .ok true
  else
    match isUpToDate fs t with
    | .error e => .error e
    | .ok b => .ok (!b)

/-! ## Builds -/

/-- What `runIfNecessary` has decided for a task. -/
inductive Decision where
  | run
  | skip
  /-- an exception was thrown -/
  | raise
deriving DecidableEq, Repr

/-- What follows from the value of the condition in `runIfNecessary`, or from the exception thrown by it. -/
def decisionOf {E : Type} : Except E Bool → Decision
  | .error _ => .raise
  | .ok true => .run
  | .ok false => .skip

/-- A build: the job for the scheduler, the tasks, `ForceRecompilation`, `LocalExecve::dryrun`, and two assumptions about the
environment: which paths are (or will be created as) directories, and whether the time
stamps of consecutive writes differ. -/
structure Build (P : Type) where
  job : TaskList.Job
  task : Nat → Task P
  force : Bool
  dryrun : Bool := false
  kind : P → Bool
  fine : Bool

/-- The state of a build. -/
structure State (P : Type) where
  sched : TaskList.State
  fs : FileSys P
  clock : Nat
  decision : Nat → Option Decision
  written : Nat → List P

/-- The state at the beginning of `process`. -/
def init {P : Type} (b : Build P) (fs : FileSys P) (clock : Nat) : State P where
  sched := TaskList.init b.job
  fs := fs
  clock := clock
  decision := fun _ => none
  written := fun _ => []

/-- The actions of a build. -/
inductive Act (P : Type) where
  /-- an action of the scheduler -/
  | sched (a : TaskList.Act)
  /-- the `k`th running task compares time stamps. This is one action here; no other
  task can change what it reads (`C13_inputs_stable`). -/
  | check (k : Nat)
  /-- the recipe of the `k`th running task writes one of its targets -/
  | write (k : Nat) (p : P)
  /-- a directory is created by a recipe, or its time stamp changes because something in it does -/
  | touchDir (p : P)
  /-- time passes -/
  | tick

def update {α β : Type} [DecidableEq α] (f : α → β) (a : α) (b : β) : α → β :=
  fun x => if x = a then b else f x

/-- How the body of a task may end, given what has been decided, core/db/task.cpp:15-29 and
core/db/task_list.cpp:97-114. Recipes that report success have written their targets, or have found out that a target is a directory that
exists already (recipes/make_directory.py:16-17); see C88 for the recipes of maike. When
nothing is executed the task may still fail to write to the log. In a dry run the command is not launched and success is reported,
core/exec/execve.cpp:264-269. -/
def mayEnd {P : Type} [DecidableEq P] (b : Build P) (s : State P) (t : Nat) (o : TaskList.Outcome) : Bool :=
  match s.decision t with
  | none => false
  | some .run => if b.dryrun then o ≠ .failure else o ≠ .success || (b.task t).targets.all fun p => p ∈ s.written t || isDir s.fs p
  | some .skip => o ≠ .failure
  | some .raise => o = .threw

/-- Whether an action of the scheduler is consistent with what the task is doing. -/
def allowed {P : Type} [DecidableEq P] (b : Build P) (s : State P) (a : TaskList.Act) : Bool :=
  match a with
  | .work k o =>
    match s.sched.running[k]? with
    | some (t, .body) => mayEnd b s t o
    | _ => true
  | _ => true

/-- One action of a build. -/
def step {P : Type} [DecidableEq P] (b : Build P) (a : Act P) (s : State P) : Option (State P) :=
  match a with
  | .sched a =>
    if allowed b s a then
      match TaskList.step b.job a s.sched with
      | some s' => some { s with sched := s' }
      | none => none
    else none
  | .check k =>
    match s.sched.running[k]? with
    | some (t, .body) =>
      if s.decision t = none then
        some { s with decision := update s.decision t (some
          (decisionOf (shouldRun s.fs b.force (b.task t)))) }
      else none
    | _ => none
  | .write k p =>
    match s.sched.running[k]? with
    | some (t, .body) =>
      if b.dryrun = false ∧ s.decision t = some .run ∧ p ∈ (b.task t).targets then
        some { s with
          fs := update s.fs p (some ⟨s.clock, b.kind p⟩)
          clock := if b.fine then s.clock + 1 else s.clock
          written := update s.written t (p :: s.written t) }
      else none
    | _ => none
  | .touchDir p =>
    if b.dryrun = false ∧ b.kind p then some { s with fs := update s.fs p (some ⟨s.clock, true⟩) } else none
  | .tick => some { s with clock := s.clock + 1 }

/-- Perform a sequence of actions. -/
def exec {P : Type} [DecidableEq P] (b : Build P) : List (Act P) → State P → Option (State P)
  | [], s => some s
  | a :: as, s =>
    match step b a s with
    | some s' => exec b as s'
    | none => none

/-- The tasks in a list are made from the graph, core/db/task.cpp:5-13. -/
def makeTask {P : Type} [Db.PathType P] [DecidableEq P] [Inhabited P] (g : DepGraph P) (node : Nat) : Task P :=
  match g.files[node]? with
  | none => { src := default, targets := [], deps := [] }
  | some (p, info) => {
      src := p
      targets := info.targets.map fun t => t.name
      deps := (Db.getUseDepsRecursive g node).2
      policy := info.policy }

end Maike.Build
