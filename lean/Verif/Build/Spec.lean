import Verif.Build.Model
import Verif.TaskList.Spec

/-! # Vocabulary for statements about builds -/

namespace Maike.Build

open Maike.Db (Dep isExternal)

variable {P : Type}

/-- `p` exists. -/
def Exists (fs : FileSys P) (p : P) : Prop := ∃ st, fs p = some st

/-- `p` exists and is strictly newer than `q`, if that exists. -/
def StrictlyNewer (fs : FileSys P) (p q : P) : Prop :=
  ∃ sp, fs p = some sp ∧ ∀ sq, fs q = some sq → sq.mtime < sp.mtime

/-- The files that the targets of a task are compared to: the source, and those
dependencies that are neither external nor directories. -/
def Input (fs : FileSys P) (t : Task P) (q : P) : Prop :=
  q = t.src ∨ ∃ d ∈ t.deps, d.name = q ∧ isExternal d.origin = false ∧ isDir fs q = false

/-- All targets that are not directories are strictly newer than all inputs. -/
def UpToDate (fs : FileSys P) (t : Task P) : Prop :=
  ∀ p ∈ t.targets, isDir fs p = false → ∀ q, Input fs t q → StrictlyNewer fs p q

/-- A project that can be built: the tasks are in topological order, no two tasks have the same target, a
task waits for whoever makes what it reads and for whatever these wait for, and only directories are
made from directories. `Load.lean` shows that a source tree has these properties. -/
structure Build.Sane (b : Build P) : Prop where
  topological : b.job.Topological
  owner : ∀ t ∈ b.job.tasks, ∀ u ∈ b.job.tasks, ∀ p, p ∈ (b.task t).targets → p ∈ (b.task u).targets →
    b.kind p = false → t = u
  waits : ∀ t ∈ b.job.tasks, ∀ q, (q = (b.task t).src ∨ ∃ d ∈ (b.task t).deps, d.name = q ∧ isExternal d.origin = false) →
    b.kind q = false → ∀ u ∈ b.job.tasks, q ∈ (b.task u).targets → u ∈ b.job.deps t
  closed : ∀ t ∈ b.job.tasks, ∀ u ∈ b.job.tasks, ∀ v ∈ b.job.tasks, u ∈ b.job.deps t → v ∈ b.job.deps u →
    v ∈ b.job.deps t
  dirs : ∀ t ∈ b.job.tasks, b.kind (b.task t).src = true → ∀ p ∈ (b.task t).targets, b.kind p = true

/-- A file system state at the beginning of a build at time `now`: no file has been written in the future (the time stamps of
directories do not matter), and directories are where they are expected. -/
structure Plausible (b : Build P) (fs : FileSys P) (now : Nat) : Prop where
  past : ∀ p st, b.kind p = false → fs p = some st → st.mtime < now
  kinds : ∀ p st, fs p = some st → st.dir = b.kind p

/-- The build has returned normally. -/
def State.Succeeded (s : State P) : Prop := ∃ n, s.sched.pc = .returned n

/-- The command of task `t` has been executed. -/
def State.Executed (s : State P) (t : Nat) : Prop := s.decision t = some .run

end Maike.Build
