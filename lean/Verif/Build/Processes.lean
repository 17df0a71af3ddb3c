import Verif.Build.Lemmas
import Verif.Recipes.Script

/-!
# Builds whose recipes are scripts

In `Build/Model.lean` a recipe is anything that writes its targets before it reports success. Here recipes are scripts (`Recipes/Script.lean`), several of which are executed at
the same time on the same file system, and what is assumed is what compilers, linkers and archivers do. It is then proved that builds like this are
builds in the sense of `Build/Model.lean` if the scripts keep their promise, and which of the recipes of maike do (C88).
-/

namespace Maike.Build

open Maike.Recipes (Script Mkdir exitStatus)

variable {P : Type} [DecidableEq P]

/-! ## Model -/

/-- The environment of the recipes. `name` is the file that a text refers to. A program with the given arguments writes no other files of the project than those in `may`.
If it returns zero then it has written those in `must`. A name is `foreign` if it refers to something that the build does not know of, such as the cache
of recipes/vcslog.py. -/
structure Tools (P : Type) where
  name : String → P
  may : List String → List P
  must : List String → List P
  foreign : String → Bool := fun _ => false

/-- A recipe that is being executed: what is left to do, and what has been written by the program that has been started by it, if there is one. -/
structure Proc (P : Type) where
  script : Script
  wrote : List P := []

/-- The state of a build, and the recipes that have been started. -/
structure PState (P : Type) where
  base : State P
  proc : Nat → Option (Proc P)

/-- The state at the beginning of `process`. -/
def pinit (b : Build P) (fs : FileSys P) (now : Nat) : PState P := ⟨init b fs now, fun _ => none⟩

/-- What can happen. -/
inductive PAct (P : Type) where
  /-- an action of the scheduler -/
  | sched (a : TaskList.Act)
  /-- the `k`th running task compares time stamps, and starts its recipe if necessary -/
  | check (k : Nat)
  /-- the program that has been started by the recipe of the `k`th running task writes a file -/
  | output (k : Nat) (p : P)
  /-- that program has returned, or it could not be started -/
  | ended (k : Nat) (rc : Option Int)
  /-- the recipe has copied a file -/
  | copied (k : Nat)
  /-- copying has failed, after the file has been written in part, or not at all -/
  | copyFailed (k : Nat) (part : Bool)
  /-- the recipe has called `mkdir` -/
  | mkdir (k : Nat) (r : Mkdir)
  /-- the recipe has written a file -/
  | wrote (k : Nat)
  /-- writing has failed, after the file has been written in part, or not at all -/
  | writeFailed (k : Nat) (part : Bool)
  /-- the recipe has done something that does not change files, or an exception has been raised -/
  | attempted (k : Nat) (ok : Bool)
  /-- the time stamp of a directory changes because something in it does, or a directory appears that is not made by a recipe -/
  | touchDir (p : P)
  | tick

/-- The `k`th running task, if it is executing its recipe. -/
def procOf (s : PState P) (k : Nat) : Option (Nat × Proc P) :=
  match s.base.sched.running[k]? with
  | some (t, .body) => (s.proc t).map fun q => (t, q)
  | _ => none

/-- A file or directory is written by task `t`. -/
def PState.put (b : Build P) (s : PState P) (t : Nat) (p : P) (dir : Bool) (q : Proc P) : PState P where
  base := { s.base with
    fs := update s.base.fs p (some ⟨s.base.clock, dir⟩)
    clock := if b.fine then s.base.clock + 1 else s.base.clock
    written := update s.base.written t (p :: s.base.written t) }
  proc := update s.proc t (some q)

/-- The recipe of task `t` continues. -/
def PState.continue (s : PState P) (t : Nat) (next : Script) : PState P := { s with proc := update s.proc t (some ⟨next, []⟩) }

/-- How the body of a task may end, core/db/task.cpp:15-29 and core/db/task_list.cpp:97-114: with success if the recipe has exited with status zero. Anything may fail, e. g. a recipe may be terminated by a signal. -/
def pmayEnd (b : Build P) (s : PState P) (t : Nat) (o : TaskList.Outcome) : Bool :=
  match s.base.decision t with
  | none => false
  | some .run =>
    if b.dryrun then o ≠ .failure
    else o ≠ .success || match s.proc t with
      | some ⟨.exit n, _⟩ => exitStatus n = 0
      | _ => false
  | some .skip => o ≠ .failure
  | some .raise => o = .threw

/-- Whether an action of the scheduler is consistent with what the task is doing. -/
def pallowed (b : Build P) (s : PState P) (a : TaskList.Act) : Bool :=
  match a with
  | .work k o =>
    match s.base.sched.running[k]? with
    | some (t, .body) => pmayEnd b s t o
    | _ => true
  | _ => true

/-- Whether `shutil.copyfile` can succeed: there is a file, and the name of the copy is a different one, and not the name of a directory. -/
def canCopy (fs : FileSys P) (src dst : P) : Bool := (fs src).any (fun st => !st.dir) && src ≠ dst && !isDir fs dst

/-- One action. `script t` is the recipe of task `t` with the arguments that it gets. -/
def pstep (b : Build P) (tools : Tools P) (script : Nat → Script) (a : PAct P) (s : PState P) : Option (PState P) :=
  match a with
  | .sched a =>
    if pallowed b s a then
      match TaskList.step b.job a s.base.sched with
      | some s' => some { s with base := { s.base with sched := s' } }
      | none => none
    else none
  | .check k =>
    match s.base.sched.running[k]? with
    | some (t, .body) =>
      if s.base.decision t = none then
        let dec := decisionOf (shouldRun s.base.fs b.force (b.task t))
        some {
          base := { s.base with decision := update s.base.decision t (some dec) }
          proc := if dec = .run ∧ b.dryrun = false then update s.proc t (some ⟨script t, []⟩) else s.proc }
      else none
    | _ => none
  | .output k p =>
    match procOf s k with
    | some (t, ⟨.run args next, wrote⟩) => if p ∈ tools.may args then some (s.put b t p false ⟨.run args next, p :: wrote⟩) else none
    | _ => none
  | .ended k rc =>
    match procOf s k with
    | some (t, ⟨.run args next, wrote⟩) =>
      match rc with
      | none => if wrote = [] then some (s.continue t (next none)) else none
      | some rc => if -64 ≤ rc ∧ rc ≤ 255 ∧ (rc = 0 → ∀ p ∈ tools.must args, p ∈ wrote) then some (s.continue t (next (some rc))) else none
    | _ => none
  | .copied k =>
    match procOf s k with
    | some (t, ⟨.copy src dst next, _⟩) =>
      if canCopy s.base.fs (tools.name src) (tools.name dst) then some (s.put b t (tools.name dst) false ⟨next true, []⟩) else none
    | _ => none
  | .copyFailed k part =>
    match procOf s k with
    | some (t, ⟨.copy src dst next, _⟩) =>
      if part then
        if tools.name src ≠ tools.name dst ∧ isDir s.base.fs (tools.name dst) = false then some (s.put b t (tools.name dst) false ⟨next false, []⟩) else none
      else some (s.continue t (next false))
    | _ => none
  | .mkdir k r =>
    match procOf s k with
    | some (t, ⟨.mkdir p next, _⟩) =>
      if tools.foreign p then some (s.continue t (next r)) else
      match r with
      | .made => if s.base.fs (tools.name p) = none then some (s.put b t (tools.name p) true ⟨next .made, []⟩) else none
      | .existed => if s.base.fs (tools.name p) ≠ none then some (s.continue t (next .existed)) else none
      | .failed => some (s.continue t (next .failed))
    | _ => none
  | .wrote k =>
    match procOf s k with
    | some (t, ⟨.write p next, _⟩) =>
      if tools.foreign p then some (s.continue t (next true))
      else if isDir s.base.fs (tools.name p) = false then some (s.put b t (tools.name p) false ⟨next true, []⟩) else none
    | _ => none
  | .writeFailed k part =>
    match procOf s k with
    | some (t, ⟨.write p next, _⟩) =>
      if part ∧ tools.foreign p = false then
        if isDir s.base.fs (tools.name p) = false then some (s.put b t (tools.name p) false ⟨next false, []⟩) else none
      else some (s.continue t (next false))
    | _ => none
  | .attempted k ok =>
    match procOf s k with
    | some (t, ⟨.attempt next, _⟩) => some (s.continue t (next ok))
    | _ => none
  | .touchDir p => if b.dryrun = false ∧ b.kind p then some { s with base := { s.base with fs := update s.base.fs p (some ⟨s.base.clock, true⟩) } } else none
  | .tick => some { s with base := { s.base with clock := s.base.clock + 1 } }

/-- Perform a sequence of actions. -/
def pexec (b : Build P) (tools : Tools P) (script : Nat → Script) : List (PAct P) → PState P → Option (PState P)
  | [], s => some s
  | a :: as, s =>
    match pstep b tools script a s with
    | some s' => pexec b tools script as s'
    | none => none

/-! ## Specification -/

/-- What a recipe promises, given its targets, some of which are there: it writes nothing but its targets, files where files are
expected and directories where directories are expected, and when it exits with status zero all targets are there. -/
def Promise (tools : Tools P) (kind : P → Bool) (targets : List P) : (P → Prop) → Script → Prop
  | there, .exit n => exitStatus n = 0 → ∀ p ∈ targets, there p
  | there, .run args next => (∀ p ∈ tools.may args, p ∈ targets ∧ kind p = false) ∧ Promise tools kind targets there (next none) ∧
      ∀ rc, -64 ≤ rc → rc ≤ 255 → Promise tools kind targets (fun p => there p ∨ (rc = 0 ∧ p ∈ tools.must args)) (next (some rc))
  | there, .copy _ dst next => (tools.name dst ∈ targets ∧ kind (tools.name dst) = false) ∧
      Promise tools kind targets (fun p => there p ∨ p = tools.name dst) (next true) ∧ Promise tools kind targets there (next false)
  | there, .mkdir d next => (tools.foreign d = false → tools.name d ∈ targets ∧ kind (tools.name d) = true) ∧
      Promise tools kind targets (fun p => there p ∨ (tools.foreign d = false ∧ p = tools.name d)) (next .made) ∧
      Promise tools kind targets (fun p => there p ∨ (tools.foreign d = false ∧ p = tools.name d)) (next .existed) ∧ Promise tools kind targets there (next .failed)
  | there, .write d next => (tools.foreign d = false → tools.name d ∈ targets ∧ kind (tools.name d) = false) ∧
      Promise tools kind targets (fun p => there p ∨ (tools.foreign d = false ∧ p = tools.name d)) (next true) ∧ Promise tools kind targets there (next false)
  | there, .attempt next => Promise tools kind targets there (next true) ∧ Promise tools kind targets there (next false)

/-! ## Proof -/

omit [DecidableEq P] in
theorem Promise.mono {tools : Tools P} {kind : P → Bool} {targets : List P} {sc : Script} : ∀ {A B : P → Prop}, (∀ p, A p → B p) →
    Promise tools kind targets A sc → Promise tools kind targets B sc := by
  induction sc with
  | exit n => exact fun hab h hn p hp => hab p (h hn p hp)
  | run args next ih =>
    intro A B hab h
    exact ⟨h.1, ih _ hab h.2.1, fun rc h1 h2 => ih _ (fun p => Or.imp_left (hab p)) (h.2.2 rc h1 h2)⟩
  | copy src dst next ih =>
    intro A B hab h
    exact ⟨h.1, ih _ (fun p => Or.imp_left (hab p)) h.2.1, ih _ hab h.2.2⟩
  | mkdir d next ih =>
    intro A B hab h
    exact ⟨h.1, ih _ (fun p => Or.imp_left (hab p)) h.2.1, ih _ (fun p => Or.imp_left (hab p)) h.2.2.1, ih _ hab h.2.2.2⟩
  | write d next ih =>
    intro A B hab h
    exact ⟨h.1, ih _ (fun p => Or.imp_left (hab p)) h.2.1, ih _ hab h.2.2⟩
  | attempt next ih =>
    intro A B hab h
    exact ⟨ih _ hab h.1, ih _ hab h.2⟩

/-- What is known while recipes are executed. -/
structure PInv (b : Build P) (tools : Tools P) (s : PState P) : Prop where
  sched : TaskList.Reachable b.job s.base.sched
  kinds : ∀ p st, s.base.fs p = some st → st.dir = b.kind p
  live : ∀ t q, s.proc t = some q → s.base.decision t = some .run ∧ b.dryrun = false
  promise : ∀ t q, s.proc t = some q → Promise tools b.kind (b.task t).targets (fun p => p ∈ s.base.written t ∨ isDir s.base.fs p = true) q.script
  wrote : ∀ t q, s.proc t = some q → ∀ p ∈ q.wrote, p ∈ s.base.written t

theorem procOf_eq {s : PState P} {k t : Nat} {q : Proc P} (h : procOf s k = some (t, q)) : s.base.sched.running[k]? = some (t, .body) ∧ s.proc t = some q := by
  unfold procOf at h
  split at h
  · rename_i u hk
    simp only [Option.map_eq_some_iff, Prod.mk.injEq] at h
    obtain ⟨q', h1, rfl, rfl⟩ := h
    exact ⟨hk, h1⟩
  · cases h

theorem isDir_put {b : Build P} {s : PState P} {p p' : P} {st : Stat} (hk : ∀ p st, s.base.fs p = some st → st.dir = b.kind p) (hst : st.dir = b.kind p')
    (h : isDir s.base.fs p = true) : isDir (update s.base.fs p' (some st)) p = true := by
  unfold isDir update
  by_cases e : p = p'
  · subst e
    simp only [if_true]
    unfold isDir at h
    split at h
    · cases h
    · rename_i st' hs
      rw [hst, ← hk p st' hs]
      exact h
  · simp only [e, if_false]
    exact h

/-- Something is written that the recipe may write. -/
theorem put_ok {b : Build P} {tools : Tools P} {s : PState P} (hi : PInv b tools s) {k t : Nat} {p : P} {q q' : Proc P} (hk : s.base.sched.running[k]? = some (t, .body))
    (hq : s.proc t = some q) (hp : p ∈ (b.task t).targets) {dir : Bool} (hdir : dir = b.kind p)
    (hpr : Promise tools b.kind (b.task t).targets (fun x => (x ∈ s.base.written t ∨ isDir s.base.fs x = true) ∨ x = p) q'.script)
    (hw : ∀ x ∈ q'.wrote, x = p ∨ x ∈ s.base.written t) :
    step b (.write k p) s.base = some (s.put b t p dir q').base ∧ PInv b tools (s.put b t p dir q') := by
  subst hdir
  obtain ⟨hd, hdry⟩ := hi.live t q hq
  have hmono : ∀ x, isDir s.base.fs x = true → isDir (update s.base.fs p (some ⟨s.base.clock, b.kind p⟩)) x = true := fun x h => isDir_put hi.kinds rfl h
  refine ⟨by simp only [step, hk, hd, hdry, hp, true_and, if_true, PState.put], ⟨hi.sched, ?_, ?_, ?_, ?_⟩⟩
  · intro x st hx
    simp only [PState.put, update] at hx
    split at hx
    · rename_i e; subst e; cases hx; rfl
    · exact hi.kinds x st hx
  · intro u r hr
    simp only [PState.put, update] at hr
    split at hr
    · rename_i e; subst e; exact ⟨hd, hdry⟩
    · exact hi.live u r hr
  · intro u r hr
    simp only [PState.put] at hr ⊢
    by_cases e : u = t
    · subst e
      rw [update_self] at hr ⊢
      cases hr
      refine hpr.mono fun x hx => ?_
      rcases hx with (hx | hx) | hx
      · exact .inl (List.mem_cons_of_mem _ hx)
      · exact .inr (hmono x hx)
      · exact .inl (by simp [hx])
    · rw [update_ne _ _ e] at hr ⊢
      exact (hi.promise u r hr).mono fun x hx => hx.imp id (hmono x)
  · intro u r hr x hx
    simp only [PState.put] at hr ⊢
    by_cases e : u = t
    · subst e
      rw [update_self] at hr ⊢
      cases hr
      exact List.mem_cons.mpr (hw x hx)
    · rw [update_ne _ _ e] at hr ⊢
      exact hi.wrote u r hr x hx

/-- The recipe continues. -/
theorem continue_ok {b : Build P} {tools : Tools P} {s : PState P} (hi : PInv b tools s) {t : Nat} {q : Proc P} {sc : Script} (hq : s.proc t = some q)
    (hpr : Promise tools b.kind (b.task t).targets (fun x => x ∈ s.base.written t ∨ isDir s.base.fs x = true) sc) : PInv b tools (s.continue t sc) := by
  refine ⟨hi.sched, hi.kinds, ?_, ?_, ?_⟩
  · intro u r hr
    simp only [PState.continue, update] at hr
    split at hr
    · rename_i e; subst e; exact hi.live u q hq
    · exact hi.live u r hr
  · intro u r hr
    simp only [PState.continue, update] at hr ⊢
    split at hr
    · rename_i e; subst e; cases hr; exact hpr
    · exact hi.promise u r hr
  · intro u r hr x hx
    simp only [PState.continue, update] at hr ⊢
    split at hr
    · rename_i e; subst e; cases hr; cases hx
    · exact hi.wrote u r hr x hx

/-- Each action is an action of the build, or does not change what is known about it. -/
theorem pstep_ok {b : Build P} {tools : Tools P} {script : Nat → Script} (hb : b.job.Topological)
    (hs : ∀ t ∈ b.job.tasks, Promise tools b.kind (b.task t).targets (fun _ => False) (script t)) {a : PAct P} {s s' : PState P} (hi : PInv b tools s) (h : pstep b tools script a s = some s') :
    PInv b tools s' ∧ (s'.base = s.base ∨ ∃ a', step b a' s.base = some s'.base) := by
  cases a with
  | sched a =>
    simp only [pstep] at h
    split at h
    · rename_i hal
      split at h
      · rename_i st hst
        cases h
        refine ⟨⟨hi.sched.step hst, hi.kinds, hi.live, hi.promise, hi.wrote⟩, .inr ⟨.sched a, ?_⟩⟩
        have : allowed b s.base a = true := by
          cases a with
          | work k o =>
            simp only [pallowed] at hal
            simp only [allowed]
            split
            · rename_i u hk
              simp only [hk] at hal
              unfold pmayEnd at hal
              unfold mayEnd
              cases hd : s.base.decision u with
              | none => simp [hd] at hal
              | some dec =>
                cases dec with
                | skip => simpa [hd] using hal
                | raise => simpa [hd] using hal
                | run =>
                  simp only [hd] at hal ⊢
                  cases hdry : b.dryrun with
                  | true => simpa [hdry] using hal
                  | false =>
                    simp only [hdry, Bool.false_eq_true, if_false, Bool.or_eq_true] at hal ⊢
                    refine hal.imp id fun hal => ?_
                    split at hal
                    · rename_i n w hq
                      have := hi.promise u _ hq (by simpa using hal)
                      simpa using this
                    · cases hal
            · rfl
          | _ => rfl
        simp only [step, this, if_true, hst]
      · cases h
    · cases h
  | check k =>
    simp only [pstep] at h
    split at h
    · rename_i t hk
      split at h
      · rename_i hd
        cases h
        have hnone : s.proc t = none := by
          cases hq : s.proc t with
          | none => rfl
          | some q => have := (hi.live t q hq).1; rw [hd] at this; cases this
        refine ⟨⟨hi.sched, hi.kinds, ?_, ?_, ?_⟩, .inr ⟨.check k, by simp only [step, hk, hd, if_true]⟩⟩
        · intro u r hr
          dsimp only at hr ⊢
          by_cases e : u = t
          · subst e
            split at hr
            · rename_i hdec
              exact ⟨by rw [update_self, hdec.1], hdec.2⟩
            · rw [hnone] at hr; cases hr
          · rw [update_ne _ _ e]
            refine hi.live u r ?_
            split at hr
            · rwa [update_ne _ _ e] at hr
            · exact hr
        · intro u r hr
          dsimp only at hr ⊢
          by_cases e : u = t
          · subst e
            split at hr
            · rw [update_self] at hr
              cases hr
              exact (hs u (TaskList.body_facts hb hi.sched hk).2.2).mono fun _ h => h.elim
            · rw [hnone] at hr; cases hr
          · refine hi.promise u r ?_
            split at hr
            · rwa [update_ne _ _ e] at hr
            · exact hr
        · intro u r hr x hx
          dsimp only at hr ⊢
          by_cases e : u = t
          · subst e
            split at hr
            · rw [update_self] at hr
              cases hr
              cases hx
            · rw [hnone] at hr; cases hr
          · refine hi.wrote u r ?_ x hx
            split at hr
            · rwa [update_ne _ _ e] at hr
            · exact hr
      · cases h
    · cases h
  | output k p =>
    simp only [pstep] at h
    split at h
    · rename_i t args next wrote hpk
      obtain ⟨hk, hq⟩ := procOf_eq hpk
      split at h
      · rename_i hp
        cases h
        have hpr := hi.promise t _ hq
        obtain ⟨h1, h2⟩ := hpr.1 p hp
        obtain ⟨g1, g2⟩ := put_ok (q' := ⟨.run args next, p :: wrote⟩) hi hk hq h1 h2.symm (hpr.mono fun _ h => .inl h) (fun x hx => by
          rcases List.mem_cons.mp hx with h | h
          · exact .inl h
          · exact .inr (hi.wrote t _ hq x h))
        exact ⟨g2, .inr ⟨_, g1⟩⟩
      · cases h
    · cases h
  | ended k rc =>
    simp only [pstep] at h
    split at h
    · rename_i t args next wrote hpk
      obtain ⟨hk, hq⟩ := procOf_eq hpk
      have hpr := hi.promise t _ hq
      cases rc with
      | none =>
        simp only at h
        split at h
        · cases h
          exact ⟨continue_ok hi hq hpr.2.1, .inl rfl⟩
        · cases h
      | some rc =>
        simp only at h
        split at h
        · rename_i hrc
          cases h
          refine ⟨continue_ok hi hq ((hpr.2.2 rc hrc.1 hrc.2.1).mono fun x hx => ?_), .inl rfl⟩
          rcases hx with hx | ⟨h0, hx⟩
          · exact hx
          · exact .inl (hi.wrote t _ hq x (hrc.2.2 h0 x hx))
        · cases h
    · cases h
  | copied k =>
    simp only [pstep] at h
    split at h
    · rename_i t src dst next wrote hpk
      obtain ⟨hk, hq⟩ := procOf_eq hpk
      have hpr := hi.promise t _ hq
      split at h
      · cases h
        obtain ⟨g1, g2⟩ := put_ok (q' := ⟨next true, []⟩) hi hk hq hpr.1.1 hpr.1.2.symm hpr.2.1 (by simp)
        exact ⟨g2, .inr ⟨_, g1⟩⟩
      · cases h
    · cases h
  | copyFailed k part =>
    simp only [pstep] at h
    split at h
    · rename_i t src dst next wrote hpk
      obtain ⟨hk, hq⟩ := procOf_eq hpk
      have hpr := hi.promise t _ hq
      split at h
      · split at h
        · cases h
          obtain ⟨g1, g2⟩ := put_ok (q' := ⟨next false, []⟩) hi hk hq hpr.1.1 hpr.1.2.symm (hpr.2.2.mono fun _ h => .inl h) (by simp)
          exact ⟨g2, .inr ⟨_, g1⟩⟩
        · cases h
      · cases h
        exact ⟨continue_ok hi hq hpr.2.2, .inl rfl⟩
    · cases h
  | mkdir k r =>
    simp only [pstep] at h
    split at h
    · rename_i t d next wrote hpk
      obtain ⟨hk, hq⟩ := procOf_eq hpk
      have hpr := hi.promise t _ hq
      split at h
      · rename_i hf
        cases h
        refine ⟨continue_ok hi hq ?_, .inl rfl⟩
        have hmono : ∀ {sc}, Promise tools b.kind (b.task t).targets (fun p => (p ∈ s.base.written t ∨ isDir s.base.fs p = true) ∨ (tools.foreign d = false ∧ p = tools.name d)) sc →
            Promise tools b.kind (b.task t).targets (fun p => p ∈ s.base.written t ∨ isDir s.base.fs p = true) sc :=
          fun h => h.mono fun x hx => hx.elim id fun h' => by rw [hf] at h'; cases h'.1
        cases r with
        | made => exact hmono hpr.2.1
        | existed => exact hmono hpr.2.2.1
        | failed => exact hpr.2.2.2
      · rename_i hf
        have hf : tools.foreign d = false := by simpa using hf
        cases r with
        | made =>
          simp only at h
          split at h
          · cases h
            obtain ⟨g1, g2⟩ := put_ok (q' := ⟨next .made, []⟩) hi hk hq (hpr.1 hf).1 (hpr.1 hf).2.symm (hpr.2.1.mono fun _ h => h.imp id (·.2)) (by simp)
            exact ⟨g2, .inr ⟨_, g1⟩⟩
          · cases h
        | existed =>
          simp only at h
          split at h
          · rename_i hne
            cases h
            refine ⟨continue_ok hi hq (hpr.2.2.1.mono fun x hx => ?_), .inl rfl⟩
            rcases hx with hx | ⟨_, rfl⟩
            · exact hx
            · obtain ⟨st, hst⟩ := Option.ne_none_iff_exists'.mp hne
              exact .inr (by simp only [isDir, hst]; exact (hi.kinds _ st hst).trans (hpr.1 hf).2)
          · cases h
        | failed =>
          simp only at h
          cases h
          exact ⟨continue_ok hi hq hpr.2.2.2, .inl rfl⟩
    · cases h
  | wrote k =>
    simp only [pstep] at h
    split at h
    · rename_i t d next wrote hpk
      obtain ⟨hk, hq⟩ := procOf_eq hpk
      have hpr := hi.promise t _ hq
      split at h
      · rename_i hf
        cases h
        exact ⟨continue_ok hi hq (hpr.2.1.mono fun x hx => hx.elim id fun h' => by rw [hf] at h'; cases h'.1), .inl rfl⟩
      · rename_i hf
        have hf : tools.foreign d = false := by simpa using hf
        split at h
        · cases h
          obtain ⟨g1, g2⟩ := put_ok (q' := ⟨next true, []⟩) hi hk hq (hpr.1 hf).1 (hpr.1 hf).2.symm (hpr.2.1.mono fun _ h => h.imp id (·.2)) (by simp)
          exact ⟨g2, .inr ⟨_, g1⟩⟩
        · cases h
    · cases h
  | writeFailed k part =>
    simp only [pstep] at h
    split at h
    · rename_i t d next wrote hpk
      obtain ⟨hk, hq⟩ := procOf_eq hpk
      have hpr := hi.promise t _ hq
      split at h
      · rename_i hf
        split at h
        · cases h
          obtain ⟨g1, g2⟩ := put_ok (q' := ⟨next false, []⟩) hi hk hq (hpr.1 hf.2).1 (hpr.1 hf.2).2.symm (hpr.2.2.mono fun _ h => .inl h) (by simp)
          exact ⟨g2, .inr ⟨_, g1⟩⟩
        · cases h
      · cases h
        exact ⟨continue_ok hi hq hpr.2.2, .inl rfl⟩
    · cases h
  | attempted k ok =>
    simp only [pstep] at h
    split at h
    · rename_i t next wrote hpk
      obtain ⟨hk, hq⟩ := procOf_eq hpk
      have hpr := hi.promise t _ hq
      cases h
      refine ⟨continue_ok hi hq ?_, .inl rfl⟩
      cases ok with
      | true => exact hpr.1
      | false => exact hpr.2
    · cases h
  | touchDir p =>
    simp only [pstep] at h
    split at h
    · rename_i hp
      cases h
      refine ⟨⟨hi.sched, ?_, hi.live, ?_, hi.wrote⟩, .inr ⟨.touchDir p, by simp only [step]; rw [if_pos hp]⟩⟩
      · intro x st hx
        simp only [update] at hx
        split at hx
        · rename_i e; subst e; cases hx; exact hp.2.symm
        · exact hi.kinds x st hx
      · intro u r hr
        exact (hi.promise u r hr).mono fun x hx => hx.imp id fun h => isDir_put (st := ⟨s.base.clock, true⟩) hi.kinds hp.2.symm h
    · cases h
  | tick =>
    simp only [pstep] at h
    cases h
    exact ⟨⟨hi.sched, hi.kinds, hi.live, hi.promise, hi.wrote⟩, .inr ⟨.tick, rfl⟩⟩

theorem pexec_ok {b : Build P} {tools : Tools P} {script : Nat → Script} (hb : b.job.Topological)
    (hs : ∀ t ∈ b.job.tasks, Promise tools b.kind (b.task t).targets (fun _ => False) (script t)) {as : List (PAct P)} {s s' : PState P} (hi : PInv b tools s) (h : pexec b tools script as s = some s') :
    PInv b tools s' ∧ ∃ as', exec b as' s.base = some s'.base := by
  induction as generalizing s with
  | nil => cases h; exact ⟨hi, [], rfl⟩
  | cons a as ih =>
    simp only [pexec] at h
    split at h
    · rename_i s₁ h₁
      obtain ⟨g1, g2⟩ := pstep_ok hb hs hi h₁
      obtain ⟨g3, as', g4⟩ := ih g1 h
      refine ⟨g3, ?_⟩
      rcases g2 with g2 | ⟨a', g2⟩
      · rw [g2] at g4; exact ⟨as', g4⟩
      · exact ⟨a' :: as', by simp only [exec, g2]; exact g4⟩
    · cases h

/-- **C88.** If the recipes keep their promise, then whatever a build does that executes them as scripts, step by step and several of them at the same time, is what a
build does in the sense of `Build/Model.lean`. So whatever holds for all such builds holds here as well. -/
theorem C88_refines (b : Build P) (tools : Tools P) (script : Nat → Script) (hb : b.job.Topological)
    (hs : ∀ t ∈ b.job.tasks, Promise tools b.kind (b.task t).targets (fun _ => False) (script t))
    {fs : FileSys P} {now : Nat} (hfs : ∀ p st, fs p = some st → st.dir = b.kind p) {as : List (PAct P)} {s : PState P}
    (h : pexec b tools script as (pinit b fs now) = some s) : ∃ as', exec b as' (init b fs now) = some s.base :=
  (pexec_ok hb hs (s := pinit b fs now) ⟨⟨[], rfl⟩, hfs, fun _ _ h => (by cases h), fun _ _ h => (by cases h), fun _ _ h => (by cases h)⟩ h).2

end Maike.Build
