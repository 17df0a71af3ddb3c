import Verif.Build.Processes
import Verif.Build.Necessary

/-!
# What is in the files when recipes are executed at the same time (C94)

The builds of `Build/Processes.lean`, together with the contents of files. A program writes its output bit by bit, and may leave anything behind if it fails. What it computes depends on the
files that it reads, provided that nobody else changes them while it is running.
-/

namespace Maike.Build

open Maike.Recipes (Script Mkdir exitStatus)
open Maike.Db (isExternal)

variable {P V : Type} [DecidableEq P]

/-! ## Model -/

/-- What programs and recipes compute. A program with the given arguments reads the files in `reads`. If they do not change while it is running, `result args c rc c'` says that it may return `rc` and
leave `c'` in the files that it may write, if it has been started when the contents of files were `c`. `text n c v` says that a recipe that writes the file with name `n` itself (such as
recipes/md2htmlpart.py) may write `v`. -/
structure Effects (P V : Type) (tools : Tools P) where
  reads : List String → P → Prop
  result : List String → (P → V) → Int → (P → V) → Prop
  textReads : String → P → Prop
  text : String → (P → V) → V → Prop
  result_local : ∀ {args c d rc c' d'}, (∀ q, reads args q → c q = d q) → (∀ p ∈ tools.may args, c' p = d' p) → result args c rc c' → result args d rc d'
  text_local : ∀ {n c d v}, (∀ q, textReads n q → c q = d q) → text n c v → text n d v

/-- A build, and the contents of files. `snap t` is what the files contained when the current step of the recipe of task `t` began, and `calm t` says that nobody else has written
to files that the program that it has started reads. -/
structure CState (P V : Type) where
  base : PState P
  content : P → V
  snap : Nat → P → V
  calm : Nat → Prop

def cinit (b : Build P) (fs : FileSys P) (now : Nat) (c : P → V) : CState P V := ⟨pinit b fs now, c, fun _ => c, fun _ => True⟩

/-- The recipe of task `u` has started a program that reads `p`. -/
def Reading {tools : Tools P} (eff : Effects P V tools) (s : PState P) (u : Nat) (p : P) : Prop :=
  ∃ args next wrote, s.proc u = some ⟨.run args next, wrote⟩ ∧ eff.reads args p

/-- The state after task `t` has done something: `w` is the file that has been changed, if any, with its new content, and `next` tells whether the recipe has continued with its next step. -/
def CState.after {tools : Tools P} (eff : Effects P V tools) (s : CState P V) (x : PState P) (t : Nat) (w : Option (P × V)) (next : Bool) : CState P V :=
  let c := match w with
    | some (p, v) => update s.content p v
    | none => s.content
  { base := x
    content := c
    snap := if next then update s.snap t c else s.snap
    calm := fun u => (next = true ∧ u = t) ∨ (s.calm u ∧ ∀ p v, w = some (p, v) → u ≠ t → ¬ Reading eff s.base u p) }

/-- One action. What a program writes before it has returned is arbitrary, and so is what is left behind by a copy or a write operation that has failed. -/
inductive CStep (b : Build P) (tools : Tools P) (script : Nat → Script) (eff : Effects P V tools) : PAct P → CState P V → CState P V → Prop
  | sched {a s x} : pstep b tools script (.sched a) s.base = some x → CStep b tools script eff (.sched a) s { s with base := x }
  | touchDir {p s x} : pstep b tools script (.touchDir p) s.base = some x → CStep b tools script eff (.touchDir p) s { s with base := x }
  | tick {s x} : pstep b tools script .tick s.base = some x → CStep b tools script eff .tick s { s with base := x }
  | check {k s x t} : pstep b tools script (.check k) s.base = some x → s.base.base.sched.running[k]? = some (t, .body) →
      CStep b tools script eff (.check k) s (s.after eff x t none true)
  | output {k p v s x t q} : pstep b tools script (.output k p) s.base = some x → procOf s.base k = some (t, q) →
      CStep b tools script eff (.output k p) s (s.after eff x t (some (p, v)) false)
  | notStarted {k s x t q} : pstep b tools script (.ended k none) s.base = some x → procOf s.base k = some (t, q) →
      CStep b tools script eff (.ended k none) s (s.after eff x t none true)
  | ended {k rc s x t args next wrote} : pstep b tools script (.ended k (some rc)) s.base = some x → procOf s.base k = some (t, ⟨.run args next, wrote⟩) →
      (s.calm t → eff.result args (s.snap t) rc s.content) → CStep b tools script eff (.ended k (some rc)) s (s.after eff x t none true)
  | copied {k s x t src dst next wrote} : pstep b tools script (.copied k) s.base = some x → procOf s.base k = some (t, ⟨.copy src dst next, wrote⟩) →
      CStep b tools script eff (.copied k) s (s.after eff x t (some (tools.name dst, s.content (tools.name src))) true)
  | copyFailed {k s x t q} : pstep b tools script (.copyFailed k false) s.base = some x → procOf s.base k = some (t, q) →
      CStep b tools script eff (.copyFailed k false) s (s.after eff x t none true)
  | copyPart {k v s x t src dst next wrote} : pstep b tools script (.copyFailed k true) s.base = some x → procOf s.base k = some (t, ⟨.copy src dst next, wrote⟩) →
      CStep b tools script eff (.copyFailed k true) s (s.after eff x t (some (tools.name dst, v)) true)
  | mkdir {k r s x t q} : pstep b tools script (.mkdir k r) s.base = some x → procOf s.base k = some (t, q) →
      CStep b tools script eff (.mkdir k r) s (s.after eff x t none true)
  | wroteForeign {k s x t d next wrote} : pstep b tools script (.wrote k) s.base = some x → procOf s.base k = some (t, ⟨.write d next, wrote⟩) → tools.foreign d = true →
      CStep b tools script eff (.wrote k) s (s.after eff x t none true)
  | wrote {k v s x t d next wrote} : pstep b tools script (.wrote k) s.base = some x → procOf s.base k = some (t, ⟨.write d next, wrote⟩) → tools.foreign d = false →
      eff.text d s.content v → CStep b tools script eff (.wrote k) s (s.after eff x t (some (tools.name d, v)) true)
  | writeFailed {k part s x t d next wrote} : pstep b tools script (.writeFailed k part) s.base = some x → procOf s.base k = some (t, ⟨.write d next, wrote⟩) →
      part = false ∨ tools.foreign d = true → CStep b tools script eff (.writeFailed k part) s (s.after eff x t none true)
  | writePart {k v s x t d next wrote} : pstep b tools script (.writeFailed k true) s.base = some x → procOf s.base k = some (t, ⟨.write d next, wrote⟩) → tools.foreign d = false →
      CStep b tools script eff (.writeFailed k true) s (s.after eff x t (some (tools.name d, v)) true)
  | attempted {k ok s x t q} : pstep b tools script (.attempted k ok) s.base = some x → procOf s.base k = some (t, q) →
      CStep b tools script eff (.attempted k ok) s (s.after eff x t none true)

/-- A sequence of actions. -/
inductive CExec (b : Build P) (tools : Tools P) (script : Nat → Script) (eff : Effects P V tools) : List (PAct P) → CState P V → CState P V → Prop
  | nil {s} : CExec b tools script eff [] s s
  | cons {a as s s₁ s'} : CStep b tools script eff a s s₁ → CExec b tools script eff as s₁ s' → CExec b tools script eff (a :: as) s s'

/-! ## Specification -/

/-- `Ends eff sc c n c'`: when a recipe is executed with nothing else going on, it may call `exit(n)` and leave `c'` in the files, if it has begun with `sc` and `c`. -/
def Ends {tools : Tools P} (eff : Effects P V tools) : Script → (P → V) → Int → (P → V) → Prop
  | .exit m, c, n, c' => n = m ∧ c' = c
  | .run args next, c, n, c' => Ends eff (next none) c n c' ∨
      ∃ rc c₁, (-64 ≤ rc ∧ rc ≤ 255) ∧ eff.result args c rc c₁ ∧ (∀ p, p ∉ tools.may args → c₁ p = c p) ∧ Ends eff (next (some rc)) c₁ n c'
  | .copy src dst next, c, n, c' => Ends eff (next true) (update c (tools.name dst) (c (tools.name src))) n c' ∨
      Ends eff (next false) c n c' ∨ ∃ v, Ends eff (next false) (update c (tools.name dst) v) n c'
  | .mkdir _ next, c, n, c' => ∃ r, Ends eff (next r) c n c'
  | .write d next, c, n, c' => (if tools.foreign d then Ends eff (next true) c n c' else ∃ v, eff.text d c v ∧ Ends eff (next true) (update c (tools.name d) v) n c') ∨
      Ends eff (next false) c n c' ∨ ∃ v, tools.foreign d = false ∧ Ends eff (next false) (update c (tools.name d) v) n c'
  | .attempt next, c, n, c' => ∃ ok, Ends eff (next ok) c n c'

/-- The recipe, executed alone, may exit with status zero and change the contents of files from `c` to `c'`. -/
def MakesAlone {tools : Tools P} (eff : Effects P V tools) (sc : Script) (c c' : P → V) : Prop := ∃ n, exitStatus n = 0 ∧ Ends eff sc c n c'

/-- The recipes of some tasks are executed one after the other, and all of them succeed. -/
inductive OneByOne {tools : Tools P} (eff : Effects P V tools) (script : Nat → Script) : List Nat → (P → V) → (P → V) → Prop
  | nil {c} : OneByOne eff script [] c c
  | cons {t ts c c₁ c₂} : MakesAlone eff (script t) c c₁ → OneByOne eff script ts c₁ c₂ → OneByOne eff script (t :: ts) c c₂

/-- All that a script, and the programs that it starts, read is in `inputs`, or is a file that it makes itself. -/
def Confined {tools : Tools P} (eff : Effects P V tools) (inputs : P → Prop) (own : P → Prop) : Script → Prop
  | .exit _ => True
  | .run args next => (∀ q, eff.reads args q → inputs q ∨ own q) ∧ ∀ rc, Confined eff inputs own (next rc)
  | .copy src _ next => (inputs (tools.name src) ∨ own (tools.name src)) ∧ ∀ ok, Confined eff inputs own (next ok)
  | .mkdir _ next => ∀ r, Confined eff inputs own (next r)
  | .write d next => (∀ q, eff.textReads d q → inputs q ∨ own q) ∧ ∀ ok, Confined eff inputs own (next ok)
  | .attempt next => ∀ ok, Confined eff inputs own (next ok)

/-- The targets of task `t` that are files. -/
def Own (b : Build P) (t : Nat) (p : P) : Prop := p ∈ (b.task t).targets ∧ b.kind p = false

/-- What the recipe of task `t` may read: the file that the targets are made from, its dependencies unless they are directories or external, and files that are not made by the build. -/
def MaySee (b : Build P) (t : Nat) (p : P) : Prop := In b t p ∨ ∀ u ∈ b.job.tasks, p ∉ (b.task u).targets

/-- The recipes keep their promise (C88), and what they read is what they may read, or is their own target. -/
structure Known (b : Build P) (tools : Tools P) (eff : Effects P V tools) (script : Nat → Script) : Prop where
  promise : ∀ t ∈ b.job.tasks, Promise tools b.kind (b.task t).targets (fun _ => False) (script t)
  confined : ∀ t ∈ b.job.tasks, Confined eff (MaySee b t) (Own b t) (script t)

/-- Each task of the list comes after those that it depends on, if they are in the list as well. -/
def DepsFirst (j : TaskList.Job) (order : List Nat) : Prop := ∀ l₁ t l₂, order = l₁ ++ t :: l₂ → ∀ u ∈ j.deps t, u ∈ order → u ∈ l₁

/-! ## Proof -/

/-- `Alone eff sc c sc' c'`: when a recipe is executed with nothing else going on, it may arrive at `sc'` step by step, and the contents of files may be `c'` then, if it has begun with `sc` and `c`. -/
inductive Alone {tools : Tools P} (eff : Effects P V tools) : Script → (P → V) → Script → (P → V) → Prop
  | refl {sc c} : Alone eff sc c sc c
  | ran {sc c args next rc c₁ c₂} : Alone eff sc c (.run args next) c₁ → -64 ≤ rc → rc ≤ 255 → eff.result args c₁ rc c₂ → (∀ p, p ∉ tools.may args → c₂ p = c₁ p) →
      Alone eff sc c (next (some rc)) c₂
  | notStarted {sc c args next c₁} : Alone eff sc c (.run args next) c₁ → Alone eff sc c (next none) c₁
  | copied {sc c src dst next c₁} : Alone eff sc c (.copy src dst next) c₁ → Alone eff sc c (next true) (update c₁ (tools.name dst) (c₁ (tools.name src)))
  | copyFailed {sc c src dst next c₁} : Alone eff sc c (.copy src dst next) c₁ → Alone eff sc c (next false) c₁
  | copyPart {sc c src dst next c₁ v} : Alone eff sc c (.copy src dst next) c₁ → Alone eff sc c (next false) (update c₁ (tools.name dst) v)
  | mkdir {sc c d next r c₁} : Alone eff sc c (.mkdir d next) c₁ → Alone eff sc c (next r) c₁
  | wroteForeign {sc c d next c₁} : Alone eff sc c (.write d next) c₁ → tools.foreign d = true → Alone eff sc c (next true) c₁
  | wrote {sc c d next c₁ v} : Alone eff sc c (.write d next) c₁ → tools.foreign d = false → eff.text d c₁ v → Alone eff sc c (next true) (update c₁ (tools.name d) v)
  | writeFailed {sc c d next c₁} : Alone eff sc c (.write d next) c₁ → Alone eff sc c (next false) c₁
  | writePart {sc c d next c₁ v} : Alone eff sc c (.write d next) c₁ → tools.foreign d = false → Alone eff sc c (next false) (update c₁ (tools.name d) v)
  | attempted {sc c next ok c₁} : Alone eff sc c (.attempt next) c₁ → Alone eff sc c (next ok) c₁

theorem ends_of_alone {tools : Tools P} {eff : Effects P V tools} {sc sc' : Script} {c c' c'' : P → V} {n : Int} (h : Alone eff sc c sc' c') (he : Ends eff sc' c' n c'') : Ends eff sc c n c'' := by
  induction h with
  | refl => exact he
  | ran _ h1 h2 h3 h4 ih => exact ih (.inr ⟨_, _, ⟨h1, h2⟩, h3, h4, he⟩)
  | notStarted _ ih => exact ih (.inl he)
  | copied _ ih => exact ih (.inl he)
  | copyFailed _ ih => exact ih (.inr (.inl he))
  | copyPart _ ih => exact ih (.inr (.inr ⟨_, he⟩))
  | mkdir _ ih => exact ih ⟨_, he⟩
  | wroteForeign _ hf ih => exact ih (.inl (by rw [if_pos hf]; exact he))
  | wrote _ hf ht ih => exact ih (.inl (by rw [if_neg (by rw [hf]; simp)]; exact ⟨_, ht, he⟩))
  | writeFailed _ ih => exact ih (.inr (.inl he))
  | writePart _ hf ih => exact ih (.inr (.inr ⟨_, hf, he⟩))
  | attempted _ ih => exact ih ⟨_, he⟩

/-- What programs of the current step may have written. -/
def mayOf (tools : Tools P) : Script → List P
  | .run args _ => tools.may args
  | _ => []

structure CInv (b : Build P) (tools : Tools P) (eff : Effects P V tools) (script : Nat → Script) (c : P → V) (s : CState P V) : Prop where
  pinv : PInv b tools s.base
  started : ∀ t, s.base.base.decision t ≠ none → .start t ∈ s.base.base.sched.hist
  conf : ∀ t q, s.base.proc t = some q → Confined eff (MaySee b t) (Own b t) q.script
  calm : ∀ t, s.calm t
  untouched : ∀ t ∈ b.job.tasks, s.base.proc t = none → ∀ p, Own b t p → s.content p = c p
  snapIn : ∀ t q, s.base.proc t = some q → ∀ p, MaySee b t p → s.snap t p = s.content p
  snapOut : ∀ t q, s.base.proc t = some q → ∀ p, Own b t p → p ∉ q.wrote → s.snap t p = s.content p
  wrote : ∀ t q, s.base.proc t = some q → ∀ p ∈ q.wrote, p ∈ mayOf tools q.script
  alone : ∀ t q, s.base.proc t = some q → ∃ c₀ c₁, Alone eff (script t) c₀ q.script c₁ ∧ (∀ p, Own b t p → c₀ p = c p ∧ c₁ p = s.snap t p) ∧
    (∀ p, MaySee b t p → c₀ p = s.content p ∧ c₁ p = s.content p)
  other : ∀ p, (∀ t ∈ b.job.tasks, ¬ Own b t p) → s.content p = c p
  ended : ∀ t, .finish t .success ∈ s.base.base.sched.hist → s.base.base.decision t = some .run → b.dryrun = false → ∃ n, s.base.proc t = some ⟨.exit n, []⟩ ∧ exitStatus n = 0

section

variable {b : Build P} {tools : Tools P} {eff : Effects P V tools} {script : Nat → Script} {c : P → V} {s : CState P V}

theorem proc_started (hi : CInv b tools eff script c s) {t : Nat} {q : Proc P} (hq : s.base.proc t = some q) : .start t ∈ s.base.base.sched.hist :=
  hi.started t (by rw [(hi.pinv.live t q hq).1]; simp)

/-- What is being written is not read by anyone who has started. -/
theorem not_in (hb : b.Sane) (hi : CInv b tools eff script c s) {k t : Nat} (hk : s.base.base.sched.running[k]? = some (t, .body)) {u : Nat} {r : Proc P}
    (hr : s.base.proc u = some r) {p : P} (hp : Own b t p) : ¬ MaySee b u p := by
  intro hin
  obtain ⟨_, hnf, ht⟩ := TaskList.body_facts hb.topological hi.pinv.sched hk
  have hst := proc_started hi hr
  have hu := TaskList.started_task hb.topological hi.pinv.sched hst
  rcases hin with hin | hin
  · exact hnf _ (TaskList.dep_done hb.topological hi.pinv.sched hst (hb.waits u hu p hin.2 hin.1 t ht hp.1) ht)
  · exact hin t ht hp.1

theorem own_unique (hb : b.Sane) (hi : CInv b tools eff script c s) {k t : Nat} (hk : s.base.base.sched.running[k]? = some (t, .body)) {u : Nat} (hu : u ∈ b.job.tasks) {p : P}
    (hp : Own b t p) (hpu : Own b u p) : u = t :=
  hb.owner u hu t (TaskList.body_facts hb.topological hi.pinv.sched hk).2.2 p hpu.1 hp.1 hp.2

/-- Nobody is disturbed. -/
theorem calm_after (hb : b.Sane) (hi : CInv b tools eff script c s) {k t : Nat} (hk : s.base.base.sched.running[k]? = some (t, .body)) {w : Option (P × V)}
    (hw : ∀ p v, w = some (p, v) → Own b t p) {x : PState P} {next : Bool} : ∀ u, (s.after eff x t w next).calm u := by
  intro u
  refine .inr ⟨hi.calm u, fun p v hpv hut hre => ?_⟩
  obtain ⟨args, nxt, wr, hq, hrd⟩ := hre
  have hown := hw p v hpv
  rcases (hi.conf u _ hq).1 p hrd with h | h
  · exact not_in hb hi hk hq hown h
  · exact hut (own_unique hb hi hk (TaskList.started_task hb.topological hi.pinv.sched (proc_started hi hq)) hown h)

/-- What is in the other files is what has been there before. -/
theorem after_content {x : PState P} {t : Nat} {w : Option (P × V)} {next : Bool} {p : P} (h : ∀ p' v, w = some (p', v) → p ≠ p') :
    (s.after eff x t w next).content p = s.content p := by
  unfold CState.after
  cases w with
  | none => rfl
  | some pv => exact update_ne _ _ (h pv.1 pv.2 rfl)

theorem after_snap {x : PState P} {t u : Nat} {w : Option (P × V)} {next : Bool} (h : next = true → u ≠ t) : (s.after eff x t w next).snap u = s.snap u := by
  unfold CState.after
  cases next with
  | false => rfl
  | true => exact update_ne _ _ (h rfl)

/-- The recipe of a task that is running has done something. -/
theorem after_ok (hb : b.Sane) (hi : CInv b tools eff script c s) {k t : Nat} {q q' : Proc P} (hk : s.base.base.sched.running[k]? = some (t, .body)) (hq : s.base.proc t = some q)
    {x : PState P} (hx : PInv b tools x) (h1 : x.base.sched = s.base.base.sched) (h2 : x.base.decision = s.base.base.decision) (h3 : x.proc = update s.base.proc t (some q'))
    {w : Option (P × V)} (hw : ∀ p v, w = some (p, v) → Own b t p) {next : Bool} (hconf : Confined eff (MaySee b t) (Own b t) q'.script)
    (hout : ∀ p, Own b t p → p ∉ q'.wrote → (s.after eff x t w next).snap t p = (s.after eff x t w next).content p)
    (hwr : ∀ p ∈ q'.wrote, p ∈ mayOf tools q'.script)
    (hal : ∀ c₀ c₁, Alone eff (script t) c₀ q.script c₁ → (∀ p, Own b t p → c₁ p = s.snap t p) → (∀ p, MaySee b t p → c₁ p = s.content p) →
      ∃ c₂, Alone eff (script t) c₀ q'.script c₂ ∧ (∀ p, Own b t p → c₂ p = (s.after eff x t w next).snap t p) ∧ (∀ p, MaySee b t p → c₂ p = s.content p)) :
    CInv b tools eff script c (s.after eff x t w next) := by
  have hin : ∀ u r, s.base.proc u = some r → ∀ p, MaySee b u p → (s.after eff x t w next).content p = s.content p := fun u r hr p hp =>
    after_content fun p' v e h => not_in hb hi hk hr (hw p' v e) (h ▸ hp)
  have hother : ∀ u ∈ b.job.tasks, u ≠ t → ∀ p, Own b u p → (s.after eff x t w next).content p = s.content p := fun u hu hut p hp =>
    after_content fun p' v e h => hut (own_unique hb hi hk hu (hw p' v e) (h ▸ hp))
  have htask : ∀ u r, s.base.proc u = some r → u ∈ b.job.tasks := fun u r hr => TaskList.started_task hb.topological hi.pinv.sched (proc_started hi hr)
  obtain ⟨_, hnf, htt⟩ := TaskList.body_facts hb.topological hi.pinv.sched hk
  have hproc : ∀ u, (s.after eff x t w next).base.proc u = if u = t then some q' else s.base.proc u := fun u => by
    show x.proc u = _; rw [h3]; rfl
  have hsnap : ∀ u, u ≠ t → (s.after eff x t w next).snap u = s.snap u := fun u h => after_snap fun _ => h
  refine ⟨hx, ?_, ?_, calm_after hb hi hk hw, ?_, ?_, ?_, ?_, ?_, ?_, ?_⟩
  · intro u hu
    show _ ∈ x.base.sched.hist
    rw [h1]; exact hi.started u (by rw [← h2]; exact hu)
  · intro u r hr
    rw [hproc] at hr
    split at hr
    · rename_i e; subst e; cases hr; exact hconf
    · exact hi.conf u r hr
  · intro u hu hr p hp
    rw [hproc] at hr
    split at hr
    · cases hr
    · rename_i e
      rw [hother u hu e p hp]; exact hi.untouched u hu hr p hp
  · intro u r hr p hp
    rw [hproc] at hr
    split at hr
    · rename_i e; subst e
      rw [hin u q hq p hp]
      unfold CState.after
      cases next with
      | false => exact hi.snapIn u q hq p hp
      | true =>
        simp only [if_true, update_self]
        have := hin u q hq p hp
        exact this
    · rename_i e
      rw [hsnap u e, hin u r hr p hp]; exact hi.snapIn u r hr p hp
  · intro u r hr p hp hpw
    rw [hproc] at hr
    split at hr
    · rename_i e; subst e; cases hr; exact hout p hp hpw
    · rename_i e
      rw [hsnap u e, hother u (htask u r hr) e p hp]; exact hi.snapOut u r hr p hp hpw
  · intro u r hr p hp
    rw [hproc] at hr
    split at hr
    · rename_i e; subst e; cases hr; exact hwr p hp
    · exact hi.wrote u r hr p hp
  · intro u r hr
    rw [hproc] at hr
    split at hr
    · rename_i e; subst e; cases hr
      obtain ⟨c₀, c₁, g1, g2, g3⟩ := hi.alone u q hq
      obtain ⟨c₂, g4, g5, g6⟩ := hal c₀ c₁ g1 (fun p hp => (g2 p hp).2) (fun p hp => (g3 p hp).2)
      exact ⟨c₀, c₂, g4, fun p hp => ⟨(g2 p hp).1, g5 p hp⟩, fun p hp => by rw [hin u q hq p hp]; exact ⟨(g3 p hp).1, g6 p hp⟩⟩
    · rename_i e
      obtain ⟨c₀, c₁, g1, g2, g3⟩ := hi.alone u r hr
      exact ⟨c₀, c₁, g1, fun p hp => by rw [hsnap u e]; exact g2 p hp, fun p hp => by rw [hin u r hr p hp]; exact g3 p hp⟩
  · intro p hp
    rw [after_content (p := p) fun p' v e (h : p = p') => hp t htt (h.symm ▸ hw p' v e)]
    exact hi.other p hp
  · intro u hu hd hdry
    have hu : .finish u .success ∈ s.base.base.sched.hist := by rw [← h1]; exact hu
    have hd : s.base.base.decision u = some .run := by rw [← h2]; exact hd
    rw [hproc, if_neg (fun e => hnf _ (e ▸ hu))]
    exact hi.ended u hu hd hdry

/-- The recipe goes on with its next step. -/
theorem next_ok (hb : b.Sane) (hi : CInv b tools eff script c s) {k t : Nat} {q : Proc P} {sc : Script} (hk : s.base.base.sched.running[k]? = some (t, .body))
    (hq : s.base.proc t = some q) {x : PState P} (hx : PInv b tools x) (h1 : x.base.sched = s.base.base.sched) (h2 : x.base.decision = s.base.base.decision)
    (h3 : x.proc = update s.base.proc t (some ⟨sc, []⟩)) {w : Option (P × V)} (hw : ∀ p v, w = some (p, v) → Own b t p) (hconf : Confined eff (MaySee b t) (Own b t) sc)
    (hal : ∀ c₀ c₁, Alone eff (script t) c₀ q.script c₁ → (∀ p, Own b t p → c₁ p = s.snap t p) → (∀ p, MaySee b t p → c₁ p = s.content p) →
      ∃ c₂, Alone eff (script t) c₀ sc c₂ ∧ (∀ p, Own b t p → c₂ p = (match w with | some (p, v) => update s.content p v | none => s.content) p) ∧
        (∀ p, MaySee b t p → c₂ p = s.content p)) :
    CInv b tools eff script c (s.after eff x t w true) := by
  refine after_ok hb hi hk hq hx h1 h2 h3 hw hconf (fun p hp _ => ?_) (by simp) fun c₀ c₁ g1 g2 g3 => ?_
  · simp [CState.after, update_self]
  · obtain ⟨c₂, g4, g5, g6⟩ := hal c₀ c₁ g1 g2 g3
    refine ⟨c₂, g4, fun p hp => ?_, g6⟩
    rw [g5 p hp]
    simp [CState.after, update_self]

theorem cinv_step (hb : b.Sane) (hkn : Known b tools eff script) {a : PAct P} {s' : CState P V} (hi : CInv b tools eff script c s) (h : CStep b tools script eff a s s') :
    CInv b tools eff script c s' := by
  have hpinv : ∀ {a x}, pstep b tools script a s.base = some x → PInv b tools x := fun h => (pstep_ok hb.topological hkn.promise hi.pinv h).1
  -- what a file that is not being written contains
  have hsame : ∀ {t : Nat} {q : Proc P} {c₁ : P → V}, s.base.proc t = some q → q.wrote = [] → (∀ p, Own b t p → c₁ p = s.snap t p) → ∀ p, Own b t p → c₁ p = s.content p :=
    fun hq hw h p hp => by rw [h p hp]; exact hi.snapOut _ _ hq p hp (by simp [hw])
  cases h with
  | @sched a _ x hx =>
    have hp := hpinv hx
    simp only [pstep] at hx
    split at hx
    · rename_i hal
      split at hx
      · rename_i st hst
        cases hx
        have hsub : ∀ e ∈ s.base.base.sched.hist, e ∈ st.hist := fun e he => by
          obtain ⟨l, hl⟩ := TaskList.step_hist hst
          rw [hl]; exact List.mem_append_left _ he
        refine ⟨hp, fun t ht => hsub _ (hi.started t ht), hi.conf, hi.calm, hi.untouched, hi.snapIn, hi.snapOut, hi.wrote, hi.alone, hi.other, ?_⟩
        intro t hf hd hdry
        rcases TaskList.step_success hst hf with hold | ⟨k, rfl, hk⟩
        · exact hi.ended t hold hd hdry
        · have hd : s.base.base.decision t = some .run := hd
          simp only [pallowed, hk, pmayEnd, hd, hdry, Bool.false_eq_true, if_false, ne_eq, not_true_eq_false, decide_false, Bool.false_or] at hal
          split at hal
          · rename_i n wr hq
            refine ⟨n, ?_, by simpa using hal⟩
            have hwr := hi.wrote t _ hq
            have : wr = [] := by
              cases wr with
              | nil => rfl
              | cons y ys => exact absurd (hwr y (by simp)) (by simp [mayOf])
            rw [← this]; exact hq
          · cases hal
      · cases hx
    · cases hx
  | @touchDir p _ x hx =>
    have hp := hpinv hx
    simp only [pstep] at hx
    split at hx
    · cases hx
      exact ⟨hp, hi.started, hi.conf, hi.calm, hi.untouched, hi.snapIn, hi.snapOut, hi.wrote, hi.alone, hi.other, hi.ended⟩
    · cases hx
  | @tick _ x hx =>
    have hp := hpinv hx
    simp only [pstep] at hx
    cases hx
    exact ⟨hp, hi.started, hi.conf, hi.calm, hi.untouched, hi.snapIn, hi.snapOut, hi.wrote, hi.alone, hi.other, hi.ended⟩
  | @check k _ x t hx hk =>
    have hp := hpinv hx
    obtain ⟨hst, hnf, ht⟩ := TaskList.body_facts hb.topological hi.pinv.sched hk
    simp only [pstep, hk] at hx
    split at hx
    · rename_i hd
      cases hx
      have hnone : s.base.proc t = none := by
        cases hq : s.base.proc t with
        | none => rfl
        | some q => have := (hi.pinv.live t q hq).1; rw [hd] at this; cases this
      generalize hdec : decisionOf (shouldRun s.base.base.fs b.force (b.task t)) = dec at *
      -- what is known about a recipe after this action
      have hcase : ∀ u r, (if dec = .run ∧ b.dryrun = false then update s.base.proc t (some ⟨script t, []⟩) else s.base.proc) u = some r →
          (u = t ∧ r = ⟨script t, []⟩) ∨ (u ≠ t ∧ s.base.proc u = some r) := by
        intro u r hr
        by_cases e : u = t
        · subst e
          split at hr
          · rw [update_self] at hr; cases hr; exact .inl ⟨rfl, rfl⟩
          · rw [hnone] at hr; cases hr
        · split at hr
          · rw [update_ne _ _ e] at hr; exact .inr ⟨e, hr⟩
          · exact .inr ⟨e, hr⟩
      have hsn : ∀ u, u ≠ t → (update s.snap t s.content) u = s.snap u := fun u h => update_ne _ _ h
      refine ⟨hp, ?_, ?_, calm_after hb hi hk (by simp), ?_, ?_, ?_, ?_, ?_, hi.other, ?_⟩
      · intro u hu
        by_cases e : u = t
        · subst e; exact hst
        · refine hi.started u ?_
          simpa only [CState.after, update_ne _ _ e] using hu
      · intro u r hr
        rcases hcase u r hr with ⟨rfl, rfl⟩ | ⟨_, h⟩
        · exact hkn.confined u ht
        · exact hi.conf u r h
      · intro u hu hr p hp
        refine hi.untouched u hu ?_ p hp
        by_cases e : u = t
        · rw [e]; exact hnone
        · simp only [CState.after] at hr
          split at hr
          · rwa [update_ne _ _ e] at hr
          · exact hr
      · intro u r hr p hp
        simp only [CState.after, if_true]
        rcases hcase u r hr with ⟨rfl, rfl⟩ | ⟨e, h⟩
        · rw [update_self]
        · rw [hsn u e]; exact hi.snapIn u r h p hp
      · intro u r hr p hp hw
        simp only [CState.after, if_true]
        rcases hcase u r hr with ⟨rfl, rfl⟩ | ⟨e, h⟩
        · rw [update_self]
        · rw [hsn u e]; exact hi.snapOut u r h p hp hw
      · intro u r hr p hp
        rcases hcase u r hr with ⟨rfl, rfl⟩ | ⟨e, h⟩
        · cases hp
        · exact hi.wrote u r h p hp
      · intro u r hr
        simp only [CState.after, if_true]
        rcases hcase u r hr with ⟨rfl, rfl⟩ | ⟨e, h⟩
        · exact ⟨s.content, s.content, .refl, fun p hp => ⟨hi.untouched u ht hnone p hp, by rw [update_self]⟩, fun p hp => ⟨rfl, rfl⟩⟩
        · rw [hsn u e]; exact hi.alone u r h
      · intro u hf hd' hdry
        have hne : u ≠ t := fun e => hnf _ (e ▸ hf)
        obtain ⟨n, g1, g2⟩ := hi.ended u hf (by simpa only [CState.after, update_ne _ _ hne] using hd') hdry
        refine ⟨n, ?_, g2⟩
        simp only [CState.after]
        split
        · rw [update_ne _ _ hne]; exact g1
        · exact g1
    · cases hx
  | @output k p v _ x t q hx hpk =>
    have hp := hpinv hx
    obtain ⟨hk, hq⟩ := procOf_eq hpk
    obtain ⟨sc, wr⟩ := q
    cases sc with
    | run args next =>
      simp only [pstep, hpk] at hx
      split at hx
      · rename_i hmay
        cases hx
        have hpr := hi.pinv.promise t _ hq
        have hown : Own b t p := hpr.1 p hmay
        refine after_ok (q' := ⟨.run args next, p :: wr⟩) hb hi hk hq hp rfl rfl rfl (fun p' v' e => by cases e; exact hown) (show Confined eff (MaySee b t) (Own b t) (.run args next) from hi.conf t _ hq) ?_ ?_ ?_
        · intro p' hp' hw
          rw [List.mem_cons, not_or] at hw
          rw [after_snap (by simp), after_content (fun p'' v'' e => by cases e; exact hw.1)]
          exact hi.snapOut t _ hq p' hp' hw.2
        · intro p' hp'
          rcases List.mem_cons.mp hp' with rfl | h
          · exact hmay
          · exact hi.wrote t _ hq p' h
        · intro c₀ c₁ g1 g2 g3
          exact ⟨c₁, g1, fun p' hp' => by rw [after_snap (by simp)]; exact g2 p' hp', g3⟩
      · cases hx
    | _ => simp [pstep, hpk] at hx
  | @notStarted k _ x t q hx hpk =>
    have hp := hpinv hx
    obtain ⟨hk, hq⟩ := procOf_eq hpk
    obtain ⟨sc, wr⟩ := q
    cases sc with
    | run args next =>
      simp only [pstep, hpk] at hx
      split at hx
      · rename_i hwr
        cases hx
        exact next_ok hb hi hk hq hp rfl rfl rfl (by simp) ((hi.conf t _ hq).2 none) fun c₀ c₁ g1 g2 g3 => ⟨c₁, .notStarted g1, hsame hq hwr g2, g3⟩
      · cases hx
    | _ => simp [pstep, hpk] at hx
  | @ended k rc _ x t args next wr hx hpk hres =>
    have hp := hpinv hx
    obtain ⟨hk, hq⟩ := procOf_eq hpk
    simp only [pstep, hpk] at hx
    split at hx
    · rename_i hrc
      cases hx
      refine next_ok hb hi hk hq hp rfl rfl rfl (by simp) ((hi.conf t _ hq).2 (some rc)) fun c₀ c₁ g1 g2 g3 => ?_
      refine ⟨fun p => if p ∈ tools.may args then s.content p else c₁ p, .ran g1 hrc.1 hrc.2.1 ?_ (fun p hp => if_neg hp), fun p hp => ?_, fun p hp => ?_⟩
      · refine eff.result_local (fun p hp => ?_) (fun p hp => (if_pos hp).symm) (hres (hi.calm t))
        rcases (hi.conf t _ hq).1 p hp with h | h
        · rw [g3 p h]; exact hi.snapIn t _ hq p h
        · exact (g2 p h).symm
      · dsimp only
        split
        · rfl
        · rename_i hm
          rw [g2 p hp]
          exact hi.snapOut t _ hq p hp fun hw => hm (hi.wrote t _ hq p hw)
      · dsimp only
        split
        · rfl
        · exact g3 p hp
    · cases hx
  | @copied k _ x t src dst next wr hx hpk =>
    have hp := hpinv hx
    obtain ⟨hk, hq⟩ := procOf_eq hpk
    have hw0 : wr = [] := by
      cases wr with
      | nil => rfl
      | cons y ys => exact absurd (hi.wrote t _ hq y (by simp)) (by simp [mayOf])
    subst hw0
    simp only [pstep, hpk] at hx
    split at hx
    · cases hx
      have hpr := hi.pinv.promise t _ hq
      have hown : Own b t (tools.name dst) := hpr.1
      refine next_ok hb hi hk hq hp rfl rfl rfl (fun p' v' e => by cases e; exact hown) ((hi.conf t _ hq).2 true) fun c₀ c₁ g1 g2 g3 => ⟨_, .copied g1, fun p hp => ?_, fun p hp => ?_⟩
      · have hsrc : c₁ (tools.name src) = s.content (tools.name src) := by
          rcases (hi.conf t _ hq).1 with h | h
          · exact g3 _ h
          · exact hsame hq rfl g2 _ h
        rw [hsrc]
        simp only [update]
        split
        · rfl
        · exact hsame hq rfl g2 p hp
      · exact (update_ne _ _ fun e => not_in hb hi hk hq hown (by rw [← e]; exact hp)).trans (g3 p hp)
    · cases hx
  | @copyFailed k _ x t q hx hpk =>
    have hp := hpinv hx
    obtain ⟨hk, hq⟩ := procOf_eq hpk
    obtain ⟨sc, wr⟩ := q
    cases sc with
    | copy src dst next =>
      have hw0 : wr = [] := by
        cases wr with
        | nil => rfl
        | cons y ys => exact absurd (hi.wrote t _ hq y (by simp)) (by simp [mayOf])
      subst hw0
      simp only [pstep, hpk, Bool.false_eq_true, if_false] at hx
      cases hx
      exact next_ok hb hi hk hq hp rfl rfl rfl (by simp) ((hi.conf t _ hq).2 false) fun c₀ c₁ g1 g2 g3 => ⟨c₁, .copyFailed g1, hsame hq rfl g2, g3⟩
    | _ => simp [pstep, hpk] at hx
  | @copyPart k v _ x t src dst next wr hx hpk =>
    have hp := hpinv hx
    obtain ⟨hk, hq⟩ := procOf_eq hpk
    have hw0 : wr = [] := by
      cases wr with
      | nil => rfl
      | cons y ys => exact absurd (hi.wrote t _ hq y (by simp)) (by simp [mayOf])
    subst hw0
    simp only [pstep, hpk, if_true] at hx
    split at hx
    · cases hx
      have hown : Own b t (tools.name dst) := (hi.pinv.promise t _ hq).1
      refine next_ok hb hi hk hq hp rfl rfl rfl (fun p' v' e => by cases e; exact hown) ((hi.conf t _ hq).2 false) fun c₀ c₁ g1 g2 g3 =>
        ⟨_, .copyPart (v := v) g1, fun p hp => ?_, fun p hp => ?_⟩
      · simp only [update]
        split
        · rfl
        · exact hsame hq rfl g2 p hp
      · exact (update_ne _ _ fun e => not_in hb hi hk hq hown (by rw [← e]; exact hp)).trans (g3 p hp)
    · cases hx
  | @mkdir k r _ x t q hx hpk =>
    have hp := hpinv hx
    obtain ⟨hk, hq⟩ := procOf_eq hpk
    obtain ⟨sc, wr⟩ := q
    cases sc with
    | mkdir d next =>
      have hw0 : wr = [] := by
        cases wr with
        | nil => rfl
        | cons y ys => exact absurd (hi.wrote t _ hq y (by simp)) (by simp [mayOf])
      subst hw0
      have hx' : x.base.sched = s.base.base.sched ∧ x.base.decision = s.base.base.decision ∧ x.proc = update s.base.proc t (some ⟨next r, []⟩) := by
        simp only [pstep, hpk] at hx
        split at hx
        · cases hx; exact ⟨rfl, rfl, rfl⟩
        · cases r with
          | made => simp only at hx; split at hx <;> cases hx; exact ⟨rfl, rfl, rfl⟩
          | existed => simp only at hx; split at hx <;> cases hx; exact ⟨rfl, rfl, rfl⟩
          | failed => simp only at hx; cases hx; exact ⟨rfl, rfl, rfl⟩
      exact next_ok hb hi hk hq hp hx'.1 hx'.2.1 hx'.2.2 (by simp) (hi.conf t _ hq r) fun c₀ c₁ g1 g2 g3 => ⟨c₁, .mkdir g1, hsame hq rfl g2, g3⟩
    | _ => simp [pstep, hpk] at hx
  | @wroteForeign k _ x t d next wr hx hpk hf =>
    have hp := hpinv hx
    obtain ⟨hk, hq⟩ := procOf_eq hpk
    have hw0 : wr = [] := by
      cases wr with
      | nil => rfl
      | cons y ys => exact absurd (hi.wrote t _ hq y (by simp)) (by simp [mayOf])
    subst hw0
    simp only [pstep, hpk, hf, if_true] at hx
    cases hx
    exact next_ok hb hi hk hq hp rfl rfl rfl (by simp) ((hi.conf t _ hq).2 true) fun c₀ c₁ g1 g2 g3 => ⟨c₁, .wroteForeign g1 hf, hsame hq rfl g2, g3⟩
  | @wrote k v _ x t d next wr hx hpk hf htext =>
    have hp := hpinv hx
    obtain ⟨hk, hq⟩ := procOf_eq hpk
    have hw0 : wr = [] := by
      cases wr with
      | nil => rfl
      | cons y ys => exact absurd (hi.wrote t _ hq y (by simp)) (by simp [mayOf])
    subst hw0
    simp only [pstep, hpk, hf, Bool.false_eq_true, if_false] at hx
    split at hx
    · cases hx
      have hown : Own b t (tools.name d) := (hi.pinv.promise t _ hq).1 hf
      refine next_ok hb hi hk hq hp rfl rfl rfl (fun p' v' e => by cases e; exact hown) ((hi.conf t _ hq).2 true) fun c₀ c₁ g1 g2 g3 =>
        ⟨_, .wrote (v := v) g1 hf (eff.text_local (fun p hp => ?_) htext), fun p hp => ?_, fun p hp => ?_⟩
      · rcases (hi.conf t _ hq).1 p hp with h | h
        · exact (g3 p h).symm
        · exact (hsame hq rfl g2 p h).symm
      · simp only [update]
        split
        · rfl
        · exact hsame hq rfl g2 p hp
      · exact (update_ne _ _ fun e => not_in hb hi hk hq hown (by rw [← e]; exact hp)).trans (g3 p hp)
    · cases hx
  | @writeFailed k part _ x t d next wr hx hpk hor =>
    have hp := hpinv hx
    obtain ⟨hk, hq⟩ := procOf_eq hpk
    have hw0 : wr = [] := by
      cases wr with
      | nil => rfl
      | cons y ys => exact absurd (hi.wrote t _ hq y (by simp)) (by simp [mayOf])
    subst hw0
    have hnot : ¬ (part = true ∧ tools.foreign d = false) := by
      rintro ⟨h1, h2⟩
      rcases hor with h | h
      · rw [h1] at h; cases h
      · rw [h2] at h; cases h
    simp only [pstep, hpk] at hx
    rw [if_neg hnot] at hx
    cases hx
    exact next_ok hb hi hk hq hp rfl rfl rfl (by simp) ((hi.conf t _ hq).2 false) fun c₀ c₁ g1 g2 g3 => ⟨c₁, .writeFailed g1, hsame hq rfl g2, g3⟩
  | @writePart k v _ x t d next wr hx hpk hf =>
    have hp := hpinv hx
    obtain ⟨hk, hq⟩ := procOf_eq hpk
    have hw0 : wr = [] := by
      cases wr with
      | nil => rfl
      | cons y ys => exact absurd (hi.wrote t _ hq y (by simp)) (by simp [mayOf])
    subst hw0
    simp only [pstep, hpk, hf, and_self, if_true] at hx
    split at hx
    · cases hx
      have hown : Own b t (tools.name d) := (hi.pinv.promise t _ hq).1 hf
      refine next_ok hb hi hk hq hp rfl rfl rfl (fun p' v' e => by cases e; exact hown) ((hi.conf t _ hq).2 false) fun c₀ c₁ g1 g2 g3 =>
        ⟨_, .writePart (v := v) g1 hf, fun p hp => ?_, fun p hp => ?_⟩
      · simp only [update]
        split
        · rfl
        · exact hsame hq rfl g2 p hp
      · exact (update_ne _ _ fun e => not_in hb hi hk hq hown (by rw [← e]; exact hp)).trans (g3 p hp)
    · cases hx
  | @attempted k ok _ x t q hx hpk =>
    have hp := hpinv hx
    obtain ⟨hk, hq⟩ := procOf_eq hpk
    obtain ⟨sc, wr⟩ := q
    cases sc with
    | attempt next =>
      have hw0 : wr = [] := by
        cases wr with
        | nil => rfl
        | cons y ys => exact absurd (hi.wrote t _ hq y (by simp)) (by simp [mayOf])
      subst hw0
      simp only [pstep, hpk] at hx
      cases hx
      exact next_ok hb hi hk hq hp rfl rfl rfl (by simp) (hi.conf t _ hq ok) fun c₀ c₁ g1 g2 g3 => ⟨c₁, .attempted g1, hsame hq rfl g2, g3⟩
    | _ => simp [pstep, hpk] at hx

theorem cinv_exec (hb : b.Sane) (hkn : Known b tools eff script) {as : List (PAct P)} {s' : CState P V} (hi : CInv b tools eff script c s)
    (h : CExec b tools script eff as s s') : CInv b tools eff script c s' := by
  induction h with
  | nil => exact hi
  | cons h1 _ ih => exact ih (cinv_step hb hkn hi h1)

theorem cinv_init {fs : FileSys P} {now : Nat} (hfs : ∀ p st, fs p = some st → st.dir = b.kind p) : CInv b tools eff script c (cinit b fs now c) where
  pinv := ⟨⟨[], rfl⟩, hfs, fun _ _ h => (by cases h), fun _ _ h => (by cases h), fun _ _ h => (by cases h)⟩
  started := fun t h => absurd rfl h
  conf := fun _ _ h => by cases h
  calm := fun _ => trivial
  untouched := fun _ _ _ _ _ => rfl
  snapIn := fun _ _ h => by cases h
  snapOut := fun _ _ h => by cases h
  wrote := fun _ _ h => by cases h
  alone := fun _ _ h => by cases h
  other := fun _ _ => rfl
  ended := fun _ h => by cases h

/-- A build with contents is a build. -/
theorem cexec_pexec {as : List (PAct P)} {s' : CState P V} (h : CExec b tools script eff as s s') : pexec b tools script as s.base = some s'.base := by
  induction h with
  | nil => rfl
  | @cons a as s s₁ s' h1 _ ih =>
    have : pstep b tools script a s.base = some s₁.base := by cases h1 <;> assumption
    simp only [pexec, this]
    exact ih

/-- What a recipe does depends only on what is in its inputs and in its targets, and nothing but its targets is changed. -/
theorem alone_local {t : Nat} {sc sc' : Script} {c c' : P → V} (h : Alone eff sc c sc' c')
    {there : P → Prop} (hp : Promise tools b.kind (b.task t).targets there sc) (hc : Confined eff (MaySee b t) (Own b t) sc) {d : P → V}
    (hd : ∀ p, MaySee b t p ∨ Own b t p → d p = c p) :
    (∃ there', Promise tools b.kind (b.task t).targets there' sc') ∧ Confined eff (MaySee b t) (Own b t) sc' ∧
    ∃ d', Alone eff sc d sc' d' ∧ (∀ p, MaySee b t p ∨ Own b t p → d' p = c' p) ∧ ∀ p, ¬ Own b t p → d' p = d p := by
  -- writing the same to a target
  have hput : ∀ {c₁ d₁ : P → V} {p₀ : P} {v : V}, Own b t p₀ → (∀ p, MaySee b t p ∨ Own b t p → d₁ p = c₁ p) → (∀ p, ¬ Own b t p → d₁ p = d p) →
      (∀ p, MaySee b t p ∨ Own b t p → update d₁ p₀ v p = update c₁ p₀ v p) ∧ ∀ p, ¬ Own b t p → update d₁ p₀ v p = d p := by
    intro c₁ d₁ p₀ v hown h1 h2
    refine ⟨fun p hp => ?_, fun p hp => ?_⟩
    · simp only [update]
      split
      · rfl
      · exact h1 p hp
    · rw [update_ne _ _ (show p ≠ p₀ from fun e => hp (e ▸ hown))]; exact h2 p hp
  induction h with
  | refl => exact ⟨⟨there, hp⟩, hc, d, .refl, hd, fun _ _ => rfl⟩
  | @ran args next rc c₁ c₂ _ h1 h2 hres hoff ih =>
    obtain ⟨⟨th, g1⟩, g2, d₁, g3, g4, g5⟩ := ih
    refine ⟨⟨_, g1.2.2 rc h1 h2⟩, g2.2 _, fun p => if p ∈ tools.may args then c₂ p else d₁ p, .ran g3 h1 h2 ?_ (fun p hp => if_neg hp), fun p hp => ?_, fun p hp => ?_⟩
    · exact eff.result_local (fun q hq => (g4 q (g2.1 q hq)).symm) (fun p hp => (if_pos hp).symm) hres
    · dsimp only
      split
      · rfl
      · rename_i hm; rw [hoff p hm]; exact g4 p hp
    · dsimp only
      rw [if_neg fun hm => hp (g1.1 p hm)]; exact g5 p hp
  | notStarted _ ih =>
    obtain ⟨⟨th, g1⟩, g2, d₁, g3, g4, g5⟩ := ih
    exact ⟨⟨_, g1.2.1⟩, g2.2 _, d₁, .notStarted g3, g4, g5⟩
  | copied _ ih =>
    obtain ⟨⟨th, g1⟩, g2, d₁, g3, g4, g5⟩ := ih
    refine ⟨⟨_, g1.2.1⟩, g2.2 _, _, .copied g3, ?_⟩
    rw [g4 _ g2.1]
    exact hput g1.1 g4 g5
  | copyFailed _ ih =>
    obtain ⟨⟨th, g1⟩, g2, d₁, g3, g4, g5⟩ := ih
    exact ⟨⟨_, g1.2.2⟩, g2.2 _, d₁, .copyFailed g3, g4, g5⟩
  | copyPart _ ih =>
    obtain ⟨⟨th, g1⟩, g2, d₁, g3, g4, g5⟩ := ih
    exact ⟨⟨_, g1.2.2⟩, g2.2 _, _, .copyPart g3, hput g1.1 g4 g5⟩
  | @mkdir _ _ r _ _ ih =>
    obtain ⟨⟨th, g1⟩, g2, d₁, g3, g4, g5⟩ := ih
    refine ⟨?_, g2 _, d₁, .mkdir g3, g4, g5⟩
    cases r with
    | made => exact ⟨_, g1.2.1⟩
    | existed => exact ⟨_, g1.2.2.1⟩
    | failed => exact ⟨_, g1.2.2.2⟩
  | wroteForeign _ hf ih =>
    obtain ⟨⟨th, g1⟩, g2, d₁, g3, g4, g5⟩ := ih
    exact ⟨⟨_, g1.2.1⟩, g2.2 _, d₁, .wroteForeign g3 hf, g4, g5⟩
  | wrote _ hf ht ih =>
    obtain ⟨⟨th, g1⟩, g2, d₁, g3, g4, g5⟩ := ih
    exact ⟨⟨_, g1.2.1⟩, g2.2 _, _, .wrote g3 hf (eff.text_local (fun q hq => (g4 q (g2.1 q hq)).symm) ht), hput (g1.1 hf) g4 g5⟩
  | writeFailed _ ih =>
    obtain ⟨⟨th, g1⟩, g2, d₁, g3, g4, g5⟩ := ih
    exact ⟨⟨_, g1.2.2⟩, g2.2 _, d₁, .writeFailed g3, g4, g5⟩
  | writePart _ hf ih =>
    obtain ⟨⟨th, g1⟩, g2, d₁, g3, g4, g5⟩ := ih
    exact ⟨⟨_, g1.2.2⟩, g2.2 _, _, .writePart g3 hf, hput (g1.1 hf) g4 g5⟩
  | @attempted _ ok _ _ ih =>
    obtain ⟨⟨th, g1⟩, g2, d₁, g3, g4, g5⟩ := ih
    refine ⟨?_, g2 _, d₁, .attempted g3, g4, g5⟩
    cases ok with
    | true => exact ⟨_, g1.1⟩
    | false => exact ⟨_, g1.2⟩

/-- A recipe that has exited with status zero has made what it makes when executed alone with the inputs that are there at the end, and with the targets that were there at the beginning. -/
theorem makesAlone_of (hb : b.Sane) (hkn : Known b tools eff script) (hi : CInv b tools eff script c s) (hdry : b.dryrun = false) {t : Nat}
    (hfin : .finish t .success ∈ s.base.base.sched.hist) (hex : s.base.base.Executed t) {d : P → V} (h1 : ∀ p, Own b t p → d p = c p) (h2 : ∀ p, MaySee b t p → d p = s.content p) :
    ∃ d', MakesAlone eff (script t) d d' ∧ (∀ p, Own b t p → d' p = s.content p) ∧ ∀ p, ¬ Own b t p → d' p = d p := by
  obtain ⟨n, hq, hn⟩ := hi.ended t hfin hex hdry
  have ht := TaskList.started_task hb.topological hi.pinv.sched (proc_started hi hq)
  obtain ⟨c₀, c₁, g1, g2, g3⟩ := hi.alone t _ hq
  obtain ⟨_, _, d', g4, g5, g6⟩ := alone_local g1 (hkn.promise t ht) (hkn.confined t ht) (d := d) (fun p hp => by
    rcases hp with h | h
    · rw [h2 p h, (g3 p h).1]
    · rw [h1 p h, (g2 p h).1])
  refine ⟨d', ⟨n, hn, ends_of_alone g4 ⟨rfl, rfl⟩⟩, fun p hp => ?_, g6⟩
  rw [g5 p (.inr hp), (g2 p hp).2]
  exact hi.snapOut t _ hq p hp (by simp)

end

theorem depsFirst_filter {j : TaskList.Job} (hj : j.Topological) (f : Nat → Bool) : DepsFirst j (j.tasks.filter f) := by
  intro l₁ t l₂ e u hu hmem
  obtain ⟨a, r, e1, e2, e3⟩ := List.filter_eq_append_iff.mp e
  obtain ⟨x, y, e4, e5, e6, e7⟩ := List.filter_eq_cons_iff.mp e3
  have hm := List.mem_filter.mp hmem
  have := hj.ordered (a ++ x) t y (by rw [e1, e4]; simp) u hu hm.1
  rw [← e2]
  rcases List.mem_append.mp this with h | h
  · exact List.mem_filter.mpr ⟨h, hm.2⟩
  · exact absurd hm.2 (e5 u h)

/-! ## Theorems -/

variable {tools : Tools P}

/-- **C94.** While recipes are executed at the same time, each recipe that has been executed with success has made what it makes when it is executed alone: started with its targets as they were before the build,
and with all other files as they are now, it may lead to what is there now. -/
theorem C94_isolated (b : Build P) (eff : Effects P V tools) (script : Nat → Script) (hb : b.Sane) (hkn : Known b tools eff script) (hdry : b.dryrun = false)
    {fs : FileSys P} {now : Nat} (hfs : ∀ p st, fs p = some st → st.dir = b.kind p) {c : P → V} {as : List (PAct P)} {s : CState P V} (h : CExec b tools script eff as (cinit b fs now c) s)
    {t : Nat} (hfin : .finish t .success ∈ s.base.base.sched.hist) (hex : s.base.base.Executed t) {d : P → V}
    (h1 : ∀ p, p ∈ (b.task t).targets ∧ b.kind p = false → d p = c p) (h2 : ∀ p, ¬ (p ∈ (b.task t).targets ∧ b.kind p = false) → d p = s.content p) :
    MakesAlone eff (script t) d s.content := by
  have hi := cinv_exec hb hkn (cinv_init hfs) h
  have hin : ∀ p, MaySee b t p → ¬ Own b t p := fun p hp ho => by
    have hst := hi.started t (by rw [show s.base.base.decision t = some .run from hex]; simp)
    have ht := TaskList.started_task hb.topological hi.pinv.sched hst
    rcases hp with hp | hp
    · exact TaskList.not_self_dep hb.topological ht (hb.waits t ht p hp.2 hp.1 t ht ho.1)
    · exact hp t ht ho.1
  obtain ⟨d', g1, g2, g3⟩ := makesAlone_of hb hkn hi hdry hfin hex h1 fun p hp => h2 p (hin p hp)
  have : d' = s.content := funext fun p => by
    by_cases ho : Own b t p
    · exact g2 p ho
    · rw [g3 p ho]; exact h2 p ho
  exact this ▸ g1

open Classical in
/-- **C94.** The contents of all files after a build that has succeeded are those that result from executing the same recipes one after the other, in any order in which
recipes come after those that they depend on. -/
theorem C94_serial (b : Build P) (eff : Effects P V tools) (script : Nat → Script) (hb : b.Sane) (hkn : Known b tools eff script) (hdry : b.dryrun = false)
    {fs : FileSys P} {now : Nat} (hfs : ∀ p st, fs p = some st → st.dir = b.kind p) {c : P → V} {as : List (PAct P)} {s : CState P V} (h : CExec b tools script eff as (cinit b fs now c) s)
    (hok : s.base.base.Succeeded) {order : List Nat} (hnd : order.Nodup) (hmem : ∀ t, t ∈ order ↔ t ∈ b.job.tasks ∧ s.base.base.Executed t) (hdeps : DepsFirst b.job order) :
    OneByOne eff script order c s.content := by
  have hi := cinv_exec hb hkn (cinv_init hfs) h
  obtain ⟨n, hn⟩ := hok
  have hfin := fun t ht => ((TaskList.C20_returns_complete hb.topological hi.pinv.sched hn).2 t ht).2
  -- what is there when the recipes of `done` have been executed
  let D : List Nat → P → V := fun done p => if ∃ t ∈ done, Own b t p then s.content p else c p
  have hskip : ∀ t ∈ b.job.tasks, ¬ s.base.base.Executed t → ∀ p, Own b t p → s.content p = c p := fun t ht hne p hp => by
    refine hi.untouched t ht ?_ p hp
    cases hq : s.base.proc t with
    | none => rfl
    | some q => exact absurd (hi.pinv.live t q hq).1 hne
  have hall : ∀ rest done, order = done ++ rest → OneByOne eff script rest (D done) s.content := by
    intro rest
    induction rest with
    | nil =>
      intro done e
      have : D done = s.content := funext fun p => by
        show (if _ then _ else _) = _
        split
        · rfl
        · rename_i hno
          by_cases ho : ∃ t ∈ b.job.tasks, Own b t p
          · obtain ⟨t, ht, ho⟩ := ho
            refine (hskip t ht (fun hex => hno ⟨t, ?_, ho⟩) p ho).symm
            have := (hmem t).mpr ⟨ht, hex⟩
            rw [e] at this; simpa using this
          · exact (hi.other p fun t ht hot => ho ⟨t, ht, hot⟩).symm
      rw [this]; exact .nil
    | cons t rest ih =>
      intro done e
      obtain ⟨ht, hex⟩ := (hmem t).mp (by rw [e]; simp)
      have hnot : t ∉ done := fun hd => by
        rw [e, List.nodup_append] at hnd
        exact hnd.2.2 t hd t (by simp) rfl
      have hdone : ∀ u ∈ done, u ∈ b.job.tasks := fun u hu => ((hmem u).mp (by rw [e]; simp [hu])).1
      obtain ⟨d', g1, g2, g3⟩ := makesAlone_of (d := D done) hb hkn hi hdry (hfin t ht) hex (fun p hp => by
          show (if _ then _ else _) = _
          rw [if_neg]
          rintro ⟨u, hu, ho⟩
          exact hnot (hb.owner u (hdone u hu) t ht p ho.1 hp.1 hp.2 ▸ hu))
        (fun p hp => by
          show (if _ then _ else _) = _
          split
          · rfl
          · rename_i hno
            by_cases ho : ∃ u ∈ b.job.tasks, Own b u p
            · obtain ⟨u, hu, ho⟩ := ho
              refine (hskip u hu (fun hexu => hno ⟨u, ?_, ho⟩) p ho).symm
              have hp : In b t p := hp.resolve_right fun hp => hp u hu ho.1
              exact hdeps done t rest e u (hb.waits t ht p hp.2 hp.1 u hu ho.1) ((hmem u).mpr ⟨hu, hexu⟩)
            · exact (hi.other p fun t ht hot => ho ⟨t, ht, hot⟩).symm)
      refine .cons g1 ?_
      have : d' = D (done ++ [t]) := funext fun p => by
        show _ = if _ then _ else _
        by_cases ho : Own b t p
        · rw [g2 p ho, if_pos ⟨t, by simp, ho⟩]
        · rw [g3 p ho]
          show (if _ then _ else _) = _
          have : (∃ u ∈ done, Own b u p) ↔ ∃ u ∈ done ++ [t], Own b u p := by
            constructor
            · rintro ⟨u, hu, h⟩; exact ⟨u, by simp [hu], h⟩
            · rintro ⟨u, hu, h⟩
              rcases List.mem_append.mp hu with hu | hu
              · exact ⟨u, hu, h⟩
              · exact absurd (List.mem_singleton.mp hu ▸ h) ho
          by_cases hx : ∃ u ∈ done, Own b u p
          · rw [if_pos hx, if_pos (this.mp hx)]
          · rw [if_neg hx, if_neg fun h => hx (this.mpr h)]
      rw [this]
      exact ih (done ++ [t]) (by rw [e]; simp)
  have h0 : D [] = c := funext fun p => if_neg (by simp)
  have := hall order [] rfl
  rwa [h0] at this

/-- **C94.** In particular, it is what results from executing the recipes one after the other in the order of the list of tasks. -/
theorem C94_in_order (b : Build P) (eff : Effects P V tools) (script : Nat → Script) (hb : b.Sane) (hkn : Known b tools eff script) (hdry : b.dryrun = false)
    {fs : FileSys P} {now : Nat} (hfs : ∀ p st, fs p = some st → st.dir = b.kind p) {c : P → V} {as : List (PAct P)} {s : CState P V} (h : CExec b tools script eff as (cinit b fs now c) s)
    (hok : s.base.base.Succeeded) : OneByOne eff script (b.job.tasks.filter fun t => s.base.base.decision t = some .run) c s.content := by
  refine C94_serial b eff script hb hkn hdry hfs h hok (hb.topological.nodup.filter _) (fun t => by simp [State.Executed]) ?_
  exact depsFirst_filter hb.topological _

theorem oneByOne_unique {eff : Effects P V tools} {script : Nat → Script} {ts : List Nat}
    (hdet : ∀ t ∈ ts, ∀ c c₁ c₂, MakesAlone eff (script t) c c₁ → MakesAlone eff (script t) c c₂ → c₁ = c₂) {c c₁ c₂ : P → V}
    (h1 : OneByOne eff script ts c c₁) (h2 : OneByOne eff script ts c c₂) : c₁ = c₂ := by
  induction h1 with
  | nil => cases h2; rfl
  | cons a _ ih =>
    cases h2 with
    | cons a' b' =>
      have := hdet _ (by simp) _ _ _ a a'
      subst this
      exact ih (fun t ht => hdet t (by simp [ht])) b'

/-- The same build with another number of workers. -/
def Build.withWorkers (b : Build P) (n : Nat) : Build P := { b with job := { b.job with workers := n } }

omit [DecidableEq P] in
theorem Build.Sane.withWorkers {b : Build P} (h : b.Sane) (n : Nat) : (b.withWorkers n).Sane := ⟨⟨h.topological.nodup, h.topological.ordered⟩, h.owner, h.waits, h.closed, h.dirs⟩

/-- **C94.** If what a recipe makes, when executed alone, is determined by what it reads, then what is in the files after a build that has succeeded is determined by what was there before, and by which
recipes have been executed. It does not depend on the number of workers, on when these do what they do, or on what recipes and programs do at the same time. -/
theorem C94_determined (b : Build P) (eff : Effects P V tools) (script : Nat → Script) (hb : b.Sane) (hkn : Known b tools eff script) (hdry : b.dryrun = false)
    (hdet : ∀ t ∈ b.job.tasks, ∀ c c₁ c₂, MakesAlone eff (script t) c c₁ → MakesAlone eff (script t) c c₂ → c₁ = c₂) (n : Nat)
    {fs fs' : FileSys P} {now now' : Nat} (hfs : ∀ p st, fs p = some st → st.dir = b.kind p) (hfs' : ∀ p st, fs' p = some st → st.dir = b.kind p) {c : P → V} {as as' : List (PAct P)}
    {s s' : CState P V} (h : CExec b tools script eff as (cinit b fs now c) s) (h' : CExec (b.withWorkers n) tools script eff as' (cinit (b.withWorkers n) fs' now' c) s')
    (hok : s.base.base.Succeeded) (hok' : s'.base.base.Succeeded) (hsame : ∀ t ∈ b.job.tasks, s.base.base.Executed t ↔ s'.base.base.Executed t) : s.content = s'.content := by
  have h1 := C94_in_order b eff script hb hkn hdry hfs h hok
  have h2 := C94_in_order (b.withWorkers n) eff script (hb.withWorkers n) ⟨hkn.promise, hkn.confined⟩ hdry hfs' h' hok'
  have e : (b.job.tasks.filter fun t => decide (s'.base.base.decision t = some .run)) = b.job.tasks.filter fun t => decide (s.base.base.decision t = some .run) :=
    List.filter_congr fun t ht => by simpa [State.Executed] using (hsame t ht).symm
  refine oneByOne_unique (fun t ht => hdet t (List.mem_filter.mp ht).1) h1 ?_
  rw [← e]
  exact h2

/-- In a forced build that has succeeded, all recipes have been executed. -/
theorem forced_all {b : Build P} (hb : b.Sane) (hfine : b.fine = true) (hforce : b.force = true) {fs : FileSys P} {now : Nat} (hfs : Plausible b fs now) {as : List (Act P)} {s : State P}
    (h : exec b as (init b fs now) = some s) (hok : s.Succeeded) : ∀ t ∈ b.job.tasks, s.Executed t := by
  obtain ⟨hi, hne⟩ : Inv b s ∧ ∀ t, s.decision t ≠ some .skip := exec_induction (Q := fun s => Inv b s ∧ ∀ t, s.decision t ≠ some .skip)
    (fun s a s' hq hs => ⟨inv_step hb hfine hq.1 hs, by
      rcases step_cases hs with ⟨a', sched', rfl, hal, hss, rfl⟩ | ⟨k', t', rfl, hk', hd, rfl⟩ | ⟨k', t', p', rfl, hk', hd, hp', rfl⟩ | ⟨p', rfl, hkp, rfl⟩ | ⟨rfl, rfl⟩
      · exact hq.2
      · intro t
        by_cases htt : t = t'
        · subst htt
          simp only [update_self]
          intro e
          injection e with e
          unfold decisionOf at e
          split at e
          · cases e
          · cases e
          · rename_i hrun
            rw [((C12_skip _ _ _).mp hrun).1] at hforce
            cases hforce
        · simp only [update_ne _ _ htt]; exact hq.2 t
      · exact hq.2
      · exact hq.2
      · exact hq.2⟩) ⟨inv_init hfs, fun t h => by cases h⟩ h
  obtain ⟨n, hn⟩ := hok
  intro t ht
  rcases hi.fin_ok t ((TaskList.C20_returns_complete hb.topological hi.sched hn).2 t ht).2 with h' | ⟨h', _⟩
  · exact absurd h' (hne t)
  · exact h'

omit [DecidableEq P] in
theorem necessary_workers {b : Build P} {n : Nat} {fs : FileSys P} {t : Nat} : Necessary (b.withWorkers n) fs t ↔ Necessary b fs t := by
  constructor
  · intro h
    induction h with
    | always h => exact .always h
    | missing h1 h2 => exact .missing h1 h2
    | older h1 h2 h3 h4 h5 h6 => exact .older h1 h2 h3 h4 h5 h6
    | made h1 h2 h3 h4 h5 _ ih => exact .made h1 h2 h3 h4 h5 ih
  · intro h
    induction h with
    | always h => exact .always h
    | missing h1 h2 => exact .missing h1 h2
    | older h1 h2 h3 h4 h5 h6 => exact .older h1 h2 h3 h4 h5 h6
    | made h1 h2 h3 h4 h5 _ ih => exact .made h1 h2 h3 h4 h5 ih

/-- **C94.** Two builds that start with the same files, with any number of workers, and that both succeed, leave the same in all files, if all builds are forced, or if the directories that recipes make exist already. -/
theorem C94_workers (b : Build P) (eff : Effects P V tools) (script : Nat → Script) (hb : b.Sane) (hfine : b.fine = true) (hkn : Known b tools eff script) (hdry : b.dryrun = false)
    (hdet : ∀ t ∈ b.job.tasks, ∀ c c₁ c₂, MakesAlone eff (script t) c c₁ → MakesAlone eff (script t) c c₂ → c₁ = c₂) (n : Nat)
    {fs : FileSys P} {now : Nat} (hfs : Plausible b fs now)
    (hdirs : b.force = true ∨ ∀ t ∈ b.job.tasks, ∀ p ∈ (b.task t).targets, b.kind p = true → Exists fs p) {c : P → V} {as as' : List (PAct P)}
    {s s' : CState P V} (h : CExec b tools script eff as (cinit b fs now c) s) (h' : CExec (b.withWorkers n) tools script eff as' (cinit (b.withWorkers n) fs now c) s')
    (hok : s.base.base.Succeeded) (hok' : s'.base.base.Succeeded) : s.content = s'.content := by
  have hb' := hb.withWorkers n
  have hfs' : Plausible (b.withWorkers n) fs now := ⟨hfs.past, hfs.kinds⟩
  obtain ⟨_, g⟩ := C88_refines b tools script hb.topological hkn.promise hfs.kinds (cexec_pexec h)
  obtain ⟨_, g'⟩ := C88_refines (b.withWorkers n) tools script hb'.topological hkn.promise hfs.kinds (cexec_pexec h')
  refine C94_determined b eff script hb hkn hdry hdet n hfs.kinds hfs.kinds h h' hok hok' fun t ht => ?_
  cases hf : b.force with
  | true => exact iff_of_true (forced_all hb hfine hf hfs g hok t ht) (forced_all hb' hfine hf hfs' g' hok' t ht)
  | false =>
    have hd := hdirs.resolve_left (by rw [hf]; simp)
    exact (C86_exactly b hb hfine hdry hf hfs hd g hok ht).trans
      (necessary_workers.symm.trans (C86_exactly (b.withWorkers n) hb' hfine hdry hf hfs' hd g' hok' ht).symm)

end Maike.Build
