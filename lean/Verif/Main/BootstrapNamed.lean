import Verif.Main.Bootstrap
import Verif.Main.Targets

/-!
# The output of a dry run with `--targets` as a script (C106)

With `--targets`, `compile` makes one list of tasks for each name, and processes these lists one after the other, with the same log (core/db/source_tree.cpp:56-75).
-/

namespace Maike.Main

open Fs Tree Paths
open Maike.Kvs (Json Members)
open Maike.Kvs.JsonText (Reals store Occurs)
open Maike.Build (Tools CState Effects OneByOne MakesAlone Logger LAct LState Message lexec linit DepsFirst Setup getTarget Needed CExec cinit PAct FileSys Known)
open Maike.Recipes (Script)
open Maike.Text.Shell (Command commands)

variable {V : Type}

/-! ## Model -/

/-- `LogsSeveral c l names fs now out`: the targets `names` have been built one after the other, beginning with the files `fs` at time `now`; all of this has succeeded, and `out` has been printed. -/
inductive LogsSeveral (c : Setup Path) (l : Logger) : List Path → FileSys Path → Nat → Str → Prop
  | done {fs now} : LogsSeveral c l [] fs now []
  | next {name names t as s fs now out} : getTarget c name = some t → (Db.taskListFor c.tree.graph t.sourceFilename).1 = .ok → lexec (c.build t) l as (linit (c.build t) fs now) = some s →
      s.base.Succeeded → LogsSeveral c l names s.base.fs s.base.clock out → LogsSeveral c l (name :: names) fs now (s.output ++ out)

/-- `MakesSeveral c tools eff script names fs now x y`: the targets `names` have been built one after the other, beginning with the files `fs` at time `now`; all of this has succeeded, and has changed
the contents of files from `x` to `y`. -/
inductive MakesSeveral (c : Setup Path) {tools : Tools Path} (eff : Effects Path V tools) (script : Nat → Script) : List Path → FileSys Path → Nat → (Path → V) → (Path → V) → Prop
  | done {fs now x} : MakesSeveral c eff script [] fs now x x
  | next {name names t as s fs now x y} : getTarget c name = some t → (Db.taskListFor c.tree.graph t.sourceFilename).1 = .ok →
      CExec (c.build t) tools script eff as (cinit (c.build t) fs now x) s → s.base.base.Succeeded → MakesSeveral c eff script names s.base.base.fs s.base.base.clock s.content y →
      MakesSeveral c eff script (name :: names) fs now x y

/-- The settings for a dry run with `n` workers, and those for a build. -/
def drySetup (j : Job) (tree : Db.SourceTree Path) (force : Bool) (kind : Path → Bool) (n : Nat) : Setup Path := { j.setup tree force kind with dryrun := true, workers := n }

def realSetup (j : Job) (tree : Db.SourceTree Path) (force : Bool) (kind : Path → Bool) (n : Nat) : Setup Path := { j.setup tree force kind with workers := n }

/-! ## Specification -/

/-- The list of tasks consists of one part for each name. In the part for a name is each task once that is needed for the target of this name, and nothing else, and each task comes after those that it
depends on. -/
inductive OrderFor (c : Setup Path) : List Path → List Nat → Prop
  | nil : OrderFor c [] []
  | cons {name names t order rest} : getTarget c name = some t → order.Nodup → (∀ u, u ∈ order ↔ Needed c t u) → DepsFirst (c.build t).job order → OrderFor c names rest →
      OrderFor c (name :: names) (order ++ rest)

/-! ## Proof -/

theorem oneByOne_append {tools : Tools Path} {eff : Effects Path V tools} {script : Nat → Script} {a b : List Nat} {x y z : Path → V} (h1 : OneByOne eff script a x y) (h2 : OneByOne eff script b y z) :
    OneByOne eff script (a ++ b) x z := by
  induction h1 with
  | nil => exact h2
  | cons h _ ih => exact .cons h (ih h2)

theorem confined_mono {tools : Tools Path} {eff : Effects Path V tools} {A B O : Path → Prop} (hab : ∀ p, A p → B p) {sc : Script} (h : Build.Confined eff A O sc) : Build.Confined eff B O sc := by
  induction sc with
  | exit _ => trivial
  | run args next ih => exact ⟨fun q hq => (h.1 q hq).imp (hab q) id, fun rc => ih rc (h.2 rc)⟩
  | copy src dst next ih => exact ⟨h.1.imp (hab _) id, fun ok => ih ok (h.2 ok)⟩
  | mkdir dir next ih => exact fun r => ih r (h r)
  | write dst next ih => exact ⟨fun q hq => (h.1 q hq).imp (hab q) id, fun ok => ih ok (h.2 ok)⟩
  | attempt next ih => exact fun ok => ih ok (h ok)

variable {j : Job} {kind : Path → Bool} {d : Disk} {now : Nat}

/-- What is modelled here is what is modelled for C69. -/
theorem logs_compiled {c : Setup Path} {l : Logger} {names : List Path} {fs : FileSys Path} {now : Nat} {out : Str} (h : LogsSeveral c l names fs now out) (builds : List (Path × Build.State Path))
    (total : Nat) : ∃ schedules n s, Build.compileSeveral c names schedules ⟨fs, now, builds, total⟩ = some (.completed n, s) := by
  induction h generalizing builds total with
  | done => exact ⟨[], _, _, rfl⟩
  | @next name names t as s fs now out ht hok hx hs _ ih =>
    obtain ⟨as', h⟩ := Build.lexec_exec hx
    obtain ⟨k, hk⟩ := hs
    obtain ⟨schedules, n, s', h'⟩ := ih (builds ++ [(name, s.base)]) (total + k)
    refine ⟨as' :: schedules, n, s', ?_⟩
    have h : Build.exec (c.build t) as' (Build.init (c.build t) fs now) = some s.base := h
    simp only [Build.compileSeveral, ht, if_pos hok, h, hk, h']

theorem needed_all (hp : Proper j kind d now) {files : List (Path × FileInfo)} {tree : Db.SourceTree Path} (hl : Loads j d files tree) (hok : (Db.taskListAll tree.graph).1 = .ok)
    {c : Setup Path} (hc : c.tree = tree) {t : Db.Target Path} {u : Nat} (h : Needed c t u) : u ∈ (Db.taskListAll tree.graph).2 := by
  obtain ⟨_, _, _, hb⟩ := h
  subst hc
  exact ((run_sane hp hl hok false).2 u).mpr hb

theorem named_lines (hp : Proper j kind d now) {f : Reals} (hf : f.Ok) {force : Bool} {files : List (Path × FileInfo)} {tree : Db.SourceTree Path} {info : Json} {format : Text.LogFormat}
    (hn : PlainNames files tree info format) (hl : Loads j d files tree) (hok : (Db.taskListAll tree.graph).1 = .ok) {n : Nat} {names : List Path} {fs : FileSys Path} {now' : Nat} {out : Str}
    (h : LogsSeveral (drySetup j tree force kind n) (theLogger f .compilationCommand files tree info format) names fs now' out) :
    ∃ (order : List Nat) (xs : List (Command × List Char)), OrderFor (drySetup j tree force kind n) names order ∧
      xs.map (fun x => x.1.executable :: x.1.args) =
        order.map (fun u => ((theLogger f .compilationCommand files tree info format).command u).executable :: ((theLogger f .compilationCommand files tree info format).command u).args) ∧
      (∀ x ∈ xs, (∀ a ∈ x.1.executable :: x.1.args, Text.Shell.Plain a) ∧ '\n' ∉ x.2) ∧ out = xs.flatMap fun x => Text.Shell.print x.1 ++ [' ', '#'] ++ x.2 ++ ['\n'] := by
  induction h with
  | done => exact ⟨[], [], .nil, rfl, by simp, rfl⟩
  | @next name names t as s fs now' out ht hokt hx hs _ ih =>
    obtain ⟨rest, ys, i1, i2, i3, i4⟩ := ih
    obtain ⟨hsane, hmem, _, _⟩ := Build.build_facts (c := drySetup j tree force kind n) (loadable hp hl) hl.2 (no_empty hp hl) hokt
    obtain ⟨h1, h2, h3⟩ := Build.C106_order _ hsane.topological _ hx
    obtain ⟨h3, _⟩ := h3 hs
    obtain ⟨xs, g1, g2, g3⟩ := Build.script_lines hsane.topological rfl rfl hx fun u hu => plain_logger hf hn (needed_all hp hl hok rfl ((hmem u).mp hu))
    refine ⟨s.log.map Message.task ++ rest, xs ++ ys, .cons ht h1 (fun u => (h3 u).trans (hmem u)) (fun l₁ t l₂ e u hu hm => h2 l₁ t l₂ e u hu ((h3 u).mp hm)) i1, ?_, ?_, ?_⟩
    · rw [List.map_append, List.map_append, g1, i2, List.map_map]; rfl
    · intro x hx'
      rcases List.mem_append.mp hx' with hx' | hx'
      · exact g2 x hx'
      · exact i3 x hx'
    · rw [g3, i4, List.flatMap_append]

/-- **C106.** With `--targets`, a shell that reads what a successful dry run has printed executes, for one name after the other, the commands of the tasks that are needed for the target of this name, each
of them once, and each of them after the commands of the tasks that it depends on. It executes nothing else. -/
theorem C106_named_partial (hp : Proper j kind d now) {f : Reals} (hf : f.Ok) {force : Bool} {files : List (Path × FileInfo)} {tree : Db.SourceTree Path} {info : Json} {format : Text.LogFormat}
    (hn : PlainNames files tree info format) {start : Int} {id : List UInt8} (hdirs : PlainName j.sourceDir.str ∧ PlainName j.targetDir.str) (hl : Loads j d files tree)
    (hok : (Db.taskListAll tree.graph).1 = .ok) {n : Nat} {names : List Path} {out : Str}
    (h : LogsSeveral (drySetup j tree force kind n) (theLogger f .compilationCommand files tree info format) names d.fs now out) :
    ∃ order : List Nat, OrderFor (drySetup j tree force kind n) names order ∧
      commands (announcement n start id j.sourceDir j.targetDir ++ out) =
        some (order.map fun u => ((theLogger f .compilationCommand files tree info format).command u).executable :: ((theLogger f .compilationCommand files tree info format).command u).args) := by
  obtain ⟨order, xs, h1, h2, h3, rfl⟩ := named_lines hp hf hn hl hok h
  refine ⟨order, h1, ?_⟩
  rw [commands_announcement _ _ _ _ _ (fun hm => absurd (hdirs.1 _ hm).2.2.2 (by decide)) (fun hm => absurd (hdirs.2 _ hm).2.2.2 (by decide)), Text.Shell.commands_lines xs h3, h2]

theorem orderFor_all (hp : Proper j kind d now) {files : List (Path × FileInfo)} {tree : Db.SourceTree Path} (hl : Loads j d files tree) (hok : (Db.taskListAll tree.graph).1 = .ok)
    {c : Setup Path} (hc : c.tree = tree) {names : List Path} {order : List Nat} (h : OrderFor c names order) : ∀ u ∈ order, u ∈ (Db.taskListAll tree.graph).2 := by
  induction h with
  | nil => intro u hu; cases hu
  | cons _ _ hm _ _ ih =>
    intro u hu
    rcases List.mem_append.mp hu with hu | hu
    · exact needed_all hp hl hok hc ((hm u).mp hu)
    · exact ih u hu

/-- What is known about the recipes of the whole project is known about those of a target. -/
theorem named_known (hp : Proper j kind d now) {files : List (Path × FileInfo)} {tree : Db.SourceTree Path} (hl : Loads j d files tree) (hok : (Db.taskListAll tree.graph).1 = .ok) {force : Bool}
    {tools : Tools Path} {eff : Effects Path V tools} {recipe : String → Members → Script} {info : Json} {format : Text.LogFormat} (hu : Uses j kind tools recipe info format d files tree)
    (hr : ReadsKnown j kind eff recipe info format d files tree) (n : Nat) {t : Db.Target Path} (hokt : (Db.taskListFor tree.graph t.sourceFilename).1 = .ok) :
    Known ((realSetup j tree force kind n).build t) tools eff (scriptOf recipe files tree info format) := by
  obtain ⟨hkn, _⟩ := run_known (force := force) hp hl hok hu hr n
  obtain ⟨_, hmem, _, _⟩ := Build.build_facts (c := realSetup j tree force kind n) (loadable hp hl) hl.2 (no_empty hp hl) hokt
  have hin : ∀ u ∈ ((realSetup j tree force kind n).build t).job.tasks, u ∈ (Db.taskListAll tree.graph).2 := fun u hu => needed_all hp hl hok rfl ((hmem u).mp hu)
  refine ⟨fun u hu => hkn.promise u (hin u hu), fun u hu => confined_mono (fun p h => ?_) (hkn.confined u (hin u hu))⟩
  rcases h with h | h
  · exact .inl h
  · exact .inr fun v hv => h v (hin v hv)

/-- A forced build of targets by name leads to what results from executing the recipes one after the other. -/
theorem makes_oneByOne (hp : Proper j kind d now) {files : List (Path × FileInfo)} {tree : Db.SourceTree Path} (hl : Loads j d files tree) (hok : (Db.taskListAll tree.graph).1 = .ok)
    {tools : Tools Path} {eff : Effects Path V tools} {recipe : String → Members → Script} {info : Json} {format : Text.LogFormat} (hu : Uses j kind tools recipe info format d files tree)
    (hr : ReadsKnown j kind eff recipe info format d files tree) {n m : Nat} {force : Bool} {names : List Path} {fs : FileSys Path} {now' : Nat} {x y : Path → V}
    (h : MakesSeveral (realSetup j tree true kind n) eff (scriptOf recipe files tree info format) names fs now' x y) (hpast : ∀ p st, kind p = false → fs p = some st → st.mtime < now')
    (hkinds : ∀ p st, fs p = some st → st.dir = kind p) {order : List Nat} (ho : OrderFor (drySetup j tree force kind m) names order) :
    OneByOne eff (scriptOf recipe files tree info format) order x y := by
  induction h generalizing order with
  | done => cases ho; exact .nil
  | @next name names t as s fs now' x y ht hokt hx hs _ ih =>
    cases ho with
    | @cons _ _ t' order rest ht' hnd hmem' hdeps hrest =>
      have e : t' = t := by
        have h1 : getTarget (realSetup j tree true kind n) name = some t := ht
        have h2 : getTarget (realSetup j tree true kind n) name = some t' := ht'
        rw [h1] at h2
        exact (Option.some.inj h2).symm
      subst e
      obtain ⟨hsane, hmem, _, _⟩ := Build.build_facts (c := realSetup j tree true kind n) (loadable hp hl) hl.2 (no_empty hp hl) hokt
      have hkn := named_known (force := true) hp hl hok hu hr n hokt
      have hplaus : Build.Plausible ((realSetup j tree true kind n).build t') fs now' := ⟨hpast, hkinds⟩
      obtain ⟨_, g⟩ := Build.C88_refines ((realSetup j tree true kind n).build t') tools _ hsane.topological hkn.promise hkinds (Build.cexec_pexec hx)
      have hall := Build.forced_all hsane rfl rfl hplaus g hs
      have hi : Build.Inv ((realSetup j tree true kind n).build t') s.base.base := Build.exec_induction (Q := Build.Inv ((realSetup j tree true kind n).build t'))
        (fun _ _ _ hi h => Build.inv_step hsane rfl hi h) (Build.inv_init hplaus) g
      have hiff : ∀ u, u ∈ order ↔ u ∈ ((realSetup j tree true kind n).build t').job.tasks := fun u => (hmem' u).trans (hmem u).symm
      exact oneByOne_append (Build.C94_serial _ eff _ hsane hkn rfl hkinds hx hs hnd (fun u => ⟨fun h => ⟨(hiff u).mp h, hall u ((hiff u).mp h)⟩, fun h => (hiff u).mpr h.1⟩) hdeps)
        (ih hi.past hi.kinds hrest)

/-- **C106.** With `--targets`, executing the commands of the script one after the other leads to the same contents of all files as a forced build of the same targets, with any number of workers, that
is started with the same files and succeeds. -/
theorem C106_named_files_partial (hp : Proper j kind d now) {f : Reals} (hf : f.Ok) {force : Bool} {files : List (Path × FileInfo)} {tree : Db.SourceTree Path} {info : Json} {format : Text.LogFormat}
    (hn : PlainNames files tree info format) {start : Int} {id : List UInt8} (hdirs : PlainName j.sourceDir.str ∧ PlainName j.targetDir.str) (hl : Loads j d files tree)
    (hok : (Db.taskListAll tree.graph).1 = .ok) {n : Nat} {names : List Path} {out : Str}
    (h : LogsSeveral (drySetup j tree force kind n) (theLogger f .compilationCommand files tree info format) names d.fs now out)
    {tools : Tools Path} {eff : Effects Path V tools} {program : Str → List Str → Script}
    (hu : Uses j kind tools (fun exe opts => program exe.toList ["compile".toList, store f false (.obj opts)]) info format d files tree)
    (hk : ReadsKnown j kind eff (fun exe opts => program exe.toList ["compile".toList, store f false (.obj opts)]) info format d files tree)
    {c c₁ : Path → V} {n' : Nat}
    (hr : MakesSeveral (realSetup j tree true kind n') eff (scriptOf (fun exe opts => program exe.toList ["compile".toList, store f false (.obj opts)]) files tree info format) names d.fs now c c₁) :
    ∃ cmds, commands (announcement n start id j.sourceDir j.targetDir ++ out) = some cmds ∧ ∀ c', ShellRuns eff program cmds c c' ↔ c' = c₁ := by
  obtain ⟨order, h1, h2⟩ := C106_named_partial (start := start) (id := id) hp hf hn hdirs hl hok h
  have hin := orderFor_all hp hl hok rfl h1
  refine ⟨_, h2, fun c' => ?_⟩
  rw [shellRuns_iff fun u hu => (hn u (hin u hu)).imp fun _ ⟨_, h, _⟩ => ⟨_, h⟩]
  have key := makes_oneByOne hp hl hok hu hk hr hp.past hp.kinds h1
  obtain ⟨_, hdet⟩ := run_known (force := true) hp hl hok hu hk n'
  exact ⟨fun hc => Build.oneByOne_unique (fun t ht => hdet t (hin t ht)) hc key, fun e => e ▸ key⟩

end Maike.Main
