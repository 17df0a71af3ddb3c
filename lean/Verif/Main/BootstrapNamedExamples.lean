import Verif.Main.BootstrapExamples
import Verif.Main.BootstrapNamed

/-!
# An example of a script for targets that are selected by name (C106)
-/

namespace Maike.Main.BootstrapNamedExample

open Fs Tree Paths
open Maike.Kvs (Json Members)
open Maike.Kvs.JsonText.Examples (reals reals_ok)
open Maike.Build (Logger LState lauto lstateOf linit lexec getTarget)
open Maike.Text.Shell (commands)
open CompiledExample ProcessesExample SerialExample BootstrapExample

/-- The object file is selected twice. -/
def names : List Path := [parse "a.o".toList, parse "a.o".toList]

def chosen : Db.Target Path := (getTarget (drySetup job tree true kind 2) (parse "a.o".toList)).getD ⟨Path.empty, ⟨Path.empty, []⟩⟩

theorem chosen_ok {force : Bool} {n : Nat} : getTarget (realSetup job tree force kind n) (parse "a.o".toList) = some chosen := by
  have h : (getTarget (drySetup job tree true kind 2) (parse "a.o".toList)).isSome = true := by decide +kernel
  obtain ⟨t, ht⟩ := Option.isSome_iff_exists.mp h
  have : chosen = t := by rw [chosen, ht]; rfl
  rw [this]
  exact ht

theorem chosen_tasks : Db.taskListFor tree.graph chosen.sourceFilename = (.ok, [0, 3]) := by decide +kernel

/-! ## The dry run -/

def dryOne : Build.Build Path := (drySetup job tree true kind 2).build chosen

def first : LState Path := lstateOf dryOne logger disk.fs 10 (lauto dryOne logger 60 (linit dryOne disk.fs 10))

def second : LState Path := lstateOf dryOne logger first.base.fs first.base.clock (lauto dryOne logger 60 (linit dryOne first.base.fs first.base.clock))

def output : Str := first.output ++ (second.output ++ [])

theorem logs : LogsSeveral (drySetup job tree true kind 2) logger names disk.fs 10 output :=
  .next (chosen_ok (n := 2)) (congrArg Prod.fst chosen_tasks) (Build.lstateOf_exec (b := dryOne) (by decide +kernel)) ⟨2, by decide +kernel⟩
    (.next (chosen_ok (n := 2)) (congrArg Prod.fst chosen_tasks) (Build.lstateOf_exec (b := dryOne) (by decide +kernel)) ⟨2, by decide +kernel⟩ .done)

/-- The hypotheses of C106_named_partial are met: there are two commands for each of the names. -/
example : ∃ order : List Nat, OrderFor (drySetup job tree true kind 2) names order ∧ order.length = 4 ∧
    commands (announcement 2 0 [] job.sourceDir job.targetDir ++ output) = some (order.map fun u => (logger.command u).executable :: (logger.command u).args) := by
  obtain ⟨order, h1, h2⟩ := C106_named_partial (start := 0) (id := []) proper reals_ok plain dirs_plain loads acyclic logs
  refine ⟨order, h1, ?_, h2⟩
  have h := congrArg (Option.map List.length) h2
  have e : (commands (announcement 2 0 [] job.sourceDir job.targetDir ++ output)).map List.length = some 4 := by decide +kernel
  simp only [Option.map_some, List.length_map] at h
  exact Option.some.inj (h.symm.trans e)

/-! ## The build -/

def realOne : Build.Build Path := (realSetup job tree true kind 3).build chosen

def xstart (fs : Build.FileSys Path) (now : Nat) (c : Path → Nat) : Build.XState Path Nat := Build.xinit realOne fs now c

def xlast (fs : Build.FileSys Path) (now : Nat) (c : Path → Nat) : Option (Build.XState Path Nat) :=
  Build.xexec realOne tools script' reads make (fun _ => []) (fun _ _ => 0)
    (Build.xauto realOne tools script' reads make (fun _ => []) (fun _ _ => 0) 0 60 (xstart fs now c)) (xstart fs now c)

def xone : Build.XState Path Nat := (xlast disk.fs 10 content).getD (xstart disk.fs 10 content)

def xtwo : Build.XState Path Nat := (xlast xone.base.base.fs xone.base.base.clock xone.content).getD (xstart disk.fs 10 content)

theorem made {fs : Build.FileSys Path} {now : Nat} {c : Path → Nat} {x : Build.XState Path Nat} (h : xlast fs now c = some x) {rest : List Path} {y : Path → Nat}
    (hs : x.base.base.Succeeded) (hr : MakesSeveral (realSetup job tree true kind 3) eff script' rest x.base.base.fs x.base.base.clock x.content y) :
    MakesSeveral (realSetup job tree true kind 3) eff script' (parse "a.o".toList :: rest) fs now c y := by
  obtain ⟨s, h3, h4, h5⟩ := Build.xexec_cexec h
  exact .next chosen_ok (congrArg Prod.fst chosen_tasks) h3 (by rw [h4]; exact hs) (by rw [h4, h5]; exact hr)

theorem makes : MakesSeveral (realSetup job tree true kind 3) eff script' names disk.fs 10 content xtwo.content := by
  have h1 : xlast disk.fs 10 content = some xone := by
    obtain ⟨x, hx⟩ := Option.isSome_iff_exists.mp (show (xlast disk.fs 10 content).isSome = true by decide +kernel)
    simp [xone, hx]
  have h2 : xlast xone.base.base.fs xone.base.base.clock xone.content = some xtwo := by
    obtain ⟨x, hx⟩ := Option.isSome_iff_exists.mp (show (xlast xone.base.base.fs xone.base.base.clock xone.content).isSome = true by decide +kernel)
    simp [xtwo, hx]
  exact made h1 ⟨2, by decide +kernel⟩ (made h2 ⟨2, by decide +kernel⟩ .done)

/-- The hypotheses of C106_named_files_partial are met: the script puts into the object file what the build puts there. -/
example : ∃ cmds, commands (announcement 2 0 [] job.sourceDir job.targetDir ++ output) = some cmds ∧
    (∃ c', ShellRuns eff program cmds content c') ∧ ∀ c', ShellRuns eff program cmds content c' → c' aObj = 42 := by
  obtain ⟨cmds, h4, h5⟩ := C106_named_files_partial (start := 0) (id := []) proper reals_ok plain dirs_plain loads acyclic logs uses' known' makes
  exact ⟨cmds, h4, ⟨_, (h5 _).mpr rfl⟩, fun c' hc => by rw [(h5 c').mp hc]; decide +kernel⟩

end Maike.Main.BootstrapNamedExample
