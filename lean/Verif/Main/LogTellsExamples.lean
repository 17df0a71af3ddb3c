import Verif.Main.LogTells
import Verif.Main.BootstrapExamples

/-!
# Example of a log (C118)
-/

namespace Maike.Main.LogTellsExample

open Fs Tree Paths
open Maike.Kvs.JsonText.Examples (reals reals_ok)
open Maike.Build (Logger LAct LState Report lstateOf linit lexec number)
open CompiledExample ProcessesExample SerialExample BootstrapExample

def settings : Settings := { job := job, loaders := [], what := .all, dry := false, force := true }

def infos : Logger := theLogger reals .sourceFileInfo files tree info .plainText

/-- The first task, which makes the target directory, fails. -/
def actions : List (LAct Path) :=
  List.replicate 3 (.base (.sched .main)) ++ [.base (.sched .take), .base (.check 0), .log 0 ⟨true, "Disk full\n".toList, [], 1, 2⟩] ++
    List.replicate 4 (.base (.sched (.work 0 .failure))) ++ List.replicate 6 (.base (.sched .main))

def log : LState Path := lstateOf (settings.build tree kind) infos disk.fs 10 actions

theorem log_exec : lexec (settings.build tree kind) infos actions (linit (settings.build tree kind) disk.fs 10) = some log := Build.lstateOf_exec (by decide +kernel)

/-- The hypotheses of `C118_project` are met. -/
theorem C118_example (m : Machine) (args : List Str) : log.base.sched.pc = .rethrown 0 ∧ log.output = " 0 | ✗ | . | 1 | 2\n ... Disk full\n".toList ∧
    ∃ a i, Scanned job disk a i ∧ i.targets ≠ [] ∧ (∃ pre post : Str, ∃ r : Report, r.failed = true ∧
      log.output = pre ++ (number 0 ++ " | ✗ | ".toList ++ a.normal.str ++ " | ".toList ++ number r.started ++ " | ".toList ++ number r.completed ++ ['\n']) ++ post) ∧
      (plan m disk args = .run settings → Complains m kind disk 10 args (a.normal.str ++ ": Compilation failed".toList)) := by
  refine ⟨by decide +kernel, by decide +kernel, ?_⟩
  obtain ⟨a, i, h1, h2, h3, h4⟩ := C118_project (m := m) (args := args) (d := disk) (s := settings) ⟨proper.notEmpty, proper.disk.nodup, proper.disk.isName⟩ loads acyclic reals_ok plain (by decide) log_exec
    (t := 0) (by decide +kernel)
  exact ⟨a, i, h1, h2, h3, fun h => h4 h rfl (by decide +kernel)⟩

end Maike.Main.LogTellsExample
