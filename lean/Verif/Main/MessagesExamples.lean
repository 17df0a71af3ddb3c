import Verif.Main.Messages
import Verif.Main.AcceptExamples

/-!
# Examples for C103: what is said about projects that cannot be built
-/

namespace Maike.Main.AcceptExample

open Fs Tree Paths Kvs
open ProgramExample (disk disk_ok isRun)

/-- What is said about the files that have been found. -/
def verdict (l : List (Path × FileInfo)) : Str := match Db.load (srcList l) with
  | .ok _ => []
  | .error e => loadMessage e

theorem complains_of {a h : List Char} {args : List Str} {kind : Path → Bool} {now : Nat} (hr : isRun (plan (machine a h) disk args) = true)
    (hc : (scan (settings a h args).job disk 60).shared.counter = 0) (he : (scan (settings a h args).job disk 60).shared.errlog = [])
    (hv : (Db.load (srcList (files a h args))).toOption.isSome = false) : Complains (machine a h) kind disk now args (verdict (files a h args)) := by
  obtain ⟨n, s, h1, h2⟩ := finds_of hc he
  cases hl : Db.load (srcList (files a h args)) with
  | ok t => rw [hl] at hv; cases hv
  | error e =>
    have := Complains.tree (kind := kind) (now := now) (planned_of hr) h1 h2 hl
    simpa [verdict, hl] using this

/-- `C103_true`: the header includes a file that does not exist. -/
example (kind : Path → Bool) (now : Nat) : Complains (machine withHeader unknown) kind disk now all "h.hpp: error: Failed to resolve x.hpp".toList := by
  have := complains_of (a := withHeader) (h := unknown) (args := all) (kind := kind) (now := now) (by decide +kernel) (by decide +kernel) (by decide +kernel) (by decide +kernel)
  rwa [show verdict (files withHeader unknown all) = "h.hpp: error: Failed to resolve x.hpp".toList by decide +kernel] at this

/-- `C103_true`: the header includes itself. -/
example (kind : Path → Bool) (now : Nat) : Complains (machine withHeader loop) kind disk now list "Cyclic dependency detected".toList := by
  have := complains_of (a := withHeader) (h := loop) (args := list) (kind := kind) (now := now) (by decide +kernel) (by decide +kernel) (by decide +kernel) (by decide +kernel)
  rwa [show verdict (files withHeader loop list) = "Cyclic dependency detected".toList by decide +kernel] at this

/-- `C103_true`: two files say that `a.o` is made from them. -/
example (kind : Path → Bool) (now : Nat) : Complains (machine alone alone) kind disk now list "Target has __targets/a.o has already been defined in a.cpp".toList := by
  have := complains_of (a := alone) (h := alone) (args := list) (kind := kind) (now := now) (by decide +kernel) (by decide +kernel) (by decide +kernel) (by decide +kernel)
  rwa [show verdict (files alone alone list) = "Target has __targets/a.o has already been defined in a.cpp".toList by decide +kernel] at this

/-- `C103_true`: there is no such target. -/
example (kind : Path → Bool) (now : Nat) : ∃ args, Complains (machine alone []) kind disk now args "Unkonwn target `b.o`".toList := by
  let args : List Str := ["--config-default".toList, "--targets=b.o".toList]
  refine ⟨args, ?_⟩
  have hplan : plan (machine alone []) disk args = .run (settings alone [] args) := planned_of (by decide +kernel)
  have hl : Loads (settings alone [] args).job disk (files alone [] args) (treeOf (files alone [] args)) :=
    loads_of 60 (by decide +kernel) (by decide +kernel) (treeOf_ok (by decide +kernel))
  have hno : Db.Map.lookup ((settings alone [] args).job.targetDir / parse "b.o".toList) (treeOf (files alone [] args)).targets = none := by
    have : (Db.Map.lookup ((settings alone [] args).job.targetDir / parse "b.o".toList) (treeOf (files alone [] args)).targets).isSome = false := by decide +kernel
    simpa using this
  have hget : Build.getTarget ((settings alone [] args).setup (treeOf (files alone [] args)) kind) (parse "b.o".toList) = none := hno
  have hwhat : (match (settings alone [] args).what with | .targets l => l | _ => []) = ["b.o".toList] := by decide +kernel
  have hw : (settings alone [] args).what = .targets ["b.o".toList] := by
    split at hwhat
    · rename_i l hl; rw [hl, hwhat]
    · cases hwhat
  refine .unknown (schedules := []) (st := .start disk.fs now) (name := parse "b.o".toList) hplan hl hw ?_
  simp only [List.map_cons, List.map_nil, Build.compileSeveral, hget]

end Maike.Main.AcceptExample
