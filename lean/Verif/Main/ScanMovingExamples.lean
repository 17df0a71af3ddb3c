import Verif.Main.ScanMoving
import Verif.Main.RetryExamples

/-!
# An example for C116: a project that is loaded while its target has been begun
-/

namespace Maike.Main.MovingExample

open Fs Tree Paths RetryExample

/-- A scan that sees the same version all the time -/
theorem loadsDuring_of_loads {j : Job} {D : Disk → Prop} {d d' : Disk} {files : List (Path × FileInfo)} {tree : Db.SourceTree Path} (hd : D d') (h : Loads j d' files tree) :
    LoadsDuring j D d files tree := by
  obtain ⟨⟨n, s, hs, hr⟩, ht⟩ := h
  refine ⟨⟨n, s, ?_, hr⟩, ht⟩
  have : Scan.init (j.world d') = Scan.init (j.world d) := rfl
  rw [← this]
  clear hr
  generalize Scan.init (j.world d') = s0 at hs
  induction hs with
  | refl => exact .refl
  | tail _ hx ih => exact .tail ih ⟨d', hd, rfl⟩ hx

/-- The versions while the first run is building: with or without the target -/
def Seen (d' : Disk) : Prop := ∃ writes, d' = disk writes

theorem seen_during (d' : Disk) (h : Seen d') : During exampleJob exampleKind false exampleDisk 10 exampleFiles exampleTree d' := by
  obtain ⟨writes, rfl⟩ := h
  exact ⟨disk_ok writes, _, runs writes, rfl⟩

/-- The file that the first run has written -/
theorem written : ((disk true).fs (exampleJob.targetDir / parse ['a', '.', 'o'])).isSome ∧ exampleDisk.fs (exampleJob.targetDir / parse ['a', '.', 'o']) = none := by
  decide +kernel

/-- The hypotheses of `C116_while_building` are met. -/
example : files true = exampleFiles ∧ treeOf (files true) = exampleTree :=
  C116_while_building exampleProper exampleHidden exampleLoads seen_during (loadsDuring_of_loads ⟨true, rfl⟩ (loads true))

end Maike.Main.MovingExample
