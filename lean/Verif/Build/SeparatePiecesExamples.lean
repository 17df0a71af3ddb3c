import Verif.Build.SeparatePieces
import Verif.Build.SeparateExamples

/-!
# Examples: recipes that write piece by piece (C117)

The runs are those of `SeparateExamples.lean`. Now run 0 writes 20 and 22 in several pieces.
-/

namespace Maike.Build.SeparateExample

open SerialExample (three sane)
open HistoryExample (recipes project area w₁)
open FleetExample (main look put finish of_any past₁)

/-- `Completes`, as a program. -/
def completes (b : Nat → Build Nat) (i : Nat) : List Nat → List (FAct Nat Nat) → Fleet Nat Nat → Bool
  | _, [], _ => true
  | l, a :: as, F =>
    (match a with
      | .act j (.sched (.work k .success)) =>
        j != i || match (F.part i).sched.running[k]? with
          | some (t, .body) => ((b i).task t).targets.all fun p => !l.contains p
          | _ => true
      | _ => true) &&
    match Fleet.step recipes b (fun _ => id) a F with
    | some F' => completes b i (begun i a l) as F'
    | none => true

theorem completes_iff {b : Nat → Build Nat} {i : Nat} {l : List Nat} {as : List (FAct Nat Nat)} {F : Fleet Nat Nat} (h : completes b i l as F = true) :
    Completes recipes b (fun _ => id) i l as F := by
  induction as generalizing l F with
  | nil => trivial
  | cons a as ih =>
    simp only [completes, Bool.and_eq_true] at h
    refine ⟨fun k t e hk p hp hl => ?_, fun F' hF' => ih ?_⟩
    · subst e
      have h := h.1
      simp [hk] at h
      exact h p hp hl
    · have h := h.2
      rw [hF'] at h
      exact h

/-- Run 0 begins to write 20, run 1 begins to write its target; run 0 writes more of 20, and then all of it. -/
def pieces : List (FAct Nat Nat) :=
  main 0 2 ++ look 0 ++ main 1 2 ++ look 1 ++
  [.tear 0 0 20 0, .tear 1 0 30 0, .tear 0 0 20 55] ++ put 0 20 ++ finish 0 ++ main 0 2 ++ look 0 ++ put 0 21 ++ finish 0 ++ main 0 4 ++ look 0 ++ [.tear 0 0 22 1, .tear 1 0 30 7] ++ put 0 22 ++ finish 0 ++ main 0 3

/-- The hypotheses of `C117_pieces` are met, and `Separate` is not. -/
theorem C117_pieces_example : ¬ Separate recipes (others 30) (fun _ => id) w₁ 0 pieces ∧ ∃ F, after 30 pieces = some F ∧ (F.state 0).Succeeded ∧ F.content 30 = 7 ∧ [20, 21, 22].map F.content = [100, 200, 600] ∧
    Consistent recipes (three 1) id F.content ∧ ∀ t ∈ [0, 1, 2], UpToDate F.fs ((three 1).task t) ∧ ∀ p ∈ ((three 1).task t).targets, Exists F.fs p := by
  refine ⟨fun h => h.own 0 20 0 (by simp [pieces]), ?_⟩
  have h : (after 30 pieces).any (fun F => decide ((F.state 0).sched.pc = .returned 3) && decide (F.content 30 = 7) && decide ([20, 21, 22].map F.content = [100, 200, 600])) = true := by decide +kernel
  obtain ⟨F, hF, hr⟩ := of_any h
  simp only [Bool.and_eq_true, decide_eq_true_eq] at hr
  obtain ⟨⟨h1, h2⟩, h3⟩ := hr
  have hok : (F.state 0).Succeeded := ⟨3, h1⟩
  refine ⟨F, hF, hok, h2, h3, C117_pieces past₁ (topological 30) (kinds 30) (desc := fun _ => id) (i := 0) (v := w₁.view fun _ => false) ⟨⟨1, rfl⟩, rfl⟩ (fun _ _ => rfl) rfl (FleetExample.crew.sources 0)
    separate.targets (fun j p _ ha => ?_) (completes_iff (by decide +kernel)) hF hok⟩
  have : ∀ a ∈ pieces, (match a with | .act _ (.touchDir _) => true | _ => false) = false := by decide +kernel
  have := this _ ha
  simp at this

/-- **Recipes have to complete their targets.** If the recipe for 20 ends with success after it has begun to write 20, then run 0 succeeds, and neither 20 nor the program is right. -/
def broken : List (FAct Nat Nat) :=
  main 0 2 ++ look 0 ++ [.tear 0 0 20 55] ++ finish 0 ++ main 0 2 ++ look 0 ++ put 0 21 ++ finish 0 ++ main 0 4 ++ look 0 ++ put 0 22 ++ finish 0 ++ main 0 3

theorem C117_completes_needed : completes (others 30) 0 [] broken (.start (others 30) w₁) = false ∧
    (after 30 broken).map (fun F => ((F.state 0).sched.pc, [20, 21, 22].map F.content)) = some (.returned 3, [55, 200, 555]) := by decide +kernel

end Maike.Build.SeparateExample
