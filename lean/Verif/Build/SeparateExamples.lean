import Verif.Build.Separate
import Verif.Build.FleetExamples

/-!
# Examples: runs with different targets at the same time (C117)

Run 0 makes the program 22 from 12 and the objects 20 and 21, which are made from 10 and 11. Run 1 makes 30 from 10.
-/

namespace Maike.Build.SeparateExample

open SerialExample (three sane)
open HistoryExample (recipes project area w₁)
open FleetExample (main look put finish of_any past₁)

/-- Run 0 makes everything, the other runs make `p` from 10. -/
def others (p : Nat) : Nat → Build Nat := fun i => if i = 0 then three 1 else { three 1 with job := ⟨[0], fun _ => [], 1⟩, task := fun _ => { src := 10, targets := [p], deps := [] } }

def after (p : Nat) (as : List (FAct Nat Nat)) : Option (Fleet Nat Nat) := Fleet.exec recipes (others p) (fun _ => id) as (.start (others p) w₁)

theorem topological (p j : Nat) : (others p j).job.Topological := by
  unfold others
  split
  · exact (sane 1).topological
  · exact ⟨by simp, fun l₁ t l₂ _ u hu => by simp at hu⟩

theorem kinds (p j : Nat) : (others p j).kind = fun _ => false := by
  unfold others; split <;> rfl

/-- Run 1 begins to write its target, writes more of it, and is interrupted. Meanwhile run 0 makes everything. -/
def mixed (p : Nat) : List (FAct Nat Nat) :=
  main 0 2 ++ look 0 ++ main 1 2 ++ look 1 ++
  put 0 20 ++ [.tear 1 0 p 0] ++ finish 0 ++ main 0 2 ++ look 0 ++ put 0 21 ++ finish 0 ++ main 0 4 ++ [.tear 1 0 p 7] ++ look 0 ++ put 0 22 ++ finish 0 ++ main 0 3

theorem separate : Separate recipes (others 30) (fun _ => id) w₁ 0 (mixed 30) where
  targets j hj t _ p hp := by
    rintro ⟨u, hu, h⟩
    have hp : p = 30 := by simpa [others, hj] using hp
    have hu : u = 0 ∨ u = 1 ∨ u = 2 := by simpa [others, three] using hu
    subst hp
    rcases hu with rfl | rfl | rfl <;> simp [others, three, recipes] at h
  dirs j p _ ha := by
    have : ∀ a ∈ mixed 30, (match a with | .act _ (.touchDir _) => true | _ => false) = false := by decide +kernel
    have := this _ ha
    simp at this
  own k p v ha := by
    have : ∀ a ∈ mixed 30, (match a with | .tear i _ _ _ => decide (i = 0) | _ => false) = false := by decide +kernel
    have := this _ ha
    simp at this

/-- The hypotheses of `C117_succeeds` are met. Run 1 has not finished. -/
theorem C117_example : ∃ F, after 30 (mixed 30) = some F ∧ (F.state 0).Succeeded ∧ ¬ (F.state 1).Succeeded ∧ F.content 30 = 7 ∧
    Consistent recipes (three 1) id F.content ∧ ∀ t ∈ [0, 1, 2], UpToDate F.fs ((three 1).task t) ∧ ∀ p ∈ ((three 1).task t).targets, Exists F.fs p := by
  have h : (after 30 (mixed 30)).any (fun F => decide ((F.state 0).sched.pc = .returned 3) && decide ((F.state 1).sched.running.length = 1) && decide (F.content 30 = 7)) = true := by decide +kernel
  obtain ⟨F, hF, hr⟩ := of_any h
  simp only [Bool.and_eq_true, decide_eq_true_eq] at hr
  obtain ⟨⟨h1, h2⟩, h3⟩ := hr
  have hok : (F.state 0).Succeeded := ⟨3, h1⟩
  have key := C117_succeeds past₁ (topological 30) (kinds 30) (desc := fun _ => id) (i := 0) (v := w₁.view fun _ => false) ⟨⟨1, rfl⟩, rfl⟩ (fun _ _ => rfl) rfl (FleetExample.crew.sources 0) separate hF hok
  refine ⟨F, hF, hok, ?_, h3, key⟩
  have h' : (after 30 (mixed 30)).any (fun F => match (F.state 1).sched.pc with | .returned _ => true | _ => false) = false := by decide +kernel
  rintro ⟨n, hn⟩
  rw [hF] at h'
  simp [hn] at h'

/-- What the files contain, and their time stamps, compared to run 0 alone. Time has passed. -/
example : (after 30 (mixed 30)).map (fun F => [20, 21, 22].map fun p => (F.content p, (F.fs p).map Stat.mtime)) = some [(100, some 10), (200, some 12), (600, some 14)] ∧
    (after 30 ((mixed 30).filter fun a => a.run == 0)).map (fun F => [20, 21, 22].map fun p => (F.content p, (F.fs p).map Stat.mtime)) = some [(100, some 10), (200, some 11), (600, some 12)] := by
  decide +kernel

/-- **C117 needs different targets.** If the other run makes 21 from 10, run 0 succeeds, and its program has been made from an object that is not complete. -/
theorem C117_targets_needed : (after 21 (main 0 2 ++ look 0 ++ main 1 2 ++ look 1 ++ put 0 20 ++ finish 0 ++ main 0 2 ++ look 0 ++ put 0 21 ++ finish 0 ++ main 0 4 ++ [.tear 1 0 21 7] ++ look 0 ++ put 0 22 ++ finish 0 ++ main 0 3)).map (fun F => ((F.state 0).sched.pc, [20, 21, 22].map F.content)) = some (.returned 3, [100, 7, 407]) := by decide +kernel

/-- **C117 needs that the others do not write source files either.** If the other run makes 12 from 10, while run 0 has read it already, run 0 succeeds, and its program is not what its recipe makes of 12. -/
def overwritten : List (FAct Nat Nat) :=
  main 0 2 ++ look 0 ++ main 1 2 ++ look 1 ++ put 0 20 ++ finish 0 ++ main 0 2 ++ look 0 ++ put 0 21 ++ finish 0 ++ main 0 4 ++ look 0 ++ put 1 12 ++ put 0 22 ++ finish 0 ++ main 0 3

theorem C117_sources_needed : (after 12 overwritten).map (fun F => ((F.state 0).sched.pc, [12, 20, 21, 22].map F.content)) = some (.returned 3, [100, 100, 200, 600]) := by decide +kernel

end Maike.Build.SeparateExample
