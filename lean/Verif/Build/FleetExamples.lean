import Verif.Build.FleetIdle
import Verif.Build.HistoriesExamples

/-!
# Examples: several runs at the same time (C115)

Two runs are told to make the program 22 from 12 and the objects 20 and 21, which are made from 10 and 11. A recipe adds up what it reads.
-/

namespace Maike.Build

variable {P V D : Type} [DecidableEq P]

/-- A recipe that has begun to write a target writes all of it before it ends. -/
def finishes : List (FAct P V) → Bool
  | [] => true
  | .tear i k p _ :: as => ends i k p as && finishes as
  | _ :: as => finishes as
where
  /-- the target is written before the thread goes on -/
  ends (i k : Nat) (p : P) : List (FAct P V) → Bool
    | [] => false
    | .act j (.write k' p') :: as => (decide (j = i) && decide (k' = k) && decide (p' = p)) || ends i k p as
    | .act j (.sched (.work k' _)) :: as => !(decide (j = i) && decide (k' = k)) && ends i k p as
    | _ :: as => ends i k p as

namespace FleetExample

open SerialExample (three sane)
open HistoryExample (recipes project area w₁)

/-- Steps of the scheduler of run `i`. -/
def main (i n : Nat) : List (FAct Nat Nat) := List.replicate n (.act i (.sched .main))

/-- Run `i` takes the next task and compares time stamps. -/
def look (i : Nat) : List (FAct Nat Nat) := [.act i (.sched .take), .act i (.check 0)]

/-- A recipe of run `i` writes its target. -/
def put (i p : Nat) : List (FAct Nat Nat) := [.act i (.write 0 p)]

/-- The task ends. -/
def finish (i : Nat) : List (FAct Nat Nat) := List.replicate 3 (.act i (.sched (.work 0 .success)))

/-- Both runs are told to make everything. -/
def runs : Nat → Build Nat := fun _ => three 1

def start : Fleet Nat Nat := .start runs w₁

def after (as : List (FAct Nat Nat)) : Option (Fleet Nat Nat) := Fleet.exec recipes runs (fun _ => id) as start

def returned (F : Fleet Nat Nat) (i : Nat) : Bool := decide ((F.state i).sched.pc = .returned 3)

theorem of_any {α : Type} {f : α → Bool} : ∀ {o : Option α}, o.any f = true → ∃ x, o = some x ∧ f x = true
  | some x, h => ⟨x, rfl, h⟩

theorem succeeded {F : Fleet Nat Nat} {i : Nat} (h : returned F i = true) : (F.state i).Succeeded := ⟨3, of_decide_eq_true h⟩

theorem past₁ : SharedPast project w₁ := by
  refine .start (fun p hp _ => ?_) (SerialExample.plausible 1).past (SerialExample.plausible 1).kinds
  have hp : 20 ≤ p := of_decide_eq_true hp
  simp only [w₁, SerialExample.fs]
  exact if_neg (by simp; omega)

theorem crew : Crew project w₁ runs (fun _ => id) where
  plan _ := ⟨w₁.view fun _ => false, ⟨⟨1, rfl⟩, rfl⟩, fun _ _ => rfl⟩
  real _ := rfl
  sources i t ht q hq ha := by
    have ha : ¬ 20 ≤ q := of_decide_eq_false ha
    simp only [runs, three, List.mem_cons, List.not_mem_nil, or_false] at ht
    have : q = 10 ∨ q = 11 ∨ q = 12 := by
      rcases ht with rfl | rfl | rfl
      · exact .inl (by simpa [recipes] using hq)
      · exact .inr (.inl (by simpa [recipes] using hq))
      · have : q = 12 ∨ q = 20 ∨ q = 21 := by simpa [recipes] using hq
        omega
    rcases this with rfl | rfl | rfl <;> exact ⟨⟨1, false⟩, rfl⟩

theorem same : SameTargets runs := fun _ _ => ⟨rfl, rfl⟩

/-- Both runs decide to make 20. Run 1 makes everything. Then run 0 writes 20 again, so that 22 is out of date; run 0 notices that. -/
def whole : List (FAct Nat Nat) :=
  main 0 2 ++ look 0 ++ main 1 2 ++ look 1 ++
  put 1 20 ++ finish 1 ++ main 1 2 ++ look 1 ++ put 1 21 ++ finish 1 ++ main 1 4 ++ look 1 ++ put 1 22 ++ finish 1 ++ main 1 3 ++
  put 0 20 ++ finish 0 ++ main 0 2 ++ look 0 ++ finish 0 ++ main 0 4 ++ look 0 ++ put 0 22 ++ finish 0 ++ main 0 3

theorem whole_ok : (after whole).any (fun F => returned F 0 && returned F 1) = true ∧ ∀ a ∈ whole, FAct.whole a = true := by decide +kernel

/-- The hypotheses of `C115_consistent_partial` are met. -/
example : ∃ F, Together recipes runs (fun _ => id) w₁ F ∧ Consistent recipes (runs 0) id F.content ∧ Consistent recipes (runs 1) id F.content := by
  obtain ⟨h1, h2⟩ := whole_ok
  obtain ⟨F, hF, hr⟩ := of_any h1
  obtain ⟨h3, h4⟩ := Bool.and_eq_true_iff.mp hr
  have ht : Together recipes runs (fun _ => id) w₁ F := ⟨whole, h2, hF⟩
  exact ⟨F, ht, C115_consistent_partial past₁ crew ht (succeeded h3), C115_consistent_partial past₁ crew ht (succeeded h4)⟩

/-- What the files contain, and their time stamps. The program is newer than the objects. -/
example : (after whole).map (fun F => [20, 21, 22].map fun p => (F.content p, (F.fs p).map Stat.mtime)) = some [(100, some 13), (200, some 11), (600, some 14)] := by decide +kernel

/-- A moment before that, when run 1 has succeeded and run 0 has written 20, the program is out of date. -/
theorem C115_others_unfinished : (after (whole.take 37)).any (fun F => returned F 1 && decide ((shouldRun F.fs false ((runs 1).task 2)).toOption = some true)) = true := by decide +kernel

/-- Both runs decide to make 20. Run 0 goes on until its linker is about to read the objects. Run 1 has opened 20, so it is empty. The linker of run 0 reads it. Then run 1 finishes 20, and then run 0 writes the
program. -/
def torn : List (FAct Nat Nat) :=
  main 0 2 ++ look 0 ++ main 1 2 ++ look 1 ++
  put 0 20 ++ finish 0 ++ main 0 2 ++ look 0 ++ put 0 21 ++ finish 0 ++ main 0 4 ++ look 0 ++
  [.tear 1 0 20 0, .read 0 0 20] ++ put 1 20 ++ finish 1 ++ put 0 22 ++ finish 0 ++ main 0 3 ++
  main 1 2 ++ look 1 ++ finish 1 ++ main 1 4 ++ look 1 ++ finish 1 ++ main 1 3

/-- The program should contain 600. -/
example : (after torn).map (fun F => (returned F 0, returned F 1, [20, 21, 22].map fun p => (F.content p, (F.fs p).map Stat.mtime))) =
    some (true, true, [(100, some 13), (200, some 11), (500, some 14)]) := by decide +kernel

/-- Another run, afterwards, that is alone. -/
def next : Option (Bool × List Nat × List Nat) :=
  (after torn).bind fun F =>
    (execContents recipes (three 1) id ((List.replicate 2 (.sched .main) ++ [.sched .take, .check 0] ++ List.replicate 3 (.sched (.work 0 .success))) ++
      (List.replicate 2 (.sched .main) ++ [.sched .take, .check 0] ++ List.replicate 3 (.sched (.work 0 .success))) ++
      (List.replicate 4 (.sched .main) ++ [.sched .take, .check 0] ++ List.replicate 3 (.sched (.work 0 .success)) ++ List.replicate 3 (.sched .main)))
      (init (three 1) F.fs F.clock) F.content).map fun x =>
        (decide (x.1.sched.pc = .returned 3), (three 1).job.tasks.filter (fun t => x.1.decision t = some .run), [20, 21, 22].map x.2)

/-- It succeeds, nothing is executed, and the program is still wrong. -/
theorem C115_lasting : next = some (true, [], [100, 200, 500]) := by decide +kernel

end FleetExample

open FleetExample HistoryExample in
/-- **C115 does not hold.** Compilers and linkers write their targets piece by piece, and nothing keeps two runs of maike from making the same target at the same time. So a linker may read an object while it is
written by the compiler of the other run. Both runs succeed, the program is wrong, and since it has been written after the object, it is not made again (`FleetExample.C115_lasting`). -/
theorem C115_false : ¬ ∀ {r : Recipes Nat Nat Nat} {kind area : Nat → Bool} {pr : Project r kind area} {w : World Nat Nat} {b : Nat → Build Nat} {desc : Nat → Nat → Nat} {as : List (FAct Nat Nat)} {F : Fleet Nat Nat},
    SharedPast pr w → Crew pr w b desc → SameTargets b → finishes as = true → Fleet.exec r b desc as (.start b w) = some F →
    (∀ j, F.Wrote j → (F.state j).Succeeded) → (F.state 0).Succeeded → Consistent r (b 0) (desc 0) F.content := by
  intro h
  have h1 : (after torn).any (fun F => returned F 0 && returned F 1 && F.content 22 != 600 && F.content 12 == 300 && F.content 20 == 100 && F.content 21 == 200) = true ∧ finishes torn = true := by decide +kernel
  obtain ⟨F, hF, hr⟩ := of_any h1.1
  simp only [Bool.and_eq_true, bne_iff_ne, beq_iff_eq] at hr
  obtain ⟨⟨⟨⟨⟨h2, h3⟩, h4⟩, h5⟩, h6⟩, h7⟩ := hr
  have hothers : ∀ (as : List (FAct Nat Nat)) (G G' : Fleet Nat Nat), (∀ a ∈ as, ∃ i, i < 2 ∧ ((∃ x, a = .act i x) ∨ (∃ k q, a = .read i k q) ∨ ∃ k p v, a = .tear i k p v)) →
      Fleet.exec recipes runs (fun _ => id) as G = some G' → ∀ j, 2 ≤ j → (G'.part j).written = (G.part j).written := by
    intro as
    induction as with
    | nil => intro G G' _ hx j _; simp only [Fleet.exec, Option.some.injEq] at hx; rw [hx]
    | cons a as ih =>
      intro G G' ha hx j hj
      simp only [Fleet.exec] at hx
      split at hx
      · rename_i G1 hs
        rw [ih G1 G' (fun x hx => ha x (List.mem_cons_of_mem _ hx)) hx j hj]
        obtain ⟨i, hi, h⟩ := ha a (List.mem_cons_self ..)
        have hne : j ≠ i := by omega
        rcases h with ⟨x, rfl⟩ | ⟨k, q, rfl⟩ | ⟨k, p, v, rfl⟩
        · simp only [Fleet.step] at hs
          split at hs
          · cases hs
          · split at hs
            · split at hs
              · injection hs with hs; rw [← hs]; simp only [Fleet.reads, part_put_ne _ _ hne]
              · cases hs
            · split at hs
              · injection hs with hs; rw [← hs]; simp only [part_put_ne _ _ hne]
              · cases hs
            · injection hs with hs; rw [← hs]; simp only [part_put_ne _ _ hne]
        · simp only [Fleet.step] at hs
          split at hs
          · injection hs with hs; rw [← hs]; rfl
          · cases hs
        · simp only [Fleet.step] at hs
          split at hs
          · cases hs
          · injection hs with hs; rw [← hs]; simp only [part_put_ne _ _ hne]
      · cases hx
  have hacts : ∀ a ∈ torn, ∃ i, i < 2 ∧ ((∃ x, a = .act i x) ∨ (∃ k q, a = .read i k q) ∨ ∃ k p v, a = .tear i k p v) := by
    intro a ha
    have : ∀ a ∈ torn, (match a with | .act i _ => decide (i < 2) | .read i _ _ => decide (i < 2) | .tear i _ _ _ => decide (i < 2)) = true := by decide +kernel
    have := this a ha
    cases a with
    | act i x => exact ⟨i, of_decide_eq_true this, .inl ⟨x, rfl⟩⟩
    | read i k q => exact ⟨i, of_decide_eq_true this, .inr (.inl ⟨k, q, rfl⟩)⟩
    | tear i k p v => exact ⟨i, of_decide_eq_true this, .inr (.inr ⟨k, p, v, rfl⟩)⟩
  have hc := h past₁ crew same h1.2 hF (fun j hw => ?_) (succeeded h2) 2 (by simp [runs, SerialExample.three]) 22 (by simp [runs, SerialExample.three]) rfl
  · rw [hc] at h4
    simp [recipes, h5, h6, h7] at h4
  · match j, hw with
    | 0, _ => exact succeeded h2
    | 1, _ => exact succeeded h3
    | j + 2, ⟨t, ht⟩ => exact absurd (congrFun (hothers torn start F hacts hF (j + 2) (by omega)) t) ht

namespace FleetExample

open SerialExample (three sane)
open HistoryExample (recipes project area w₁)

/-- Run 0 makes everything, run 1 has been told to make 20 only. -/
def unequal : Nat → Build Nat := fun i => if i = 1 then { three 1 with job := ⟨[0], fun _ => [], 1⟩ } else three 1

/-- Run 1 decides to make 20, and does so when run 0 has finished. -/
def late : List (FAct Nat Nat) :=
  main 1 2 ++ look 1 ++ main 0 2 ++ look 0 ++
  put 0 20 ++ finish 0 ++ main 0 2 ++ look 0 ++ put 0 21 ++ finish 0 ++ main 0 4 ++ look 0 ++ put 0 22 ++ finish 0 ++ main 0 3 ++
  put 1 20 ++ finish 1 ++ main 1 3

/-- **C115 needs that the runs make the same targets** for that nothing is left to do: here both succeed, and 22 is older than 20. It contains what it should, but it is made again by the next run. -/
theorem C115_unequal : (Fleet.exec recipes unequal (fun _ => id) late (.start unequal w₁)).map
    (fun F => ((F.state 0).sched.pc, (F.state 1).sched.pc, F.content 22, (shouldRun F.fs false ((three 1).task 2)).toOption)) = some (.returned 3, .returned 1, 600, some true) := by decide +kernel

/-- The hypotheses of `C115_idle_partial` are met by `whole`; the next run executes nothing. -/
example : (after whole).map (fun F => [0, 1, 2].map fun t => (shouldRun F.fs false ((three 1).task t)).toOption) = some [some false, some false, some false] := by decide +kernel

end FleetExample

end Maike.Build
