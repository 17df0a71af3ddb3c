import Verif.Main.Retry
import Verif.Main.RunExamples

/-!
# Examples of commands that fail

The project of `RunExamples.lean`, with a command for `a.cpp` that fails before, or after it has written its target.
-/

namespace Maike.Main.RetryExample

open Fs Tree Paths
open Maike.Build (FileSys Stat)

/-- A scheduler for examples like `Build.auto`, where the commands for some tasks fail, after having written their targets if `writes`. -/
def auto {P : Type} [DecidableEq P] (b : Build.Build P) (bad : Nat → Bool) (writes : Bool) : Nat → Build.State P → List (Build.Act P)
  | 0, _ => []
  | n + 1, s =>
    let candidates : List (Build.Act P) := [.check 0] ++
      (match s.sched.running[0]? with
       | some (t, .body) =>
         if bad t then (if writes then ((b.task t).targets.filter fun p => p ∉ s.written t).map fun p => .write 0 p else []) ++ [.sched (.work 0 .failure)]
         else ((b.task t).targets.filter fun p => p ∉ s.written t).map fun p => .write 0 p
       | _ => []) ++ [.sched (.work 0 .success), .sched .take, .sched .main]
    match candidates.findSome? (fun a => (Build.step b a s).map fun s' => (a, s')) with
    | some (a, s') => a :: auto b bad writes n s'
    | none => []

def theB : Build.Build Path := theBuild exampleJob exampleTree false exampleKind

/-- The node of `a.cpp`. -/
def isA (t : Nat) : Bool := decide ((Build.makeTask exampleTree.graph t).src = parse ['a', '.', 'c', 'p', 'p'])

/-- The first run: the command for `a.cpp` fails. -/
def acts (writes : Bool) : List (Build.Act Path) :=
  auto theB isA writes 60 (Build.init theB exampleFs 10) ++ [.touchDir (parse ['_', '_', 't'])]

def state (writes : Bool) : Build.State Path := stateOf theB exampleFs 10 (acts writes)

theorem runs : ∀ writes, Runs exampleJob false exampleKind exampleDisk 10 exampleFiles exampleTree (state writes)
  | true => ⟨exampleLoads, by decide +kernel, _, stateOf_exec (as := acts true) (by decide +kernel)⟩
  | false => ⟨exampleLoads, by decide +kernel, _, stateOf_exec (as := acts false) (by decide +kernel)⟩

/-- The program has ended with an exception, which becomes the exit status −1 (C76). -/
theorem rethrown : ∀ writes, ∃ t, (state writes).sched.pc = .rethrown t
  | true => ⟨3, by decide +kernel⟩
  | false => ⟨3, by decide +kernel⟩

theorem all (writes : Bool) : ∀ p, ((state writes).fs p).isSome → p ∈ exampleAll := by
  refine all_of_run exampleProper (runs writes) ?_ ?_ (by decide +kernel)
  · intro p hp
    change (exampleFs p).isSome = true at hp
    unfold exampleFs at hp
    split at hp
    · rename_i e; rw [e]; decide +kernel
    · split at hp
      · rename_i e; rw [e]; decide +kernel
      · cases hp
  · intro p hk
    have : p ∈ dirs := by simpa [exampleKind] using hk
    exact List.mem_append_left _ this

def disk (writes : Bool) : Disk := diskOf (state writes).fs exampleAll

theorem disk_ok : ∀ writes, (disk writes).Ok
  | true => diskOf_ok (by decide +kernel) (all true) (slash_of (all true) (by decide +kernel))
  | false => diskOf_ok (by decide +kernel) (all false) (slash_of (all false) (by decide +kernel))

def files (writes : Bool) : List (Path × FileInfo) := (scan exampleJob (disk writes) 40).shared.files

theorem loads : ∀ writes, Loads exampleJob (disk writes) (files writes) (treeOf (files writes))
  | true => loads_of 40 (by decide +kernel) (by decide +kernel) (treeOf_ok (by decide +kernel))
  | false => loads_of 40 (by decide +kernel) (by decide +kernel) (treeOf_ok (by decide +kernel))

/-- The second run, a minute later. -/
def state₂ (writes : Bool) : Build.State Path :=
  stateOf (theBuild exampleJob (treeOf (files writes)) false exampleKind) (disk writes).fs 100
    (Build.auto (theBuild exampleJob (treeOf (files writes)) false exampleKind) 60
      (Build.init (theBuild exampleJob (treeOf (files writes)) false exampleKind) (disk writes).fs 100))

theorem runs₂ : ∀ writes, Runs exampleJob false exampleKind (disk writes) 100 (files writes) (treeOf (files writes)) (state₂ writes)
  | true => ⟨loads true, by decide +kernel, _, stateOf_exec (by decide +kernel)⟩
  | false => ⟨loads false, by decide +kernel, _, stateOf_exec (by decide +kernel)⟩

theorem succeeded₂ : ∀ writes, (state₂ writes).Succeeded
  | true => ⟨2, by decide +kernel⟩
  | false => ⟨2, by decide +kernel⟩

theorem source {tree : Db.SourceTree Path} (hl : ∀ k < tree.graph.files.length, (tree.graph.files[k]?.map Prod.fst) = some (parse ['a', '.', 'c', 'p', 'p']) → k = 3)
    {t : Nat} (h : tree.graph.PathOf t (parse ['a', '.', 'c', 'p', 'p'])) : t = 3 := by
  obtain ⟨info, h⟩ := h
  refine hl t (List.getElem?_eq_some_iff.mp h).1 ?_
  rw [h]; rfl

theorem path_of {tree : Db.SourceTree Path} (h : (tree.graph.files[3]?.map Prod.fst) = some (parse ['a', '.', 'c', 'p', 'p'])) :
    tree.graph.PathOf 3 (parse ['a', '.', 'c', 'p', 'p']) := by
  obtain ⟨⟨_, info⟩, h1, rfl⟩ := Option.map_eq_some_iff.mp h
  exact ⟨info, h1⟩

/-- **C80 is false** without a condition on recipes: here the command for a file has reported a failure, and so has the program. The next run, on the
same files, reports success, and has not executed the command again. -/
theorem C80_false : ∃ j kind d now files tree s p i d₂ later files₂ tree₂ s₂, Proper j kind d now ∧ Hidden j kind d ∧
    Runs j false kind d now files tree s ∧ Scanned j d p i ∧ (∀ t ∈ i.targets, kind t.name = false) ∧ Failed (tree, s) p.normal ∧
    (∃ u, s.sched.pc = .rethrown u) ∧ d₂.Ok ∧ d₂.fs = s.fs ∧ s.clock ≤ later ∧ Runs j false kind d₂ later files₂ tree₂ s₂ ∧ s₂.Succeeded ∧
    ¬ Attempted (tree₂, s₂) p.normal := by
  obtain ⟨p, i, hs, e1, e2⟩ := exampleScanned
  refine ⟨_, _, _, _, _, _, _, p, i, _, _, _, _, _, exampleProper, exampleHidden, runs true, hs, ?_, ?_, rethrown true, disk_ok true, rfl,
    by decide +kernel, runs₂ true, succeeded₂ true, ?_⟩
  · intro t ht
    have : t.name ∈ i.targets.map (fun t => t.name) := List.mem_map.mpr ⟨t, ht, rfl⟩
    rw [e2, List.mem_singleton] at this
    rw [this]
    decide +kernel
  · rw [e1]
    exact ⟨3, path_of (by decide +kernel), by decide +kernel⟩
  · rw [e1]
    rintro ⟨t, ht, hex⟩
    obtain rfl := source (by decide +kernel) ht
    have : (state₂ true).decision 3 ≠ some .run := by decide +kernel
    exact this hex

/-- If it has not written anything, the command is executed again (C80), and the run succeeds. -/
example : Attempted (treeOf (files false), state₂ false) (parse ['a', '.', 'c', 'p', 'p']) := by
  obtain ⟨p, i, hs, e1, e2⟩ := exampleScanned
  have hlater : Later exampleJob exampleKind (disk false) 100 [(treeOf (files false), state₂ false)] :=
    .cons (runs₂ false) (d₂ := diskOf (state₂ false).fs exampleAll) (later := 200) ?_ rfl (by decide +kernel) .nil
  · have := C80_retried_partial exampleProper exampleHidden (runs false) hs ?_ ?_ ?_ (disk_ok false) rfl (by decide +kernel) hlater (pre := []) rfl
      (succeeded₂ false)
    · obtain ⟨y, hy, h⟩ := this
      simp only [List.nil_append, List.mem_singleton] at hy
      subst hy
      rw [e1] at h
      exact h
    · intro t ht
      have : t.name ∈ i.targets.map (fun t => t.name) := List.mem_map.mpr ⟨t, ht, rfl⟩
      rw [e2, List.mem_singleton] at this
      rw [this]
      decide +kernel
    · rw [e1]
      exact ⟨3, path_of (by decide +kernel), by unfold Build.State.Executed; decide +kernel⟩
    · rw [e1]
      intro t ht
      obtain rfl := source (by decide +kernel) ht
      decide +kernel
  · have hall : ∀ p, ((state₂ false).fs p).isSome → p ∈ exampleAll := by
      refine all_of_run (C71_again exampleProper (runs false) exampleHidden (disk_ok false) rfl (loads false) (by decide +kernel)).1 (runs₂ false)
        (all false) ?_ (by decide +kernel)
      intro p hk
      have : p ∈ dirs := by simpa [exampleKind] using hk
      exact List.mem_append_left _ this
    exact diskOf_ok (by decide +kernel) hall (slash_of hall (by decide +kernel))

end Maike.Main.RetryExample
