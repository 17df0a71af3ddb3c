import Verif.Graph.Lemmas

/-!
# Properties of graph traversal (C01 - C04)

`visitNodesInTopoOrder g` and `processGraphNodeRecursive g root` return how the traversal
ended and the list of callback invocations `(node, incoming edge)`, oldest first.
-/

namespace Maike.Graph

variable {E : Type}

/-- C01: when the whole graph has been visited, the callback was invoked for everything a node
depends on, directly or transitively, before it was invoked for the node. -/
theorem C01_topological_order (g : Graph E) (hwf : WellFormed g)
    (hok : (visitNodesInTopoOrder g).1 = .ok) :
    ∀ l₁ u l₂, nodesOf (visitNodesInTopoOrder g).2 = l₁ ++ u :: l₂ →
      ∀ v, ReachPlus g u v → v ∈ l₁ := by
  rcases visitAll_spec g hwf (List.range g.size) (fun _ => .init) [] (by simp)
    (settled_empty g) (by simp) with ⟨_, m, h2, _⟩ | ⟨h1, _⟩
  · intro l₁ u l₂ hl v hv
    exact h2.first.plus_mem hl hv
  · unfold visitNodesInTopoOrder at hok; rw [hok] at h1; cases h1

/-- C02: when the whole graph has been visited, the callback was invoked exactly once for each
node of the graph, and for nothing else. -/
theorem C02_each_node_once (g : Graph E) (hwf : WellFormed g)
    (hok : (visitNodesInTopoOrder g).1 = .ok) :
    (nodesOf (visitNodesInTopoOrder g).2).Nodup ∧
    ∀ u, u ∈ nodesOf (visitNodesInTopoOrder g).2 ↔ u < g.size := by
  rcases visitAll_spec g hwf (List.range g.size) (fun _ => .init) [] (by simp)
    (settled_empty g) (by simp) with ⟨_, m, h2, h3, _⟩ | ⟨h1, _⟩
  · refine ⟨h2.nodup, fun u => ⟨h2.bounded u, fun hu => ?_⟩⟩
    exact (h2.done_iff u).mpr (h3 u (by simpa using hu))
  · unfold visitNodesInTopoOrder at hok; rw [hok] at h1; cases h1

/-- C03: visiting the whole graph either completes or reports a cycle, after finitely many steps and
without leaving the bounds of the mark vector; it reports a cycle iff some node of the graph
depends on itself. In both cases, what the callback has seen is free of duplicates and
dependencies come first. -/
theorem C03_cycle_detection_graph (g : Graph E) (hwf : WellFormed g) :
    ((visitNodesInTopoOrder g).1 = .ok ∨ (visitNodesInTopoOrder g).1 = .cyclic) ∧
    ((visitNodesInTopoOrder g).1 = .cyclic ↔ ∃ c < g.size, OnCycle g c) ∧
    (nodesOf (visitNodesInTopoOrder g).2).Nodup ∧
    DepsFirst g (nodesOf (visitNodesInTopoOrder g).2) := by
  rcases visitAll_spec g hwf (List.range g.size) (fun _ => .init) [] (by simp)
    (settled_empty g) (by simp) with ⟨h1, m, h2, h3, _⟩ | ⟨h1, ⟨c, hc, _⟩, m, h2⟩
  · refine ⟨.inl h1, ⟨fun h => ?_, ?_⟩, h2.nodup, h2.first⟩
    · unfold visitNodesInTopoOrder at h; rw [h] at h1; cases h1
    · rintro ⟨c, hc, hcyc⟩
      exact absurd hcyc (h2.first.acyclic ((h2.done_iff c).mpr (h3 c (by simpa using hc))))
  · refine ⟨.inr h1, ⟨fun _ => ⟨c, ?_, hc⟩, fun _ => h1⟩, h2.nodup, h2.first⟩
    obtain ⟨w, _, hadj⟩ := hc
    exact hwf w c hadj

/-- C03 for a traversal that starts at one node: a cycle is reported iff one can be reached. -/
theorem C03_cycle_detection_from (g : Graph E) (hwf : WellFormed g) (root : Nat)
    (hroot : root < g.size) :
    ((processGraphNodeRecursive g root).1 = .ok ∨ (processGraphNodeRecursive g root).1 = .cyclic) ∧
    ((processGraphNodeRecursive g root).1 = .cyclic ↔ ∃ c, Reach g root c ∧ OnCycle g c) ∧
    (nodesOf (processGraphNodeRecursive g root).2).Nodup ∧
    DepsFirst g (nodesOf (processGraphNodeRecursive g root).2) := by
  rcases visitFrom_spec g hwf root hroot (fun _ => .init) [] (settled_empty g) (by simp) with
    ⟨h1, h2, h3, h4, _⟩ | ⟨h1, ⟨c, hc1, hc2⟩, m, h2⟩
  · refine ⟨.inl h1, ⟨fun h => ?_, ?_⟩, h2.nodup, h2.first⟩
    · simp only [processGraphNodeRecursive] at h; rw [h] at h1; cases h1
    · rintro ⟨c, hc, hcyc⟩
      exact absurd hcyc (h2.first.acyclic (h2.first.reach_mem ((h2.done_iff root).mpr h4) hc))
  · exact ⟨.inr h1, ⟨fun _ => ⟨c, hc1, hc2⟩, fun _ => h1⟩, h2.nodup, h2.first⟩

/-- C04: visiting from `root` invokes the callback exactly once for each node that can be reached
from `root` and for no other, dependencies first, `root` last. `root` comes without an incoming
edge, and any other node with an edge that leads to it from a node that has been visited. -/
theorem C04_visits_exactly_reachable (g : Graph E) (hwf : WellFormed g) (root : Nat)
    (hroot : root < g.size) (hac : ¬ ∃ c, Reach g root c ∧ OnCycle g c) :
    (processGraphNodeRecursive g root).1 = .ok ∧
    (nodesOf (processGraphNodeRecursive g root).2).Nodup ∧
    (∀ u, u ∈ nodesOf (processGraphNodeRecursive g root).2 ↔ Reach g root u) ∧
    DepsFirst g (nodesOf (processGraphNodeRecursive g root).2) ∧
    (∃ pre, (processGraphNodeRecursive g root).2 = pre ++ [(root, none)]) ∧
    (∀ u inc, (u, inc) ∈ (processGraphNodeRecursive g root).2 → u ≠ root →
      ∃ e w, inc = some e ∧ e ∈ g.edges w ∧ g.ref e = some u ∧
        w ∈ nodesOf (processGraphNodeRecursive g root).2) := by
  rcases visitFrom_spec g hwf root hroot (fun _ => .init) [] (settled_empty g) (by simp) with
    ⟨h1, h2, h3, h4, new, h5, h6, h7⟩ | ⟨h1, hc, _⟩
  · have hroot_mem : root ∈ nodesOf (processGraphNodeRecursive g root).2 :=
      (h2.done_iff root).mpr h4
    have hnew : (processGraphNodeRecursive g root).2 = new := by
      simpa [processGraphNodeRecursive] using h5
    have hmem : ∀ u, Reach g root u → u ∈ nodesOf (processGraphNodeRecursive g root).2 :=
      fun u hu => h2.first.reach_mem hroot_mem hu
    refine ⟨h1, h2.nodup, fun u => ⟨fun hu => ?_, hmem u⟩, h2.first, ?_, ?_⟩
    · rw [hnew] at hu
      simp only [nodesOf, List.mem_map] at hu
      obtain ⟨⟨x, inc⟩, hx, rfl⟩ := hu
      exact (h6 x inc hx).2
    · rw [hnew]; exact h7 rfl
    · intro u inc hu hne
      rw [hnew] at hu
      rcases (h6 u inc hu).1 with ⟨rfl, _⟩ | ⟨_, e, w, a, b, c, d⟩
      · exact absurd rfl hne
      · exact ⟨e, w, a, b, c, hmem w d⟩
  · exact absurd hc hac

/-! ## Concrete instances -/

/-- Diamond 0 → {1,2} → 3 with a repeated edge, plus an isolated node and a dangling edge. -/
def diamond : Graph (Option Nat) where
  size := 5
  edges := fun
    | 0 => [some 1, some 2, some 1, some 3]
    | 1 => [some 3, none]
    | 2 => [some 3]
    | _ => []
  ref := id

example : WellFormed diamond := by
  rintro u v ⟨e, he, hv⟩
  simp [diamond] at *
  subst hv
  split at he <;> simp at he <;> omega

example : (visitNodesInTopoOrder diamond).1 = .ok ∧
    nodesOf (visitNodesInTopoOrder diamond).2 = [3, 1, 2, 0, 4] := by decide

example : (processGraphNodeRecursive diamond 1).2 = [(3, some (some 3)), (1, none)] := by decide

/-- 0 → 1 → 2 → 1. -/
def looped : Graph (Option Nat) where
  size := 3
  edges := fun
    | 0 => [some 1]
    | 1 => [some 2]
    | 2 => [some 1]
    | _ => []
  ref := id

example : OnCycle looped 1 :=
  ⟨2, .tail (.refl 1) ⟨some 2, by simp [looped], rfl⟩, ⟨some 1, by simp [looped], rfl⟩⟩

example : (visitNodesInTopoOrder looped).1 = .cyclic := by decide

end Maike.Graph
