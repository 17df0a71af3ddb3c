import Verif.Graph.Model

/-!
# Vocabulary for statements about graph traversal

Nothing here refers to marks, stacks or steps.
-/

namespace Maike.Graph

/-- `v` is a direct dependency of `u`. -/
def Adj {E : Type} (g : Graph E) (u v : Nat) : Prop :=
  ∃ e ∈ g.edges u, g.ref e = some v

/-- Every edge that has a valid reference leads to a node of the graph. -/
def WellFormed {E : Type} (g : Graph E) : Prop :=
  ∀ u v, Adj g u v → v < g.size

/-- A chain of zero or more dependencies from `u` to `v`. -/
inductive Reach {E : Type} (g : Graph E) : Nat → Nat → Prop
  | refl (u : Nat) : Reach g u u
  | tail {u v w : Nat} : Reach g u v → Adj g v w → Reach g u w

/-- A chain of one or more dependencies from `u` to `v`. -/
def ReachPlus {E : Type} (g : Graph E) (u v : Nat) : Prop :=
  ∃ w, Reach g u w ∧ Adj g w v

/-- A node that depends on itself, directly or not. -/
def OnCycle {E : Type} (g : Graph E) (u : Nat) : Prop := ReachPlus g u u

/-- In the list `l`, everything a node depends on directly comes before each occurrence of it. -/
def DepsFirst {E : Type} (g : Graph E) (l : List Nat) : Prop :=
  ∀ l₁ u l₂, l = l₁ ++ u :: l₂ → ∀ v, Adj g u v → v ∈ l₁

/-- The nodes in a list of callback invocations. -/
def nodesOf {E : Type} (calls : List (Nat × Option E)) : List Nat := calls.map Prod.fst

end Maike.Graph
