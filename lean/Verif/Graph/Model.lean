/-!
# Model of `core/utils/graphutils.hpp`

Nodes are identified with the number `id(node)`; a graph is the node count together with
the outgoing edges of each node.  `ref e = none` models a reference for which `valid` is
false (`core/db/source_file_id.hpp:36-39`, `core/utils/graphutils.hpp:24-28`).
Simplification: the callback is modelled by the list of calls made to it (`out`), so a
callback that throws is not covered; indices outside of the mark vector (undefined
behaviour in C++, `visited[...]` and `assert` in `core/db/dependency_graph.hpp:75-80`)
are a separate outcome.
-/

namespace Maike.Graph

/-- `graphutils_detail::Mark`, core/utils/graphutils.hpp:17-22. -/
inductive Mark where
  | init
  | inProgress
  | done
deriving DecidableEq, Repr

/-- The parts of the `Graph` concept used by graphutils.hpp: `size`, `visitEdges`, `reference`
(core/utils/graphutils.hpp:30-72, core/db/dependency_graph.hpp:63-80). -/
structure Graph (E : Type) where
  /-- number of nodes -/
  size : Nat
  /-- outgoing edges in the order in which `visitEdges` presents them -/
  edges : Nat → List E
  /-- `reference(edge)`; `none` if it is not `valid` -/
  ref : E → Option Nat

/-- Ways in which the traversal can stop. `outOfBounds` is undefined behaviour in C++;
`outOfFuel` exists only in the model, see `run`. -/
inductive Outcome where
  | ok
  | cyclic
  | outOfBounds
  | outOfFuel
deriving DecidableEq, Repr

/-- `visited[i] = m`, core/utils/graphutils.hpp:69 and 74. -/
def setMark (marks : Nat → Mark) (i : Nat) (m : Mark) : Nat → Mark :=
  fun j => if j = i then m else marks j

/-- The visible state of the loop: `visited`, `nodes_to_visit` (top first), and the
calls that have been made to `cb`, oldest first (core/utils/graphutils.hpp:37-47, 75). -/
structure State (E : Type) where
  marks : Nat → Mark
  stack : List (Nat × Option E)
  out : List (Nat × Option E)

/-- `visitEdges(processEdge, ...)`, core/utils/graphutils.hpp:53-70: push the target of each
edge whose target has not been entered, stop if one is being processed. -/
def pushEdges {E : Type} (g : Graph E) (marks : Nat → Mark) :
    List E → List (Nat × Option E) → Except Outcome (List (Nat × Option E))
  | [], stack => .ok stack
  | e :: es, stack =>
    match g.ref e with
    | none => pushEdges g marks es stack
    | some v =>
      if v < g.size then
        match marks v with
        | .init => pushEdges g marks es ((v, some e) :: stack)
        | .inProgress => .error .cyclic
        | .done => pushEdges g marks es stack
      else .error .outOfBounds

/-- One iteration of the `while` loop with a non-empty stack,
core/utils/graphutils.hpp:45-80. When it stops with an error the state holds
what the callback has seen so far. -/
def step {E : Type} (g : Graph E) (st : State E) (u : Nat) (inc : Option E)
    (rest : List (Nat × Option E)) : Except (Outcome × State E) (State E) :=
  if u < g.size then
    match st.marks u with
    | .init =>
      let marks := setMark st.marks u .inProgress
      match pushEdges g marks (g.edges u) ((u, inc) :: rest) with
      | .ok stack => .ok { st with marks := marks, stack := stack }
      | .error o => .error (o, { st with marks := marks })
    | .inProgress =>
      .ok { marks := setMark st.marks u .done, stack := rest, out := st.out ++ [(u, inc)] }
    | .done => .ok { st with stack := rest }
  else .error (.outOfBounds, st)

/-- The `while` loop, core/utils/graphutils.hpp:45-80. `fuel` bounds the number of iterations;
`Theorems.lean` shows that the fuel given in `visitFrom` always suffices. -/
def run {E : Type} (g : Graph E) : Nat → State E → Outcome × State E
  | fuel, st =>
    match st.stack with
    | [] => (.ok, st)
    | (u, inc) :: rest =>
      match fuel with
      | 0 => (.outOfFuel, st)
      | fuel + 1 =>
        match step g st u inc rest with
        | .error e => e
        | .ok st' => run g fuel st'

/-- Number of edges of the nodes `0 .. n-1` plus `n`: an upper bound on what can be pushed. -/
def edgeBound {E : Type} (g : Graph E) : Nat → Nat
  | 0 => 0
  | n + 1 => edgeBound g n + (g.edges n).length + 1

/-- `graphutils_detail::processGraphNodeRecursive`, core/utils/graphutils.hpp:30-85:
visit everything reachable from `root` that has not been visited yet. -/
def visitFrom {E : Type} (g : Graph E) (root : Nat) (marks : Nat → Mark)
    (out : List (Nat × Option E)) : Outcome × State E :=
  if root < g.size then
    match marks root with
    | .init => run g (edgeBound g g.size + 1) { marks := marks, stack := [(root, none)], out := out }
    | .inProgress => (.cyclic, { marks := marks, stack := [], out := out })
    | .done => (.ok, { marks := marks, stack := [], out := out })
  else (.outOfBounds, { marks := marks, stack := [], out := out })

/-- `processGraphNodeRecursive` with fresh marks, core/utils/graphutils.hpp:88-99:
the outcome, and the calls made to the callback. -/
def processGraphNodeRecursive {E : Type} (g : Graph E) (root : Nat) :
    Outcome × List (Nat × Option E) :=
  let r := visitFrom g root (fun _ => .init) []
  (r.1, r.2.out)

/-- The loop over a list of nodes in `visitNodesInTopoOrder`, core/utils/graphutils.hpp:108-112. -/
def visitAll {E : Type} (g : Graph E) : List Nat → (Nat → Mark) → List (Nat × Option E) →
    Outcome × List (Nat × Option E)
  | [], _, out => (.ok, out)
  | u :: us, marks, out =>
    match visitFrom g u marks out with
    | (.ok, st) => visitAll g us st.marks st.out
    | (o, st) => (o, st.out)

/-- `visitNodesInTopoOrder`, core/utils/graphutils.hpp:101-113, with `visitNodes` presenting the
nodes in the order of their ids (core/db/dependency_graph.hpp:63-68). -/
def visitNodesInTopoOrder {E : Type} (g : Graph E) : Outcome × List (Nat × Option E) :=
  visitAll g (List.range g.size) (fun _ => .init) []

end Maike.Graph
