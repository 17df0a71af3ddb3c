import Verif.Db.Model
import Verif.Graph.Spec
import Verif.TaskList.Spec

/-! # Vocabulary for statements about the database -/

namespace Maike.Db

variable {P : Type} [PathType P] [DecidableEq P]

/-- There is a file with the given path. -/
def HasFile (files : SrcList P) (p : P) : Prop := ∃ info, (p, info) ∈ files

/-- The declared dependencies of a file, both kinds. -/
def SrcInfo.deps (info : SrcInfo P) : List (Dep P) := info.useDeps ++ info.buildDeps

/-- No dependency has been resolved yet. Dependencies are created this way
(core/db/dependency.hpp:22-27, core/db/source_file_id.hpp:16-18). -/
def Unresolved (files : SrcList P) : Prop :=
  ∀ x ∈ files, ∀ d ∈ x.2.useDeps ++ x.2.buildDeps, d.ref = none

/-- The targets that a file declares, with normalised names, except those that have the name of
the file itself. -/
def declaredBy (src : P) (ts : List (TargetInfo P)) : TargetList P :=
  (ts.filter fun t => src ≠ t.name).map fun t => (PathType.norm t.name, ⟨src, t⟩)

/-- All targets declared by a list of files. -/
def declared (files : SrcList P) : TargetList P := files.flatMap fun x => declaredBy x.1 x.2.targets

/-- The dependencies for which a file gets placeholders. -/
def extDeps (info : SrcInfo P) : List (Dep P) :=
  (info.targets.flatMap fun t => t.useDeps) ++ info.useDeps

/-- Node `u` has path `p` in the graph. -/
def DepGraph.PathOf (g : DepGraph P) (u : Nat) (p : P) : Prop := ∃ info, g.files[u]? = some (p, info)

/-- No file depends on itself, directly or indirectly. -/
def DepGraph.Acyclic (g : DepGraph P) : Prop := ∀ u, ¬ Graph.OnCycle g.toGraph u

end Maike.Db
