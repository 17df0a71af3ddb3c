import Verif.Db.Map
import Verif.Graph.Model
import Verif.TaskList.Model

/-!
# Model of the database of source files

core/db/dependency_graph.cpp, core/db/source_file_list.cpp, the constructors in
core/db/task_list.cpp, and core/source_tree_loader/main.cpp.

Not modelled: compilers (see `Kvs/Compiler.lean`), which are passed along unchanged by all functions below.
-/

namespace Maike.Db

/-- `SourceFileOrigin`, core/db/source_file_origin.hpp:12-18. -/
inductive Origin where
  | project
  | generated
  | system
  | pkgConfig
deriving DecidableEq, Repr

/-- `isExternal`, core/db/source_file_origin.hpp:20-23. -/
def isExternal : Origin → Bool
  | .system => true
  | .pkgConfig => true
  | .project => false
  | .generated => false

/-- `RebuildPolicy`, core/db/rebuild_policy.hpp:12-16. -/
inductive RebuildPolicy where
  | always
  | onlyIfOutOfDate
deriving DecidableEq, Repr

/-- `Dependency`, core/db/dependency.hpp:19-66; `ref = none` when `m_ref` is not valid. `props` are the names and values of `m_properties`,
core/db/property.hpp:11-35. -/
structure Dep (P : Type) where
  name : P
  origin : Origin
  ref : Option Nat := none
  props : List (String × String) := []
deriving DecidableEq, Repr

/-- `TargetInfo`, core/db/target_info.hpp:17-38. -/
structure TargetInfo (P : Type) where
  name : P
  useDeps : List (Dep P)
deriving DecidableEq, Repr

/-- `SourceFileInfo`, core/db/source_file_info.hpp:29-150. -/
structure SrcInfo (P : Type) where
  useDeps : List (Dep P) := []
  buildDeps : List (Dep P) := []
  childTargetsUseDeps : List (Dep P) := []
  targets : List (TargetInfo P) := []
  origin : Origin
  policy : RebuildPolicy := .onlyIfOutOfDate
  useTargetDeps : Bool := false
deriving DecidableEq, Repr

/-- `SourceFileList`, core/db/source_file_list.hpp:16. -/
abbrev SrcList (P : Type) := List (P × SrcInfo P)

variable {P : Type} [PathType P] [DecidableEq P]

/-! ## core/db/dependency_graph.cpp -/

/-- `std::lower_bound` on a random access range (binary search), used in
core/db/dependency_graph.cpp:29. The range shrinks in each round, so that `len` rounds suffice:
`fuel` is the number of rounds that remain. -/
def lowerBound {V : Type} (l : List (P × V)) (x : P) : (fuel first len : Nat) → Nat
  | 0, first, _ => first
  | fuel + 1, first, len =>
    if len = 0 then first
    else
      let half := len / 2
      match l[first + half]? with
      | none => first
      | some kv =>
        if PathType.lt kv.1 x then lowerBound l x fuel (first + half + 1) (len - half - 1)
        else lowerBound l x fuel first half

/-- `find`, core/db/dependency_graph.cpp:26-34; `none` is the end iterator. -/
def find {V : Type} (l : List (P × V)) (x : P) : Option Nat :=
  let i := lowerBound l x l.length 0 l.length
  match l[i]? with
  | none => none
  | some kv => if PathType.lt x kv.1 then none else some i

/-- `resolve`, core/db/dependency_graph.cpp:36-56. An error carries the name of the file that
has the reference and the name that could not be resolved. -/
def resolve (nodes : SrcList P) (ignore : Bool) (requiredBy : P) (d : Dep P) :
    Except (P × P) (Dep P) :=
  match find nodes d.name with
  | none => if ignore then .ok d else .error (requiredBy, d.name)
  | some i => .ok { d with ref := some i }

/-- The loops over the dependencies of one file, core/db/dependency_graph.cpp:78-87. -/
def resolveDeps (nodes : SrcList P) (ignore : Bool) (requiredBy : P) :
    List (Dep P) → Except (P × P) (List (Dep P))
  | [] => .ok []
  | d :: ds =>
    match resolve nodes ignore requiredBy d with
    | .error e => .error e
    | .ok d' =>
      match resolveDeps nodes ignore requiredBy ds with
      | .error e => .error e
      | .ok ds' => .ok (d' :: ds')

/-- The loop over the source files, core/db/dependency_graph.cpp:72-90. -/
def resolveFiles (nodes : SrcList P) (ignore : Bool) : SrcList P → Except (P × P) (SrcList P)
  | [] => .ok []
  | (p, info) :: rest =>
    match resolveDeps nodes ignore p info.useDeps with
    | .error e => .error e
    | .ok use =>
      match resolveDeps nodes ignore p info.buildDeps with
      | .error e => .error e
      | .ok build =>
        match resolveFiles nodes ignore rest with
        | .error e => .error e
        | .ok rest' => .ok ((p, { info with useDeps := use, buildDeps := build }) :: rest')

/-- `DependencyGraph`, core/db/dependency_graph.hpp:19-61. `m_nodes` is not stored: node number `k`
is the `k`th entry of the map (core/db/dependency_graph.cpp:62-70). -/
structure DepGraph (P : Type) where
  files : SrcList P

/-- The constructor of `DependencyGraph`, core/db/dependency_graph.cpp:58-91. -/
def makeGraph (files : SrcList P) (ignore : Bool) : Except (P × P) (DepGraph P) :=
  match resolveFiles files ignore files with
  | .error e => .error e
  | .ok fs => .ok ⟨fs⟩

/-- `getNode`, core/db/dependency_graph.cpp:94-101; `none` is an invalid record. -/
def getNode (g : DepGraph P) (name : P) : Option Nat := find g.files name

/-- The graph that is presented to graphutils.hpp: `size`, `getNodeById`
(core/db/dependency_graph.hpp:70-80), `visitEdges` (core/db/source_file_record.hpp:64-73) and
`reference` (core/db/dependency.hpp:68-71). -/
def DepGraph.toGraph (g : DepGraph P) : Graph.Graph (Dep P) where
  size := g.files.length
  edges := fun u =>
    match g.files[u]? with
    | none => []
    | some (_, info) => info.useDeps ++ info.buildDeps
  ref := Dep.ref

/-- `getUseDepsRecursive`, core/db/dependency_graph.cpp:103-114, together with the outcome of the
traversal. -/
def getUseDepsRecursive (g : DepGraph P) (node : Nat) : Graph.Outcome × List (Dep P) :=
  let r := Graph.processGraphNodeRecursive g.toGraph node
  (r.1, r.2.filterMap fun c =>
    match c.2 with
    | none => none
    | some d => if d.name = PathType.empty then none else some d)

/-! ## core/db/source_file_list.cpp -/

/-- `insertPlaceholderIfExternal`, core/db/source_file_list.hpp:19-26. -/
def insertPlaceholder (d : Dep P) (m : SrcList P) : SrcList P :=
  if isExternal d.origin then Map.insertNew d.name { origin := d.origin } m else m

/-- `insertPlaceholdersForExternalEntries` for a list of dependencies,
core/db/source_file_list.cpp:12-18. -/
def insertPlaceholders : List (Dep P) → SrcList P → SrcList P
  | [], m => m
  | d :: ds, m => insertPlaceholders ds (insertPlaceholder d m)

/-- The loop over targets in core/db/source_file_list.cpp:23-26. -/
def insertPlaceholdersTargets : List (TargetInfo P) → SrcList P → SrcList P
  | [], m => m
  | t :: ts, m => insertPlaceholdersTargets ts (insertPlaceholders t.useDeps m)

/-- `insertPlaceholdersForExternalEntries` for a file, core/db/source_file_list.cpp:20-32. -/
def insertPlaceholdersFile (info : SrcInfo P) (m : SrcList P) : SrcList P :=
  insertPlaceholders info.useDeps (insertPlaceholdersTargets info.targets m)

/-- `createPlaceholdersForExternalEntries`, core/db/source_file_list.cpp:34-42, started with the
empty map. -/
def createPlaceholders : SrcList P → SrcList P → SrcList P
  | [], m => m
  | (_, info) :: fs, m => createPlaceholders fs (insertPlaceholdersFile info m)

/-- `Target`, core/db/target.hpp:11-40. -/
structure Target (P : Type) where
  sourceFilename : P
  target : TargetInfo P
deriving DecidableEq, Repr

/-- `TargetList`, core/db/source_file_list.hpp:17. -/
abbrev TargetList (P : Type) := List (P × Target P)

/-- `insertUnique`, core/db/source_file_list.cpp:44-62. An error carries the name of the target, and of
the file that it has been defined in. -/
def insertUnique (t : TargetInfo P) (src : P) (m : TargetList P) : Except (P × P) (TargetList P) :=
  match Map.lookup (PathType.norm t.name) m with
  | some other => .error (PathType.norm t.name, other.sourceFilename)
  | none => .ok (Map.insertNew (PathType.norm t.name) ⟨src, t⟩ m)

/-- `collectTargets` for a file, core/db/source_file_list.cpp:64-75. -/
def collectTargetsFile (src : P) : List (TargetInfo P) → TargetList P → Except (P × P) (TargetList P)
  | [], m => .ok m
  | t :: ts, m =>
    if src ≠ t.name then
      match insertUnique t src m with
      | .error e => .error e
      | .ok m' => collectTargetsFile src ts m'
    else collectTargetsFile src ts m

/-- `collectTargets`, core/db/source_file_list.cpp:77-85, started with the empty map. -/
def collectTargets : SrcList P → TargetList P → Except (P × P) (TargetList P)
  | [], m => .ok m
  | (src, info) :: fs, m =>
    match collectTargetsFile src info.targets m with
    | .error e => .error e
    | .ok m' => collectTargets fs m'

/-- The `childTargetsUseDeps` of a node that are not `targetName`,
core/db/source_file_list.cpp:97-105. -/
def childDeps (g : DepGraph P) (targetName : P) (node : Nat) : List (Dep P) :=
  match g.files[node]? with
  | none => []
  | some (_, info) => info.childTargetsUseDeps.filter fun d => d.name ≠ targetName

/-- What can stop the loading of a source tree. -/
inductive LoadError (P : Type) where
  | unresolved (requiredBy name : P)
  | duplicateTarget (name definedIn : P)
  | cyclic
  /-- undefined behaviour: an invalid record is used as a node -/
  | invalidNode
deriving DecidableEq, Repr

/-- `makeSourceFileInfo`, core/db/source_file_list.cpp:87-117. -/
def makeSourceFileInfo (g : DepGraph P) (name : P) (t : Target P) : Except (LoadError P) (SrcInfo P) :=
  match getNode g t.sourceFilename with
  | none => .error .invalidNode
  | some node =>
    match Graph.processGraphNodeRecursive g.toGraph node with
    | (.ok, calls) => .ok {
        origin := .generated
        useDeps := t.target.useDeps ++ calls.flatMap fun c => childDeps g name c.1
        buildDeps := [{ name := t.sourceFilename, origin := .project }] }
    | (.cyclic, _) => .error .cyclic
    | (_, _) => .error .invalidNode

/-- The loop in `makeSourceFileInfos`, core/db/source_file_list.cpp:122-124. -/
def makeSourceFileInfosLoop (g : DepGraph P) : TargetList P → SrcList P → Except (LoadError P) (SrcList P)
  | [], m => .ok m
  | (name, t) :: ts, m =>
    match makeSourceFileInfo g name t with
    | .error e => .error e
    | .ok info => makeSourceFileInfosLoop g ts (Map.insertNew name info m)

/-- `makeSourceFileInfos`, core/db/source_file_list.cpp:119-125. -/
def makeSourceFileInfos (targets : TargetList P) (files : SrcList P) :
    Except (LoadError P) (SrcList P) :=
  match makeGraph files true with
  | .error e => .error (.unresolved e.1 e.2)
  | .ok g => makeSourceFileInfosLoop g targets files

/-- The use dependencies that one file gets in core/db/source_file_list.cpp:130-142. -/
def addTargetDeps (files : SrcList P) (info : SrcInfo P) : SrcInfo P :=
  if info.useTargetDeps then
    { info with useDeps := info.useDeps ++ info.targets.flatMap fun t =>
        match Map.lookup t.name files with
        | none => []
        | some i => i.useDeps }
  else info

/-- Replace the value of a key that is present. -/
def assign (p : P) (info : SrcInfo P) : SrcList P → SrcList P
  | [] => []
  | (q, i) :: m => if q = p then (q, info) :: m else (q, i) :: assign p info m

/-- `addTargetDepsToSourceFiles`, core/db/source_file_list.cpp:127-144. Files are updated in place, one
after the other, so that later files see what earlier ones have become: `keys` are the keys
that remain to be visited. -/
def addTargetDepsLoop : List P → SrcList P → SrcList P
  | [], m => m
  | p :: ps, m =>
    match Map.lookup p m with
    | none => addTargetDepsLoop ps m
    | some info => addTargetDepsLoop ps (assign p (addTargetDeps m info) m)

def addTargetDepsToSourceFiles (m : SrcList P) : SrcList P :=
  addTargetDepsLoop (m.map Prod.fst) m

/-- `SourceTree`, core/db/source_tree.hpp:18-45. -/
structure SourceTree (P : Type) where
  targets : TargetList P
  graph : DepGraph P

/-- `SourceTreeLoader::load` from line 17, core/source_tree_loader/main.cpp:17-22. -/
def load (files : SrcList P) : Except (LoadError P) (SourceTree P) :=
  match collectTargets files [] with
  | .error e => .error (.duplicateTarget e.1 e.2)
  | .ok targets =>
    match makeSourceFileInfos targets files with
    | .error e => .error e
    | .ok files1 =>
      let files2 := Map.mergeNew files1 (createPlaceholders files1 [])
      let files3 := addTargetDepsToSourceFiles files2
      match makeGraph files3 false with
      | .error e => .error (.unresolved e.1 e.2)
      | .ok g => .ok ⟨targets, g⟩

/-! ## Constructors of `TaskList`, core/db/task_list.cpp -/

/-- Files with at least one target become tasks, core/db/task_list.cpp:22-28 and 47-53. -/
def hasTargets (g : DepGraph P) (node : Nat) : Bool :=
  match g.files[node]? with
  | none => false
  | some (_, info) => !info.targets.isEmpty

/-- References read by `Task::status`: those of `buildDeps`, then those of `m_use_deps`
(core/db/task.cpp:51-61). -/
def taskDeps (g : DepGraph P) (node : Nat) : List Nat :=
  match g.files[node]? with
  | none => []
  | some (_, info) =>
    info.buildDeps.filterMap Dep.ref ++ (getUseDepsRecursive g node).2.filterMap Dep.ref

/-- `TaskList(graph, ...)`, core/db/task_list.cpp:10-31: the outcome and the ids of the tasks. -/
def taskListAll (g : DepGraph P) : Graph.Outcome × List Nat :=
  let r := Graph.visitNodesInTopoOrder g.toGraph
  (r.1, (r.2.map Prod.fst).filter (hasTargets g))

/-- `TaskList(graph, ..., target)`, core/db/task_list.cpp:33-57. -/
def taskListFor (g : DepGraph P) (sourceFilename : P) : Graph.Outcome × List Nat :=
  match getNode g sourceFilename with
  | none => (.outOfBounds, [])
  | some node =>
    let r := Graph.processGraphNodeRecursive g.toGraph node
    (r.1, (r.2.map Prod.fst).filter (hasTargets g))

/-- The job that `process` works on. -/
def makeJob (g : DepGraph P) (tasks : List Nat) (workers : Nat) : TaskList.Job where
  tasks := tasks
  deps := taskDeps g
  workers := workers

end Maike.Db
