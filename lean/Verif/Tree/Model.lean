import Verif.Kvs.Compiler
import Verif.Paths.Ext
import Verif.Paths.Relative

/-!
# Model of how the information about one source file is put together

core/source_tree_loader/source_file_load_ctxt.cpp, core/source_tree_loader/source_file_load_ctxt.hpp and
core/source_tree_loader/source_file_loader_delegator.cpp.

The contents of files, the filters of the loaders (see `Loaders`) and the output of recipes are parameters. `none` stands for an
exception.
-/

namespace Maike.Tree

open Fs Kvs
open Maike.Db (Origin RebuildPolicy isExternal)

/-- `SourceFileLoadContext`, core/source_tree_loader/source_file_load_ctxt.hpp:18-56. -/
structure Ctxt where
  srcPath : Path
  sourceDir : Path
  targetDir : Path

/-- `sourceFileDir`, core/source_tree_loader/source_file_load_ctxt.hpp:25 and 32-35. -/
def Ctxt.fileDir (c : Ctxt) : Path := c.srcPath.parent.normal

/-- `str.size() > 1 && memcmp(str.data(), "./", 2) == 0`, core/source_tree_loader/source_file_load_ctxt.cpp:23-24, for a path: the
first name is a dot, and a separator follows. -/
def startsWithDotSlash (p : Path) : Bool :=
  !p.root && p.names.head? == some dot && (decide (2 ≤ p.names.length) || p.trailing)

/-- `prependSearchPath`, core/source_tree_loader/source_file_load_ctxt.cpp:14-35. -/
def prependSearchPath (c : Ctxt) (name : Path) (origin : Origin) : Path :=
  if !(origin = .project || origin = .generated) then name
  else
    let ret := if startsWithDotSlash name then (c.fileDir / name).normal else c.sourceDir / name
    let ret := if origin = .generated then c.targetDir / ret.relativeTo c.sourceDir else ret
    ret.normal

/-- `Dependency`, core/db/dependency.hpp:19-66, before references are resolved; with the properties (core/db/property.hpp). -/
structure TDep where
  name : Path
  origin : Origin
  properties : List (String × String) := []
deriving DecidableEq, Repr

/-- `prependSearchPath` for dependencies, core/source_tree_loader/source_file_load_ctxt.cpp:37-58. -/
def prependDeps (c : Ctxt) (deps : List TDep) : List TDep :=
  deps.map fun d => { d with name := prependSearchPath c d.name d.origin }

/-- `std::transform` with a function that may throw. -/
def traverse {α β : Type} (f : α → Option β) : List α → Option (List β)
  | [] => some []
  | a :: l => (f a).bind fun b => (traverse f l).map (b :: ·)

/-- The lambda in `getDependency`, core/source_tree_loader/source_file_load_ctxt.cpp:69-73, for all members. -/
def getProperties : Members → Option (List (String × String))
  | [] => some []
  | (k, v) :: ms =>
    if k ≠ "ref" ∧ k ≠ "origin" then v.asString.bind fun s => (getProperties ms).map ((k, s) :: ·) else getProperties ms

/-- `getDependency`, core/source_tree_loader/source_file_load_ctxt.cpp:60-81. -/
def getDependency (c : Ctxt) (dep : Members) (default : Origin) : Option TDep :=
  (getReq Json.asString "ref" dep).bind fun name =>
  (getIf Json.asString "origin" dep).bind fun o =>
  (match o with | some s => Text.originFromString s | none => some default).bind fun origin =>
  (getProperties dep).map fun properties =>
    { name := prependSearchPath c (parse name.toList) origin, origin, properties }

/-- `makeTargetName`, core/source_tree_loader/source_file_load_ctxt.cpp:83-89. -/
def makeTargetName (c : Ctxt) (name : Path) : Path :=
  (c.targetDir / (c.fileDir / name).relativeTo c.sourceDir).normal

/-- `TargetInfo`, core/db/target_info.hpp:17-38. -/
structure TTarget where
  name : Path
  useDeps : List TDep
deriving DecidableEq, Repr

/-- The elements of an optional array of objects, as used in core/source_tree_loader/source_file_load_ctxt.cpp:97-107, 133-140,
150-157 and 167-174. -/
def getArray {α : Type} (k : String) (f : Json → Option α) (ms : Members) : Option (List α) :=
  (getIf Json.asArr k ms).bind fun
    | some vs => traverse f vs
    | none => some []

/-- `getTarget`, core/source_tree_loader/source_file_load_ctxt.cpp:91-123. -/
def getTarget (c : Ctxt) (target : Members) : Option TTarget :=
  (getReq Json.asString "name" target).bind fun name =>
  (getArray "dependencies" (fun v => v.asObj.bind fun d => getDependency c d .system) target).bind fun deps =>
  (getArray "pkgconfig_libs" (fun v => v.asString.map fun s => (⟨parse s.toList, .pkgConfig, []⟩ : TDep)) target).map fun libs =>
    ⟨makeTargetName c (parse name.toList), deps ++ libs⟩

/-- `getTargets`, core/source_tree_loader/source_file_load_ctxt.cpp:125-142. -/
def getTargets (c : Ctxt) (tags : Members) : Option (List TTarget) :=
  (getIf Json.asObj "target" tags).bind fun t =>
  (match t with | some t => (getTarget c t).map fun x => [x] | none => some []).bind fun one =>
  (getArray "targets" (fun v => v.asObj.bind (getTarget c)) tags).map fun more => one ++ more

/-- `getChildTargetUseDeps`, core/source_tree_loader/source_file_load_ctxt.cpp:144-159. -/
def getChildTargetUseDeps (c : Ctxt) (tags : Members) : Option (List TDep) :=
  getArray "dependencies_extra" (fun v => v.asObj.bind fun d => getDependency c d .generated) tags

/-- `getUseDeps`, core/source_tree_loader/source_file_load_ctxt.cpp:161-176. -/
def getUseDeps (c : Ctxt) (tags : Members) : Option (List TDep) :=
  getArray "dependencies" (fun v => v.asObj.bind fun d => getDependency c d .generated) tags

/-- `SourceFileInfo`, core/db/source_file_info.hpp:29-150, before references are resolved. -/
structure FileInfo where
  targets : List TTarget := []
  useDeps : List TDep := []
  childTargetsUseDeps : List TDep := []
  /-- `m_compiler_default`, if there is one -/
  default : Option Compiler := none
  compiler : Compiler := {}
  policy : RebuildPolicy := .onlyIfOutOfDate
  useTargetDeps : Bool := false

/-- The origin is always `Project` for files that are found in the tree, core/source_tree_loader/source_file_load_ctxt.cpp:237 and
core/source_tree_loader/source_file_loader_delegator.cpp:29 and 36. -/
def FileInfo.toSrcInfo (i : FileInfo) : Db.SrcInfo Path where
  useDeps := i.useDeps.map fun d => ⟨d.name, d.origin, none, d.properties⟩
  childTargetsUseDeps := i.childTargetsUseDeps.map fun d => ⟨d.name, d.origin, none, d.properties⟩
  targets := i.targets.map fun t => ⟨t.name, t.useDeps.map fun d => ⟨d.name, d.origin, none, d.properties⟩⟩
  origin := .project
  policy := i.policy
  useTargetDeps := i.useTargetDeps

/-- `makeDependency`, core/db/compiler.hpp:118-122. -/
def recipeDependency (c : Compiler) : TDep := ⟨parse c.recipe.toList, c.origin.getD .system, []⟩

/-- What is known about one file with a loader. -/
structure Source where
  /-- the compiler of the loader, resolved already -/
  default : Compiler
  /-- `Loader::useTargetDeps` -/
  useTargetDeps : Bool
  /-- `loader.getDependencies` applied to the source stream -/
  found : Option (List TDep)
  /-- the tags, as parsed -/
  tags : Option Members

/-- `loadSourceFile`, core/source_tree_loader/source_file_load_ctxt.cpp:178-242. `resolver` is the command dictionary, `getTags` runs
a recipe with `get_tags` (core/db/compiler.cpp:87-123). -/
def loadSourceFile (resolver : Resolver) (getTags : Compiler → Option Members) (c : Ctxt) (builtin : List TDep) (src : Source) :
    Option FileInfo :=
  src.found.bind fun found =>
  src.tags.bind fun tags =>
  (getTargets c tags).bind fun targets =>
  (getUseDeps c tags).bind fun useDeps =>
  (getChildTargetUseDeps c tags).bind fun extra =>
  (getIf Compiler.fromJson "compiler" tags).bind fun own =>
  (match own with | some o => (o.resolve resolver).map some | none => some none).bind fun own =>
  let compiler := own.getD src.default
  (if compiler.useGetTags then
    (getTags compiler).bind fun tags' =>
    (getTargets c tags').bind fun targets' =>
    (getUseDeps c tags').bind fun useDeps' =>
    (getChildTargetUseDeps c tags').map fun extra' => (targets', useDeps', extra')
   else some ([], [], [])).bind fun fromScript =>
  (getIf (fun v => v.asString.bind Text.rebuildPolicyFromString) "rebuild" tags).map fun (policy : Option RebuildPolicy) =>
    { targets := targets ++ fromScript.1
      useDeps := builtin ++ prependDeps c found ++ useDeps ++ fromScript.2.1 ++
        (if compiler.recipe ≠ "" then [recipeDependency compiler] else [])
      childTargetsUseDeps := extra ++ fromScript.2.2
      default := some src.default
      compiler := own.getD {}
      policy := policy.getD .onlyIfOutOfDate
      useTargetDeps := src.useTargetDeps }

/-- `path::filename()`, as a path. -/
def filenamePath (p : Path) : Path := ⟨false, if p.filename = [] then [] else [p.filename], false⟩

/-- What `SourceFileLoaderDelegator::load` looks at. -/
structure Env where
  isDirectory : Path → Bool
  dirCompiler : Compiler
  loader : Str → Option (Path → Source)
  resolver : Resolver
  getTags : Compiler → Path → Option Members

/-- `SourceFileLoaderDelegator::load`, core/source_tree_loader/source_file_loader_delegator.cpp:9-40. -/
def load (e : Env) (srcPath srcDir targetDir : Path) : Option FileInfo :=
  let c : Ctxt := ⟨srcPath, srcDir, targetDir⟩
  let deps : List TDep :=
    if srcDir ≠ srcPath ∧ srcPath ≠ parse e.dirCompiler.recipe.toList then [⟨c.fileDir, .project, []⟩] else []
  if e.isDirectory srcPath then
    some { targets := [⟨makeTargetName c (filenamePath srcPath), []⟩], useDeps := deps ++ [recipeDependency e.dirCompiler],
           default := some e.dirCompiler }
  else
    match Paths.matchLongestExtension srcPath.filename e.loader with
    | none => some {}
    | some (_, l) => loadSourceFile e.resolver (fun k => e.getTags k srcPath) c deps (l srcPath)

end Maike.Tree
