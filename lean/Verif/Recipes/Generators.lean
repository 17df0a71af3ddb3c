import Verif.Recipes.Documents
import Verif.Fs.Path

/-!
# Model of the scripts of the project itself

doc/{cmdlineopts,configdefault,cmdlineopts2xml,configdefault2xml,manpage}.py, build.py and install.sh, with `os.path.dirname` and `os.path.relpath` of Python.
-/

namespace Maike.Recipes

open Maike.Kvs (Json Members)
open Maike.Fs (Str splitNames joinNames dot dotdot)

/-! ## `os.path` of Python, on POSIX -/

/-- `os.path.dirname`: what precedes the last separator, without the separators at its end, unless there is nothing else. -/
def pyDirname (s : Str) : Str :=
  let head := (s.reverse.dropWhile (· ≠ '/')).reverse
  if head.all (· = '/') then head else (head.reverse.dropWhile (· = '/')).reverse

/-- One turn of the loop in `os.path.normpath`, for absolute paths. -/
def pyNormStep (cs : List Str) (c : Str) : List Str := if c = dot then cs else if c = dotdot then cs.dropLast else cs ++ [c]

/-- The components of `os.path.abspath`. The components of the current directory are given. -/
def pyAbspath (cwd : List Str) (s : Str) : List Str := (splitNames s []).foldl pyNormStep (if s.head? = some '/' then [] else cwd)

/-- `len(os.path.commonprefix([a, b]))` -/
def pyCommon : List Str → List Str → Nat
  | a :: as, b :: bs => if a = b then pyCommon as bs + 1 else 0
  | _, _ => 0

/-- `os.path.relpath(path, start)`. There is an exception if the path is empty. -/
def pyRelpath (cwd : List Str) (path start : Str) : Option Str :=
  if path = [] then none
  else
    let a := pyAbspath cwd start
    let b := pyAbspath cwd path
    let i := pyCommon a b
    let names := List.replicate (a.length - i) dotdot ++ b.drop i
    some (if names = [] then dot else joinNames names)

/-- `target_dir + '/' + os.path.relpath(os.path.dirname(args['source_file']), src_dir) + '/' + name`, doc/cmdlineopts2xml.py:22, doc/configdefault2xml.py:22 and doc/manpage.py:84. -/
def besidesSource (cwd : List Str) (sourceFile sourceDir targetDir name : Str) : Option Str :=
  (pyRelpath cwd (pyDirname sourceFile) sourceDir).map fun r => targetDir ++ '/' :: r ++ '/' :: name

/-- The file that is read, from the options of the task. -/
def inputOf (cwd : List Str) (name : String) (opts : Members) : Option String := do
  let targetDir ← (infoField opts "target_dir").bind Json.asString
  let sourceDir ← (infoField opts "source_dir").bind Json.asString
  let src ← (Kvs.lookup "source_file" opts).bind Json.asString
  let s ← besidesSource cwd src.toList sourceDir.toList targetDir.toList name.toList
  some (String.ofList s)

/-! ## Generators -/

/-- The commands of doc/cmdlineopts.py:19 and doc/configdefault.py:19. -/
def selfCommand (args : List String) (opts : Members) : Option (List String) :=
  ((infoField opts "target_dir").bind Json.asString).map fun targetDir => (targetDir ++ "/core/bin/maike2") :: args

/-- doc/cmdlineopts.py:15-30 and doc/configdefault.py:15-30: what the program prints is decoded, changed and written. Exceptions are not caught. -/
def selfDescription (args : List String) (opts : Members) : Script :=
  match selfCommand args opts, targetsOf opts with
  | some cmd, some (t :: _) => .run cmd fun rc =>
      match rc with
      | none => .exit 1
      | some rc => .attempt fun ok =>
          if ok then (if rc ≠ 0 then .exit rc else .write t fun ok => if ok then .exit 0 else .exit 1) else .exit 1
  | some cmd, some [] => .run cmd fun rc =>
      match rc with
      | none => .exit 1
      | some rc => .attempt fun ok => if ok ∧ rc ≠ 0 then .exit rc else .exit 1
  | _, _ => .exit 1

/-- doc/cmdlineopts.py -/
def helpText (opts : Members) : Script := selfDescription ["--help"] opts

/-- doc/configdefault.py -/
def configText (opts : Members) : Script := selfDescription ["--config-default", "--configdump"] opts

/-- doc/cmdlineopts2xml.py:16-27 and doc/configdefault2xml.py:16-27, with `convert` of recipes/md2htmlpart.py:17-34: the module is imported first. -/
def textPart (cwd : List Str) (name : String) (opts : Members) : Script :=
  .attempt fun ok =>
    if ok then
      match inputOf cwd name opts, targetsOf opts with
      | some src, some (t :: _) => .run ["pandoc", "-f", "markdown", "-t", "html", "--section-divs", src] fun rc =>
          match rc with
          | none => .exit 1
          | some _ => .attempt fun ok => if ok then .write t fun ok => if ok then .exit 0 else .exit 1 else .exit 1
      | _, _ => .exit 1
    else .exit 1

/-- doc/manpage.py:73-95. The files are read, and the text is put together; the return code of `pandoc` is not used. -/
def manPage (cwd : List Str) (opts : Members) : Script :=
  match inputOf cwd "cmdlineopts.md" opts, targetsOf opts with
  | some _, some (t :: _) => .attempt fun ok =>
      if ok then .run ["pandoc", "-f", "markdown", "-s", "-t", "man", "-o", t] fun rc =>
        match rc with
        | none => .exit 1
        | some _ => .exit 0
      else .exit 1
  | _, _ => .exit 1

/-! ## build.py -/

/-- The programs that are started by build.py:9-22. -/
def installedBuild : List String := ["maike2", "--target-dir=__targets_bootstrap"]
def scriptedBuild : List String := ["sh", "-x", "__buildcache/bootstrap.sh"]
def secondBuild : List String := ["__targets_bootstrap/core/bin/maike2", "--target-dir=__targets"]

/-- `rebuild` and what follows, build.py:19-35. -/
def rebuildAfter (rc : Int) : Script :=
  if rc ≠ 0 then .exit rc
  else .run secondBuild fun rc =>
    match rc with
    | none => .exit 1
    | some rc => if rc ≠ 0 then .exit rc else .exit 0

/-- build.py:24-35 with its arguments. -/
def buildScript (argv : List String) : Script :=
  if argv.head? = some "get_tags" ∨ argv.head? = some "configure" ∨ argv.head? = some "compile" then .exit 0
  else .run installedBuild fun rc =>
    match rc with
    | some rc => rebuildAfter rc
    | none => .run scriptedBuild fun rc =>
      match rc with
      | none => .exit 1
      | some rc => rebuildAfter rc

/-! ## install.sh -/

/-- Commands of a shell script with `set -e`: the first one that fails ends it. A command that cannot be started fails. -/
def untilFailure : List (List String) → Script
  | [] => .exit 0
  | cmd :: cmds => .run cmd fun rc =>
    match rc with
    | none => .exit 127
    | some rc => if rc ≠ 0 then .exit rc else untilFailure cmds

/-- The commands of install.sh:8-13. What `recipes/*` stands for is given, for the directory in front. -/
def installCommands (recipes : List String) (dir : String) : List (List String) :=
  [["mkdir", "-p", dir ++ "/bin"],
   ["mkdir", "-p", dir ++ "/lib/maike2/recipes"],
   ["cp", "__targets/core/bin/maike2", dir ++ "/bin"],
   ["chmod", "o+rx", dir ++ "/bin/maike2"],
   ["cp", "-r"] ++ recipes.map ("recipes/" ++ ·) ++ [dir ++ "/lib/maike2/recipes"],
   ["chmod", "o+rx"] ++ recipes.map (dir ++ "/lib/maike2/recipes/" ++ ·)]

def install (recipes : List String) (dir : String) : Script := untilFailure (installCommands recipes dir)

/-- `getExecPrefix` and the directory of the recipes, core/utils/fs.cpp:20-23 and core/bin/maike.cpp:332, from the path of the program. -/
def recipesFor (exe : Fs.Path) : Fs.Path :=
  exe.parent.parent / ⟨false, ["lib".toList], false⟩ / ⟨false, ["maike2".toList], false⟩ / ⟨false, ["recipes".toList], false⟩

/-! ## Text -/

/-- `s.replace('--', '\\-\\-')`, doc/cmdlineopts.py:24. -/
def escapeHyphens : Str → Str
  | '-' :: '-' :: s => '\\' :: '-' :: '\\' :: '-' :: escapeHyphens s
  | c :: s => c :: escapeHyphens s
  | [] => []

end Maike.Recipes
