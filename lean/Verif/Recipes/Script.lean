import Verif.Recipes.Model

/-!
# Model of the recipes as programs

What recipes/{cxx_compiler,cxx_linker,make_lib,generic,copy_file,make_directory,sass2css,md2htmlpart,doc2html,vcslog}.py do when they are called with `compile`: the programs they start, the files
they copy or write, the directories they make, and the status they exit with. What a program does is arbitrary.
-/

namespace Maike.Recipes

open Maike.Kvs (Json Members)

/-! ## What scripts can do -/

/-- What `os.mkdir` does: it makes the directory, or raises `FileExistsError`, or another exception. -/
inductive Mkdir where
  | made
  | existed
  | failed
deriving DecidableEq, Repr

/-- A Python script, as far as its effects are concerned. -/
inductive Script where
  /-- `exit(n)`; the end of the script is `exit(0)`, and an exception that is not caught is `exit(1)` -/
  | exit (n : Int)
  /-- `subprocess.run(args)`. What follows gets the return code, or `none` if an exception has been raised because the program cannot be started. -/
  | run (args : List String) (next : Option Int → Script)
  /-- `shutil.copyfile(src, dst)`. What follows gets `false` if an exception has been raised. -/
  | copy (src dst : String) (next : Bool → Script)
  /-- `os.mkdir(p)` -/
  | mkdir (p : String) (next : Mkdir → Script)
  /-- `with open(p, 'w') as f: f.write(...)`. What follows gets `false` if an exception has been raised. -/
  | write (p : String) (next : Bool → Script)
  /-- something that does not change files, such as reading or parsing. What follows gets `false` if an exception has been raised. -/
  | attempt (next : Bool → Script)

/-- What is found at a name. -/
inductive Node where
  | file (content : List UInt8)
  | dir
deriving DecidableEq, Repr

/-- The file system, as seen by a script. Different names are different files. -/
abbrev Files := String → Option Node

def Files.put (fs : Files) (p : String) (n : Node) : Files := fun q => if q = p then some n else fs q

/-- What has happened. -/
inductive Event where
  /-- a program has been executed, with this return code, and has written these files -/
  | ran (args : List String) (rc : Int) (wrote : List String)
  /-- a program could not be started -/
  | notStarted (args : List String)
  | copied (src dst : String)
  | copyFailed (src dst : String)
  | mkdir (p : String) (r : Mkdir)
  | written (p : String)
  | writeFailed (p : String)
  /-- an exception has been raised -/
  | raised
deriving DecidableEq, Repr

/-- What programs may do: with these arguments and files, a program may return this code, leave these files behind, and have written to those names. -/
abbrev Programs := List String → Files → Int → Files → List String → Prop

/-- The status of a process that has called `exit(n)` in Python. -/
def exitStatus (n : Int) : Nat := (n % 256).toNat

/-- A script has been executed: what happened, the status, and the files that are left behind. -/
inductive Exec (programs : Programs) : Script → Files → List Event → Nat → Files → Prop
  | exit {n : Int} {fs : Files} : Exec programs (.exit n) fs [] (exitStatus n) fs
  | ran {args next fs rc fs' wrote es st fs''} : programs args fs rc fs' wrote → Exec programs (next (some rc)) fs' es st fs'' →
      Exec programs (.run args next) fs (.ran args rc wrote :: es) st fs''
  | notStarted {args next fs es st fs'} : Exec programs (next none) fs es st fs' → Exec programs (.run args next) fs (.notStarted args :: es) st fs'
  /-- copying to the same file is an exception -/
  | copied {src dst next fs c es st fs'} : fs src = some (.file c) → src ≠ dst → fs dst ≠ some .dir → Exec programs (next true) (fs.put dst (.file c)) es st fs' →
      Exec programs (.copy src dst next) fs (.copied src dst :: es) st fs'
  | copyFailed {src dst next fs es st fs'} : Exec programs (next false) fs es st fs' → Exec programs (.copy src dst next) fs (.copyFailed src dst :: es) st fs'
  /-- the copy has been written in part, e. g. because there is no space left -/
  | copyPart {src dst next fs c es st fs'} : fs dst ≠ some .dir → src ≠ dst → Exec programs (next false) (fs.put dst (.file c)) es st fs' →
      Exec programs (.copy src dst next) fs (.copyFailed src dst :: es) st fs'
  | made {p next fs es st fs'} : fs p = none → Exec programs (next .made) (fs.put p .dir) es st fs' →
      Exec programs (.mkdir p next) fs (.mkdir p .made :: es) st fs'
  | existed {p next fs es st fs'} : fs p ≠ none → Exec programs (next .existed) fs es st fs' → Exec programs (.mkdir p next) fs (.mkdir p .existed :: es) st fs'
  | mkdirFailed {p next fs es st fs'} : Exec programs (next .failed) fs es st fs' → Exec programs (.mkdir p next) fs (.mkdir p .failed :: es) st fs'
  /-- what is written is arbitrary -/
  | wrote {p next fs c es st fs'} : fs p ≠ some .dir → Exec programs (next true) (fs.put p (.file c)) es st fs' → Exec programs (.write p next) fs (.written p :: es) st fs'
  | writeFailed {p next fs es st fs'} : Exec programs (next false) fs es st fs' → Exec programs (.write p next) fs (.writeFailed p :: es) st fs'
  | writePart {p next fs c es st fs'} : fs p ≠ some .dir → Exec programs (next false) (fs.put p (.file c)) es st fs' →
      Exec programs (.write p next) fs (.writeFailed p :: es) st fs'
  | done {next fs es st fs'} : Exec programs (next true) fs es st fs' → Exec programs (.attempt next) fs es st fs'
  | raised {next fs es st fs'} : Exec programs (next false) fs es st fs' → Exec programs (.attempt next) fs (.raised :: es) st fs'

/-! ## The recipes -/

/-- `exit(-1)` after an exception has been caught, or `exit(n)` for the result of `compile`. -/
def orFail {α : Type} (x : Option α) (f : α → Script) : Script :=
  match x with
  | none => .exit (-1)
  | some a => f a

/-- `result = subprocess.run(args); return result.returncode`, inside of `try`. -/
def runOnly (args : List String) : Script := .run args fun rc => orFail rc .exit

/-- recipes/cxx_linker.py:41-61 -/
def linker (cc : String) (pkg : Pkg) (opts : Members) : Script := orFail (linkCommand cc pkg opts) runOnly

/-- recipes/make_lib.py:32-45 -/
def archiver (ar : String) (opts : Members) : Script := orFail (archiveCommand ar opts) runOnly

/-- `os.path.splitext(name.lower())[1]`, recipes/cxx_compiler.py:59. What follows the last period of the last component, including the period, unless there are only periods
in front of it. Upper case letters are those of ASCII here; others are not mapped to letters that occur in `no_op`. -/
def fileExt (name : String) : List Char :=
  let base := ((name.toList.map Char.toLower).reverse.takeWhile (· ≠ '/')).reverse.dropWhile (· = '.')
  if '.' ∈ base then '.' :: (base.reverse.takeWhile (· ≠ '.')).reverse else []

/-- `no_op`, recipes/cxx_compiler.py:56. -/
def isHeader (name : String) : Bool := fileExt name ∈ [['.', 'h', 'p', 'p'], ['.', 'h'], ['.', 'h', 'x', 'x']]

/-- What the compiler recipe uses from its environment: `pkg-config`, `os.getcwd`, `os.path.relpath`, `os.path.dirname`, and the formatting of a point in time. -/
structure Env where
  pkg : Pkg
  cwd : String
  relpath : String → String → String
  dirname : String → String
  utc : Int → String

/-- `format_iquote`, recipes/cxx_compiler.py:19-28. -/
def formatIquote (env : Env) (srcDir targetDir : String) (dirs : List String) : List String :=
  dirs.flatMap fun item => [if srcDir = "." then "-iquote" ++ item else "-iquote" ++ srcDir ++ "/" ++ item, "-iquote" ++ env.cwd ++ "/" ++ targetDir ++ "/" ++ item]

/-- `str.split(' ')`: the pieces between spaces, some of which may be empty. -/
def splitSpaces : List Char → List Char → List (List Char)
  | [], w => [w]
  | c :: cs, w => if c = ' ' then w :: splitSpaces cs [] else splitSpaces cs (w ++ [c])

/-- `str.strip()` -/
def strip (s : List Char) : List Char := ((s.dropWhile isSpace).reverse.dropWhile isSpace).reverse

/-- `get_cflags`, recipes/pkg_config.py:9-16. -/
def pkgCflags (out : Option String) : Option (List String) :=
  out.map fun s => if strip s.toList = [] then [] else (splitSpaces (strip s.toList) []).map String.ofList

/-- The body of the loop in `collect_cflags`, recipes/cxx_compiler.py:39-42. -/
def flagsOf (pkg : Pkg) (item : Json) : Option (List String) := do
  let origin ← field item "origin"
  if isText origin "pkg-config" then do
    let r ← (field item "ref").bind Json.asString
    pkgCflags (pkg.cflags r)
  else if ((field item "rel").any fun rel => isText rel "include") then
    ((field item "ref").bind Json.asString).map fun r => ["-include" ++ r]
  else some []

/-- `list(dict.fromkeys(items))`, recipes/cxx_compiler.py:44: the first occurrence of each item. -/
def firstOnly (items : List String) : List String := filterLoop items [] []

/-- `collect_cflags`, recipes/cxx_compiler.py:30-44. -/
def collectCflags (env : Env) (srcDir targetDir srcFileDir : String) (cfg : Json) (deps : List Json) : Option (List String) := do
  let cflags ← ((field cfg "cflags").bind Json.asArr).bind strings
  let dirs ← ((field cfg "iquote").bind Json.asArr).bind strings
  let iquote := (if srcFileDir ≠ "" then [env.relpath srcFileDir srcDir] else []) ++ dirs
  let more ← collect (flagsOf env.pkg) deps
  some (firstOnly (cflags ++ formatIquote env srcDir targetDir iquote ++ more))

/-- `get_actions`, recipes/cxx_compiler.py:46-54. An array of strings is expected. -/
def actions (cfg : Json) : Option (List String) :=
  match field cfg "actions" with
  | none => some []
  | some v => v.asArr.bind strings

/-- The revision of the standard, recipes/cxx_compiler.py:66-68. -/
def stdFlag (cfg : Json) : Option (List String) :=
  match field cfg "std_revision" with
  | none => some []
  | some v =>
    match field v "selected" with
    | none => some []
    | some s => s.asString.map fun s => ["-std=" ++ s]

/-- `build_args['build_info'][key]` -/
def infoField (opts : Members) (key : String) : Option Json := (Kvs.lookup "build_info" opts).bind fun info => field info key

/-- The definitions about the build, recipes/cxx_compiler.py:70-76. -/
def definitions (env : Env) (opts : Members) : Option (List String) := do
  let task ← (Kvs.lookup "task_id" opts).bind Json.asInt
  let time ← (infoField opts "start_time").bind Json.asInt
  let buildId ← (infoField opts "build_id").bind Json.asString
  let targetDir ← (infoField opts "target_dir").bind Json.asString
  let sourceDir ← (infoField opts "source_dir").bind Json.asString
  some ["-DMAIKE_TASKID=" ++ toString task ++ "L", "-DMAIKE_BUILDINFO_STARTTIME=" ++ toString time ++ "L",
    "-DMAIKE_BUILDINFO_STARTTIME_STR=\"" ++ env.utc time ++ "\"", "-DMAIKE_BUILDINFO_BUILDID=\"" ++ buildId ++ "\"",
    "-DMAIKE_BUILDINFO_TARGETDIR=\"" ++ targetDir ++ "\"", "-DMAIKE_BUILDINFO_SOURCEDIR=\"" ++ sourceDir ++ "\""]

/-- The names in `build_args['targets']`. -/
def targetsOf (opts : Members) : Option (List String) := (Kvs.lookup "targets" opts).bind fun ts => ts.asArr.bind strings

/-- What is linked, recipes/cxx_compiler.py:81-82. -/
def linkedBy (pkg : Pkg) (acts : List String) (opts : Members) : Option (List String) := if "link" ∈ acts then linkInputs pkg opts else some []

/-- The arguments of the compiler, recipes/cxx_compiler.py:62-85. -/
def compileCommand (env : Env) (opts : Members) : Option (List String) := do
  let cfg ← Kvs.lookup "compiler_cfg" opts
  let backend ← (field cfg "backend").bind Json.asString
  let sourceDir ← (infoField opts "source_dir").bind Json.asString
  let targetDir ← (infoField opts "target_dir").bind Json.asString
  let src ← (Kvs.lookup "source_file" opts).bind Json.asString
  let deps ← (Kvs.lookup "dependencies" opts).bind Json.asArr
  let cflags ← collectCflags env sourceDir targetDir (env.dirname src) cfg deps
  let std ← stdFlag cfg
  let color ← colorFlag opts
  let defs ← definitions env opts
  let acts ← actions cfg
  let inputs ← linkedBy env.pkg acts opts
  let target ← firstTarget opts
  some ([backend] ++ cflags ++ std ++ [color] ++ defs ++ (if "link" ∈ acts then [] else ["-c"]) ++ [src] ++ inputs ++ ["-o", target])

/-- `for target in build_args['targets'][1:]: shutil.copyfile(build_args['targets'][0], target)`, recipes/cxx_compiler.py:88-89. -/
def copyAll (src : String) (fail : Script) : List String → Script → Script
  | [], next => next
  | t :: ts, next => .copy src t fun ok => if ok then copyAll src fail ts next else fail

/-- What is started after the compiler, recipes/cxx_compiler.py:98-104. -/
def tidy (acts : List String) (src : String) (args : List String) (rc : Int) : Script :=
  if "sanitize" ∈ acts ∧ rc = 0 then .run (["clang-tidy", src, "--", "-Wno-unknown-warning-option"] ++ args) fun rc => orFail rc .exit else .exit rc

/-- recipes/cxx_compiler.py:91-104. `raise('...')` of a string is an exception, which is caught. -/
def runTarget (acts : List String) (src target : String) (args : List String) (rc : Int) : Script :=
  if "run" ∈ acts ∧ rc = 0 then
    if "link" ∈ acts then .run [target] fun rc => orFail rc fun rc => tidy acts src args rc else .exit (-1)
  else tidy acts src args rc

/-- `compile` and the main program of recipes/cxx_compiler.py:58-104 and 210-220. -/
def compiler (env : Env) (opts : Members) : Script :=
  orFail ((Kvs.lookup "source_file" opts).bind Json.asString) fun src =>
  if isHeader src then .exit 0
  else
    orFail (compileCommand env opts) fun args =>
    orFail ((Kvs.lookup "compiler_cfg" opts).bind actions) fun acts =>
    orFail (targetsOf opts) fun ts =>
    match ts with
    | [] => .exit (-1)
    | target :: others =>
      .run args fun rc => orFail rc fun rc => copyAll target (.exit (-1)) others (runTarget acts src target args rc)

/-- `Template(item).substitute(subst)`: a parameter. An exception is raised for names that are not known. -/
abbrev Substitute := String → (source target : String) → Option String

/-- The command of recipes/generic.py:22-32. -/
def genericCommand (substitute : Substitute) (opts : Members) : Option (List String) := do
  let cfg ← Kvs.lookup "compiler_cfg" opts
  let command ← field cfg "compilation_cmd"
  let executable ← (field command "executable").bind Json.asString
  let src ← (Kvs.lookup "source_file" opts).bind Json.asString
  let target ← firstTarget opts
  let args ← ((field command "args").bind Json.asArr).bind strings
  let args ← args.mapM fun item => substitute item src target
  some (executable :: args)

/-- recipes/generic.py:22-48. The result of `compile` is not used, so this is `exit(0)` whatever the command returns. -/
def generic (substitute : Substitute) (opts : Members) : Script :=
  orFail (genericCommand substitute opts) fun args => .run args fun rc => orFail rc fun _ => .exit 0

/-- recipes/copy_file.py. Exceptions are not caught. -/
def copier (opts : Members) : Script :=
  match (Kvs.lookup "source_file" opts).bind Json.asString, targetsOf opts with
  | some src, some ts => copyAll src (.exit 1) ts (.exit 0)
  | _, _ => .exit 1

/-- What `mkdir` is called with, recipes/make_directory.py:12-15. -/
def withoutDot (p : String) : String :=
  if ['/', '.'].isSuffixOf p.toList then String.ofList (p.toList.take (p.toList.length - 2)) else p

/-- The loop of recipes/make_directory.py:19-21. -/
def makeAll : List String → Script
  | [] => .exit 0
  | t :: ts => .mkdir (withoutDot t) fun r => if r = .failed then .exit (-1) else makeAll ts

/-- recipes/make_directory.py -/
def directoryMaker (opts : Members) : Script := orFail (targetsOf opts) makeAll

/-- `for target in targets: with open(target, 'w') as f: f.write(result)`, recipes/sass2css.py:13-15. -/
def writeAll (fail : Script) : List String → Script → Script
  | [], next => next
  | t :: ts, next => .write t fun ok => if ok then writeAll fail ts next else fail

/-- recipes/sass2css.py:7-20. Exceptions are not caught. -/
def sass (opts : Members) : Script :=
  match targetsOf opts, (Kvs.lookup "source_file" opts).bind Json.asString with
  | some (t :: ts), some _ => .attempt fun ok => if ok then writeAll (.exit 1) (t :: ts) (.exit 0) else .exit 1
  | _, _ => .exit 1

/-- recipes/md2htmlpart.py:17-40. The return code of `pandoc` is not used. What it has printed may not be well-formed. Exceptions are not caught. -/
def markdown (opts : Members) : Script :=
  match targetsOf opts, (Kvs.lookup "source_file" opts).bind Json.asString with
  | some (t :: _), some src => .run ["pandoc", "-f", "markdown", "-t", "html", "--section-divs", src] fun rc =>
      match rc with
      | none => .exit 1
      | some _ => .attempt fun ok => if ok then .write t fun ok => if ok then .exit 0 else .exit 1 else .exit 1
  | _, _ => .exit 1

/-- The command of recipes/doc2html.py:11-17. `os.path.relpath` raises an exception for an empty name. -/
def docCommand (env : Env) (opts : Members) : Option (List String) := do
  let targetDir ← (infoField opts "target_dir").bind Json.asString
  let target ← firstTarget opts
  let src ← (Kvs.lookup "source_file" opts).bind Json.asString
  let sourceDir ← (infoField opts "source_dir").bind Json.asString
  if env.dirname src = "" then none else
  some ["xsltproc", "-o", target, "--nonet", "--stringparam", "current_dir", targetDir ++ "/" ++ env.relpath (env.dirname src) sourceDir, "-", src]

/-- recipes/doc2html.py:11-24, 55-59: the style sheet is opened, the program is executed, and what it has printed is decoded. Exceptions are not caught. -/
def docConverter (env : Env) (opts : Members) : Script :=
  match docCommand env opts with
  | none => .exit 1
  | some args => .attempt fun ok =>
      if ok then .run args fun rc =>
        match rc with
        | none => .exit 1
        | some rc => .attempt fun ok => if ok then .exit rc else .exit 1
      else .exit 1

/-- recipes/vcslog.py:21-53. The first attempt is to read the repository, and the second one to read the cache. -/
def vcsLog (opts : Members) : Script :=
  match firstTarget opts, (infoField opts "source_dir").bind Json.asString with
  | some target, some srcDir =>
    let rest : Script := .write target fun ok =>
      if ok then .mkdir (srcDir ++ "/__buildcache") fun r =>
        if r = .failed then .exit (-1) else .write (srcDir ++ "/__buildcache/vcslog.json") fun ok => if ok then .exit 0 else .exit (-1)
      else .exit (-1)
    .attempt fun ok => if ok then rest else .attempt fun ok => if ok then rest else .exit (-1)
  | _, _ => .exit (-1)

end Maike.Recipes
