import Verif.Kvs.Compiler

/-!
# Model of the recipes for linking and archiving

recipes/cxx_linker.py, recipes/make_lib.py and recipes/pkg_config.py. `none` stands for an exception, upon which the recipe exits with status −1 before anything
has been started.

What recipes get is a JSON text that maike has printed; here it is the value (C32 and C35 are about the text). Python's dictionaries
are `Members`, looked up by `Kvs.lookup`.
-/

namespace Maike.Recipes

open Maike.Kvs (Json Members)

/-- `value[key]` in Python, where a missing key is an exception; `key in value` is `isSome`. -/
def field (v : Json) (key : String) : Option Json :=
  match v with
  | .obj ms => Kvs.lookup key ms
  | _ => none

/-- `value == 'text'`. -/
def isText (v : Json) (s : String) : Bool :=
  match v with
  | .str t => decide (t = s)
  | _ => false

/-- The characters that Python's `str.split` and `str.strip` take for white space. -/
def isSpace (c : Char) : Bool :=
  let n := c.toNat
  decide (9 ≤ n ∧ n ≤ 13 ∨ 28 ≤ n ∧ n ≤ 32 ∨ n = 133 ∨ n = 160 ∨ n = 5760 ∨ 8192 ≤ n ∧ n ≤ 8202 ∨ n = 8232 ∨ n = 8233 ∨ n = 8239 ∨ n = 8287 ∨ n = 12288)

/-- `str.split()`: the words between white space. `w` is the word that is being read. -/
def splitWords : List Char → List Char → List (List Char)
  | [], w => if w = [] then [] else [w]
  | c :: cs, w => if isSpace c then (if w = [] then splitWords cs [] else w :: splitWords cs []) else splitWords cs (w ++ [c])

/-- What `pkg-config` prints for a library with `--libs-only-l`, `--libs-only-L` and `--cflags`; `none` if its exit status is not zero. -/
structure Pkg where
  libs : String → Option String
  libdirs : String → Option String
  cflags : String → Option String

/-- `get_libs` and `get_libdirs`, recipes/pkg_config.py:18-38. A text that is empty after `strip()` has no words. -/
def reversedWords (out : Option String) : Option (List String) :=
  out.map fun s => ((splitWords s.toList []).map String.ofList).reverse

/-- The body of the loop in `collect_deps`, recipes/cxx_linker.py:19-27. References are strings (core/db/dependency.cpp:14). -/
def collectItem (pkg : Pkg) (item : Json) : Option (List String) := do
  let origin ← field item "origin"
  let ref := (field item "ref").bind Json.asString
  if (isText origin "generated" || isText origin "project") && (field item "rel").isSome then
    if ((field item "rel").any fun rel => isText rel "implementation") then ref.map fun r => [r] else some []
  else if isText origin "pkg-config" then do
    let r ← ref
    let libs ← reversedWords (pkg.libs r)
    let dirs ← reversedWords (pkg.libdirs r)
    some (libs ++ dirs)
  else if isText origin "system" && (field item "rel").isSome then
    if ((field item "rel").any fun rel => isText rel "external") then ref.map fun r => ["-l" ++ r] else some []
  else some []

/-- `for item in deps: ret.extend(...)`, where the body may raise an exception. -/
def collect (f : Json → Option (List String)) : List Json → Option (List String)
  | [] => some []
  | item :: items => do
    let a ← f item
    let b ← collect f items
    some (a ++ b)

/-- `collect_deps`, recipes/cxx_linker.py:16-28. -/
def collectDeps (pkg : Pkg) : List Json → Option (List String) := collect (collectItem pkg)

/-- The loop in `filter_deps`, recipes/cxx_linker.py:33-36. -/
def filterLoop : List String → List String → List String → List String
  | [], _, ret => ret
  | item :: items, bookkeeping, ret =>
    if item ∈ bookkeeping then filterLoop items bookkeeping ret else filterLoop items (item :: bookkeeping) (ret ++ [item])

/-- `filter_deps`, recipes/cxx_linker.py:30-38. -/
def filterDeps (items : List String) : List String := (filterLoop items [] []).reverse

/-- The strings of a list of strings; something else cannot be an argument of a command. -/
def strings : List Json → Option (List String)
  | [] => some []
  | v :: vs => do
    let s ← v.asString
    let ss ← strings vs
    some (s :: ss)

/-- `-fdiagnostics-color`, recipes/cxx_linker.py:48. -/
def colorFlag (opts : Members) : Option String := do
  let f ← Kvs.lookup "log_format" opts
  some ("-fdiagnostics-color=" ++ (if isText f "ansi_term" then "always" else "never"))

/-- `build_args['targets'][0]`. -/
def firstTarget (opts : Members) : Option String := do
  let ts ← Kvs.lookup "targets" opts
  let ts ← ts.asArr
  let t ← ts.head?
  t.asString

/-- The dependencies that a linker gets: `filter_deps(collect_deps(build_args['dependencies']))`. -/
def linkInputs (pkg : Pkg) (opts : Members) : Option (List String) := do
  let ds ← Kvs.lookup "dependencies" opts
  let ds ← ds.asArr
  let l ← collectDeps pkg ds
  some (filterDeps l)

/-- The command of recipes/cxx_linker.py:41-53. `cc` is the compiler. -/
def linkCommand (cc : String) (pkg : Pkg) (opts : Members) : Option (List String) := do
  let cfg ← Kvs.lookup "compiler_cfg" opts
  let flags ← field cfg "cflags"
  let flags ← flags.asArr
  let flags ← strings flags
  let color ← colorFlag opts
  let inputs ← linkInputs pkg opts
  let target ← firstTarget opts
  some ([cc] ++ flags ++ [color] ++ inputs ++ ["-o", target])

/-- The body of the loop in `collect_deps`, recipes/make_lib.py:15-19. -/
def collectMember (item : Json) : Option (List String) := do
  let origin ← field item "origin"
  if (isText origin "generated" || isText origin "project") && (field item "rel").isSome &&
      ((field item "rel").any fun rel => isText rel "implementation") then
    ((field item "ref").bind Json.asString).map fun r => [r]
  else some []

/-- `collect_deps`, recipes/make_lib.py:13-19. -/
def collectMembers : List Json → Option (List String) := collect collectMember

/-- The command of recipes/make_lib.py:32-36. `ar` is the archiver. -/
def archiveCommand (ar : String) (opts : Members) : Option (List String) := do
  let target ← firstTarget opts
  let ds ← Kvs.lookup "dependencies" opts
  let ds ← ds.asArr
  let l ← collectMembers ds
  some ([ar, "rcs", target] ++ filterDeps l)

end Maike.Recipes
