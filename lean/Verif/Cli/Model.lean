import Verif.Fs.Path
import Verif.Text.Enums
import Verif.Text.BuildId
import Verif.Text.Numbers

/-!
# Model of the command line parser

Files: core/cmd_line_parser/command_line.hpp, core/cmd_line_parser/command_line.cpp, core/bin/cmd_line_options.hpp.

Arguments are strings without NUL. The types of the values of options are replaced by one type `V`: an option carries the function that
converts the text of its value.
-/

namespace Maike.Cli

open Fs (Str lexLt charLt strLt)

/-- An option: the enumeration item (`index`), `Traits::name`, `Traits::valueRequired` and `fromString` for `Traits::type`; `none` stands
for an exception. core/cmd_line_parser/command_line.hpp:141-213. -/
structure Opt (V : Type) where
  index : Nat
  name : Str
  valueRequired : Bool
  convert : Str → Option V

variable {V : Type}

/-- `strncmp(a, b, n) < 0` -/
def strncmpLt (n : Nat) (a b : Str) : Bool := strLt (a.take n) (b.take n)

/-- The inner loop of `sort`, core/cmd_line_parser/command_line.hpp:91-96: `vals[l]` is moved towards the beginning. The prefix is given
last element first. -/
def insertBack {α : Type} (cmp : α → α → Bool) (x : α) : List α → List α
  | [] => [x]
  | y :: ys => if cmp x y then y :: insertBack cmp x ys else x :: y :: ys

/-- `sort`, core/cmd_line_parser/command_line.hpp:84-105. -/
def sort {α : Type} (cmp : α → α → Bool) (l : List α) : List α :=
  (l.foldl (fun acc x => insertBack cmp x acc) []).reverse

/-- `s_option_names`, core/cmd_line_parser/command_line.hpp:471-472, with `CompareOptItemsByName{}`. -/
def optionNames (opts : List (Opt V)) : List (Opt V) := sort (fun a b => strLt a.name b.name) opts

/-- `std::lower_bound` (libstdc++): `less x` tells whether `x` is less than the value searched for. -/
def lowerBound {α : Type} (less : α → Bool) (l : List α) (first len : Nat) : Nat :=
  if len = 0 then first
  else
    let half := len / 2
    match l[first + half]? with
    | none => first
    | some x => if less x then lowerBound less l (first + half + 1) (len - half - 1) else lowerBound less l first half
termination_by len
decreasing_by all_goals omega

/-- `binaryFind`, core/cmd_line_parser/command_line.cpp:9-14, with `CompareOptItemsByName{n}` (core/cmd_line_parser/command_line.hpp:215-240).
`none` is the end iterator. -/
def binaryFind (l : List (Opt V)) (str : Str) (n : Nat) : Option (Opt V) :=
  match l[lowerBound (fun o => strncmpLt n o.name str) l 0 l.length]? with
  | none => none
  | some o => if strncmpLt n str o.name then none else some o

/-- What has been collected: the values of the tuple, and the options that have been set (`set_vals`). -/
structure Collected (V : Type) where
  value : Nat → Option V
  isSet : Nat → Bool

/-- The initial state: nothing is set. `none` stands for a default value. -/
def Collected.init : Collected V := ⟨fun _ => none, fun _ => false⟩

/-- The converter made by `GetOptionNames`, core/cmd_line_parser/command_line.hpp:251-263, together with the update of `set_vals` in
`collect_options`, core/cmd_line_parser/command_line.cpp:82. -/
def setOption (o : Opt V) (arg : Str) (s : Collected V) : Option (Collected V) :=
  if o.valueRequired ∧ arg = [] then none
  else
    match o.convert arg with
    | none => none
    | some v => some ⟨fun i => if i = o.index then some v else s.value i, fun i => if i = o.index then true else s.isSet i⟩

/-- Text before the first `=`. -/
def argName (str : Str) : Str := str.takeWhile (· ≠ '=')

/-- Text after the first `=`; empty if there is none. -/
def argValue (str : Str) : Str := (str.dropWhile (· ≠ '=')).drop 1

/-- The body of the loop in `collect_options`, core/cmd_line_parser/command_line.cpp:67-83. -/
def collectOne (l : List (Opt V)) (s : Collected V) (str : Str) : Option (Collected V) :=
  if str = [] then some s
  else
    match binaryFind l str (argName str).length with
    | none => none
    | some o => setOption o (argValue str) s

/-- `collect_options`, core/cmd_line_parser/command_line.cpp:60-85, as called by the constructor of `BasicCommandLine`,
core/cmd_line_parser/command_line.hpp:428-434. `none` stands for an exception. -/
def collect (opts : List (Opt V)) (args : List Str) : Option (Collected V) :=
  args.foldlM (collectOne (optionNames opts)) Collected.init

/-- `next_array_token`, core/cmd_line_parser/command_line.cpp:17-58. `esc` is the state; the result is the token and the rest of
the string. -/
def nextToken : Bool → Str → Str × Str
  | _, [] => ([], [])
  | false, c :: s =>
    if c = ',' then ([], s)
    else if c = '\\' then nextToken true s
    else let r := nextToken false s; (c :: r.1, r.2)
  | true, c :: s => let r := nextToken false s; (c :: r.1, r.2)

theorem nextToken_length (b : Bool) (s : Str) : (nextToken b s).2.length ≤ s.length := by
  induction s generalizing b with
  | nil => cases b <;> simp [nextToken]
  | cons c s ih =>
    cases b
    · unfold nextToken
      split
      · simp
      · split
        · have := ih true; simp; omega
        · have := ih false; simp; omega
    · unfold nextToken
      have := ih false
      simp
      omega

theorem nextToken_lt (c : Char) (s : Str) : (nextToken false (c :: s)).2.length < (c :: s).length := by
  unfold nextToken
  split
  · simp
  · split
    · have := nextToken_length true s; simp; omega
    · have := nextToken_length false s; simp; omega

/-- `fromString` for lists, core/cmd_line_parser/command_line.hpp:62-73, without the conversion of the elements. -/
def parseList (s : Str) : List Str :=
  match s with
  | [] => [[]]
  | c :: t =>
    let r := nextToken false (c :: t)
    if r.2 = [] then [r.1] else r.1 :: parseList r.2
termination_by s.length
decreasing_by
  have := nextToken_lt c t
  simp at this ⊢
  omega

/-- Values of the options of maike. Paths are represented by strings. -/
inductive Value where
  | path (s : Str)
  | paths (l : List Str)
  | flag
  | id (bytes : List UInt8)
  | time (seconds : Int)
  | threads (n : Int)
  | format (f : Text.LogFormat)
  | level (l : Text.LogLevel)

/-- `fromString` for `fs::path`, core/cmd_line_parser/command_line.hpp:30-33. -/
def pathValue (s : Str) : Option Value := some (.path s)

/-- `fromString` for lists of paths, core/cmd_line_parser/command_line.hpp:62-73. -/
def pathsValue (s : Str) : Option Value := some (.paths (parseList s))

/-- `fromString` for options without value, core/cmd_line_parser/command_line.hpp:75-80. -/
def flagValue (s : Str) : Option Value := if s ≠ [] then none else some .flag

/-- The options of maike, core/bin/cmd_line_options.hpp:18-41 and 51-715. The conversions not given above are those of
core/build/id.hpp, core/utils/system_time_stamp.hpp, core/sched/thread_count.hpp and core/db/compilation_log.hpp. -/
def maikeOptions : List (Opt Value) :=
  [⟨0, "--help".toList, false, pathValue⟩,
   ⟨1, "--version".toList, false, pathValue⟩,
   ⟨2, "--about".toList, false, pathValue⟩,
   ⟨3, "--print-dep-graph".toList, false, pathValue⟩,
   ⟨4, "--print-dep-graph-inv".toList, false, pathValue⟩,
   ⟨5, "--dump-database".toList, false, pathValue⟩,
   ⟨6, "--list-targets".toList, false, pathValue⟩,
   ⟨7, "--list-external-deps".toList, false, pathValue⟩,
   ⟨8, "--targets".toList, true, pathsValue⟩,
   ⟨9, "--configfiles".toList, true, pathsValue⟩,
   ⟨10, "--configdump".toList, false, pathValue⟩,
   ⟨11, "--config-default".toList, false, flagValue⟩,
   ⟨12, "--source-dir".toList, true, pathValue⟩,
   ⟨13, "--target-dir".toList, true, pathValue⟩,
   ⟨14, "--build-id".toList, true, fun s => (Text.BuildId.parse (s.map Char.toUInt8)).map .id⟩,
   ⟨15, "--start-time".toList, true, fun s => (Text.Numbers.timeStamp s).map .time⟩,
   ⟨16, "--num-workers".toList, true, fun s => (Text.Numbers.threadCount s).map .threads⟩,
   ⟨17, "--dry-run".toList, false, flagValue⟩,
   ⟨18, "--force-rebuild".toList, false, flagValue⟩,
   ⟨19, "--log-level".toList, true, fun s => (Text.logLevelFromString (String.ofList s)).map .level⟩,
   ⟨20, "--log-output-format".toList, true, fun s => (Text.logFormatFromString (String.ofList s)).map .format⟩]

end Maike.Cli
