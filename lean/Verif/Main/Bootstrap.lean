import Verif.Build.Logged
import Verif.Kvs.JsonPlain
import Verif.Main.Serial
import Verif.Text.BuildId
import Verif.Text.Date

/-!
# The output of a dry run as a script (C106)

The target `bootstrap` of the Makefile in the repository of maike saves the output of

    maike2 --target-dir=... --num-workers=1 --force-rebuild --dry-run --log-level=compilation_command --build-id=... > bootstrap.sh

This script is used to build maike on a computer where there is no maike yet (integration_test/can_generate_working_bootstrap_script.sh).
-/

namespace Maike.Main

open Fs Tree Paths
open Maike.Kvs (Json Members)
open Maike.Kvs.JsonText (Reals store Occurs)
open Maike.Build (Tools CState Effects OneByOne MakesAlone Logger LAct LState Message lexec linit number DepsFirst)
open Maike.Recipes (Script)
open Maike.Text.Shell (Command commands)

variable {V : Type}

/-! ## Model -/

/-- The result of `printf` with the format in core/bin/maike.cpp:340-346. -/
def announced (workers start id source target : Str) : Str :=
  "# Build job with ".toList ++ workers ++ " workers started\n#\n# Start time: ".toList ++ start ++ "\n#         Id: ".toList ++ id ++
    "\n# Source dir: ".toList ++ source ++ "\n# Target dir: ".toList ++ target ++ "\n#\n".toList

/-- What is printed before the source tree is loaded, core/bin/maike.cpp:339-351. -/
def announcement (workers : Nat) (start : Int) (id : List UInt8) (source target : Path) : Str :=
  announced (number workers) (Text.Date.format start) ((Text.BuildId.print id).map fun c => Char.ofNat c.toNat) source.str target.str

/-- The words of a command, core/db/source_file_record.cpp:66-73. -/
def wordsOf (f : Reals) (exe : String) (opts : Members) : Command := ⟨exe.toList, ["compile".toList, store f false (.obj opts)]⟩

/-- What the log is told about tasks. -/
def theLogger (f : Reals) (level : Build.Log.Level) (files : List (Path × FileInfo)) (tree : Db.SourceTree Path) (info : Json) (format : Text.LogFormat) : Logger where
  level := level
  command u := match commandOf files tree info format u with
    | some (exe, opts) => wordsOf f exe opts
    | none => ⟨[], []⟩
  path u := match tree.graph.files[u]? with
    | some (p, _) => p.str
    | none => []

/-- A dry run with `n` workers. -/
def dryBuild (j : Job) (tree : Db.SourceTree Path) (force : Bool) (kind : Path → Bool) (n : Nat) : Build.Build Path :=
  { (theBuild j tree force kind).withWorkers n with dryrun := true }

/-- A dry run on the file system `d`, at time `now`, has arrived at state `s`. -/
def DryRun (j : Job) (force : Bool) (kind : Path → Bool) (l : Logger) (d : Disk) (now : Nat) (files : List (Path × FileInfo)) (tree : Db.SourceTree Path) (n : Nat) (s : LState Path) : Prop :=
  Loads j d files tree ∧ (Db.taskListAll tree.graph).1 = .ok ∧ ∃ as, lexec (dryBuild j tree force kind n) l as (linit (dryBuild j tree force kind n) d.fs now) = some s

/-! ## Specification -/

/-- A shell executes commands one after the other, and all of them succeed. `program exe args` is what the program `exe` does if it is executed with these arguments. -/
inductive ShellRuns {tools : Tools Path} (eff : Effects Path V tools) (program : Str → List Str → Script) : List (List Str) → (Path → V) → (Path → V) → Prop
  | nil {c} : ShellRuns eff program [] c c
  | cons {exe args rest c c₁ c₂} : MakesAlone eff (program exe args) c c₁ → ShellRuns eff program rest c₁ c₂ → ShellRuns eff program ((exe :: args) :: rest) c c₂

/-- A name that can be in a script. -/
def PlainName (s : Str) : Prop := ∀ c ∈ s, c ≠ '\'' ∧ c ≠ '\\' ∧ c ≠ '"' ∧ 32 ≤ c.toNat

instance (s : Str) : Decidable (PlainName s) := by unfold PlainName; infer_instance

/-- No name of a recipe, a file, a target or a dependency, and no name or text in the options of compilers has an apostrophe, a backslash, a quotation mark or a control character. -/
def PlainNames (files : List (Path × FileInfo)) (tree : Db.SourceTree Path) (info : Json) (format : Text.LogFormat) : Prop :=
  ∀ u ∈ (Db.taskListAll tree.graph).2, ∃ exe opts, commandOf files tree info format u = some (exe, opts) ∧ PlainName exe.toList ∧ ∀ s, Occurs s (.obj opts) → PlainName s.toList

/-! ## Proof -/

theorem padded_line (w : Nat) (n : Int) : '\n' ∉ Text.Date.padded w n := by
  have := (Build.number_plain n.natAbs).1
  simp only [Build.number] at this
  simp only [Text.Date.padded]
  split
  · simp only [List.mem_cons, List.mem_append, List.mem_replicate, not_or]
    exact ⟨by decide, fun h => absurd h.2 (by decide), this⟩
  · simp only [List.mem_append, List.mem_replicate, not_or]
    exact ⟨fun h => absurd h.2 (by decide), this⟩

theorem date_line (ns : Int) : '\n' ∉ Text.Date.format ns := by
  simp only [Text.Date.format, List.mem_append, List.mem_cons, List.not_mem_nil, or_false, not_or]
  exact ⟨padded_line _ _, by decide, padded_line _ _, by decide, padded_line _ _, by decide, padded_line _ _, by decide, padded_line _ _, by decide, padded_line _ _, by decide⟩

theorem id_line (id : List UInt8) : '\n' ∉ (Text.BuildId.print id).map (fun c => Char.ofNat c.toNat) := by
  intro h
  obtain ⟨c, hc, e⟩ := List.mem_map.mp h
  have hd := Text.BuildId.print_digits id c hc
  revert e hd
  exact Text.BuildId.byte_cases (p := fun c => Char.ofNat c.toNat = '\n' → Text.BuildId.IsLowerHex c → False) (by simp only [Text.BuildId.IsLowerHex]; decide +kernel) c

theorem commands_comments (lines : List Str) (h : ∀ l ∈ lines, '\n' ∉ l) (rest : Str) : commands ((lines.flatMap fun l => '#' :: (l ++ ['\n'])) ++ rest) = commands rest := by
  induction lines with
  | nil => rfl
  | cons l lines ih =>
    have e : ((l :: lines).flatMap fun l => '#' :: (l ++ ['\n'])) ++ rest = '#' :: (l ++ '\n' :: ((lines.flatMap fun l => '#' :: (l ++ ['\n'])) ++ rest)) := by simp
    rw [e, Text.Shell.commands_comment _ _ (h l (by simp)), ih fun l hl => h l (by simp [hl])]

/-- The lines, without the initial `#`. -/
def announcedLines (workers start id source target : Str) : List Str :=
  [" Build job with ".toList ++ workers ++ " workers started".toList, [], " Start time: ".toList ++ start, "         Id: ".toList ++ id, " Source dir: ".toList ++ source,
    " Target dir: ".toList ++ target, []]

theorem announced_lines (a b c x y : Str) : announced a b c x y = (announcedLines a b c x y).flatMap fun l => '#' :: (l ++ ['\n']) := by
  have h : " workers started\n#\n# Start time: ".toList = " workers started".toList ++ '\n' :: '#' :: '\n' :: '#' :: " Start time: ".toList := by decide +kernel
  have h0 : "# Build job with ".toList = '#' :: " Build job with ".toList := by decide +kernel
  have h1 : "\n#         Id: ".toList = '\n' :: '#' :: "         Id: ".toList := by decide +kernel
  have h2 : "\n# Source dir: ".toList = '\n' :: '#' :: " Source dir: ".toList := by decide +kernel
  have h3 : "\n# Target dir: ".toList = '\n' :: '#' :: " Target dir: ".toList := by decide +kernel
  have h4 : "\n#\n".toList = ['\n', '#', '\n'] := by decide +kernel
  unfold announced announcedLines
  rw [h, h0, h1, h2, h3, h4]
  simp only [List.flatMap_cons, List.flatMap_nil, List.cons_append, List.append_assoc, List.nil_append, List.append_nil]

/-- The lines at the beginning are comments. -/
theorem commands_announcement (workers : Nat) (start : Int) (id : List UInt8) (source target : Path) (h1 : '\n' ∉ source.str) (h2 : '\n' ∉ target.str) (rest : Str) :
    commands (announcement workers start id source target ++ rest) = commands rest := by
  rw [announcement, announced_lines]
  refine commands_comments _ (fun l hl => ?_) rest
  simp only [announcedLines, List.mem_cons, List.not_mem_nil, or_false] at hl
  rcases hl with rfl | rfl | rfl | rfl | rfl | rfl | rfl
  all_goals simp only [List.mem_append, not_or, List.not_mem_nil, not_false_eq_true]
  · exact ⟨⟨by decide, (Build.number_plain _).1⟩, by decide⟩
  · exact ⟨by decide, date_line start⟩
  · exact ⟨by decide, id_line id⟩
  · exact ⟨by decide, h1⟩
  · exact ⟨by decide, h2⟩

theorem plain_word {s : Str} (h : PlainName s) : Text.Shell.Plain s ∧ '\x00' ∉ s :=
  ⟨⟨fun hm => (h _ hm).1 rfl, fun hm => (h _ hm).2.1 rfl⟩, fun hm => absurd (h _ hm).2.2.2 (by decide)⟩

variable {j : Job} {kind : Path → Bool} {d : Disk} {now : Nat}

theorem plain_logger {f : Reals} (hf : f.Ok) {files : List (Path × FileInfo)} {tree : Db.SourceTree Path} {info : Json} {format : Text.LogFormat} {level : Build.Log.Level}
    (h : PlainNames files tree info format) {u : Nat} (hu : u ∈ (Db.taskListAll tree.graph).2) : (theLogger f level files tree info format).Plain u := by
  obtain ⟨exe, opts, hc, h1, h2⟩ := h u hu
  constructor
  · intro w hw
    simp only [theLogger, hc, wordsOf, List.mem_cons, List.not_mem_nil, or_false] at hw
    rcases hw with rfl | rfl | rfl
    · exact plain_word h1
    · exact ⟨⟨by decide, by decide⟩, by decide⟩
    · have := fun c => fun hx => (Kvs.JsonText.C106_json hf (.obj opts)).mp ⟨c, hx⟩
      have key : ∀ c, c ∈ store f false (.obj opts) → ¬ (c = '\'' ∨ c = '\\' ∨ c = '\x00') := by
        intro c hc hb
        obtain ⟨s, hs, x, hx, hbad⟩ := this c ⟨hc, hb⟩
        have := h2 s hs x hx
        rcases hbad with h | h | h | h
        · exact this.1 h
        · exact this.2.1 h
        · exact this.2.2.1 h
        · have := this.2.2.2; omega
      exact ⟨⟨fun h => key _ h (.inl rfl), fun h => key _ h (.inr (.inl rfl))⟩, fun h => key _ h (.inr (.inr rfl))⟩
  · -- the path is part of the argument
    simp only [theLogger]
    cases hg : tree.graph.files[u]? with
    | none => simp
    | some x =>
      obtain ⟨p, si⟩ := x
      have hp : PlainName p.str := by
        simp only [commandOf, requestOf, hg] at hc
        cases hl : Db.Map.lookup p files with
        | none => simp [hl] at hc
        | some i =>
          simp only [hl, Option.bind_some] at hc
          obtain ⟨r1, _⟩ := Kvs.C34_request _ _ _ hc
          have := h2 (text p) (.member (Kvs.lookup_mem r1) .str)
          simpa [text] using this
      exact ⟨fun hm => absurd (hp _ hm).2.2.2 (by decide), fun hm => absurd (hp _ hm).2.2.2 (by decide)⟩

/-- **C106.** A shell that reads what a successful dry run has printed executes the commands of all tasks of the project, each of them once, and each of them after the commands of the tasks
that it depends on. It executes nothing else. -/
theorem C106_bootstrap_partial (hp : Proper j kind d now) {f : Reals} (hf : f.Ok) {force : Bool} {files : List (Path × FileInfo)} {tree : Db.SourceTree Path} {info : Json} {format : Text.LogFormat}
    (hn : PlainNames files tree info format) {start : Int} {id : List UInt8} (hdirs : PlainName j.sourceDir.str ∧ PlainName j.targetDir.str) {n : Nat} {s : LState Path}
    (h : DryRun j force kind (theLogger f .compilationCommand files tree info format) d now files tree n s) (hs : s.base.Succeeded) :
    ∃ order : List Nat, order.Nodup ∧ (∀ u, u ∈ order ↔ u ∈ (Db.taskListAll tree.graph).2) ∧ DepsFirst (theBuild j tree force kind).job order ∧
      commands (announcement n start id j.sourceDir j.targetDir ++ s.output) =
        some (order.map fun u => ((theLogger f .compilationCommand files tree info format).command u).executable :: ((theLogger f .compilationCommand files tree info format).command u).args) := by
  obtain ⟨hl, hok, as, h⟩ := h
  have hb := ((run_sane hp hl hok force).1.withWorkers n).topological
  obtain ⟨h1, h2, h3⟩ := Build.C106_order (dryBuild j tree force kind n) hb _ h
  obtain ⟨h3, _⟩ := h3 hs
  refine ⟨s.log.map Message.task, h1, h3, fun l₁ t l₂ e u hu hm => h2 l₁ t l₂ e u hu ((h3 u).mp hm), ?_⟩
  rw [commands_announcement _ _ _ _ _ (fun hm => absurd (hdirs.1 _ hm).2.2.2 (by decide)) (fun hm => absurd (hdirs.2 _ hm).2.2.2 (by decide)),
    Build.C106_script (dryBuild j tree force kind n) hb rfl _ rfl h fun t ht => plain_logger hf hn ht, List.map_map]
  rfl

theorem shellRuns_iff {tools : Tools Path} {eff : Effects Path V tools} {program : Str → List Str → Script} {f : Reals} {files : List (Path × FileInfo)} {tree : Db.SourceTree Path} {info : Json}
    {format : Text.LogFormat} {order : List Nat} (hn : ∀ u ∈ order, ∃ exe opts, commandOf files tree info format u = some (exe, opts)) {c c' : Path → V} :
    ShellRuns eff program (order.map fun u => ((theLogger f .compilationCommand files tree info format).command u).executable :: ((theLogger f .compilationCommand files tree info format).command u).args) c c' ↔
      OneByOne eff (scriptOf (fun exe opts => program exe.toList ["compile".toList, store f false (.obj opts)]) files tree info format) order c c' := by
  induction order generalizing c with
  | nil => exact ⟨fun h => by cases h; exact .nil, fun h => by cases h; exact .nil⟩
  | cons u order ih =>
    obtain ⟨exe, opts, hc⟩ := hn u (by simp)
    have ih := fun c => ih (fun u hu => hn u (by simp [hu])) (c := c)
    have e : scriptOf (fun exe opts => program exe.toList ["compile".toList, store f false (.obj opts)]) files tree info format u =
        program exe.toList ["compile".toList, store f false (.obj opts)] := by simp only [scriptOf, hc]
    rw [List.map_cons]
    simp only [theLogger, hc, wordsOf]
    constructor
    · intro h
      cases h with
      | cons h1 h2 => exact .cons (e ▸ h1) ((ih _).mp h2)
    · intro h
      cases h with
      | cons h1 h2 => exact .cons (e ▸ h1) ((ih _).mpr h2)

/-- **C106.** If the commands of the script are executed one after the other, then this leads to the same contents of all files as a forced build, with any number of workers, that is started
with the same files: provided that the build succeeds, the commands may all succeed, and when they do so there is the same in all files as after the build. -/
theorem C106_files_partial (hp : Proper j kind d now) {f : Reals} (hf : f.Ok) {force : Bool} {files : List (Path × FileInfo)} {tree : Db.SourceTree Path} {info : Json} {format : Text.LogFormat}
    (hn : PlainNames files tree info format) {start : Int} {id : List UInt8} (hdirs : PlainName j.sourceDir.str ∧ PlainName j.targetDir.str) {n : Nat} {s : LState Path}
    (h : DryRun j force kind (theLogger f .compilationCommand files tree info format) d now files tree n s) (hs : s.base.Succeeded)
    {tools : Tools Path} {eff : Effects Path V tools} {program : Str → List Str → Script}
    (hu : Uses j kind tools (fun exe opts => program exe.toList ["compile".toList, store f false (.obj opts)]) info format d files tree)
    (hk : ReadsKnown j kind eff (fun exe opts => program exe.toList ["compile".toList, store f false (.obj opts)]) info format d files tree)
    {c : Path → V} {n' : Nat} {s' : CState Path V}
    (hr : RunsOn j true kind tools eff (fun exe opts => program exe.toList ["compile".toList, store f false (.obj opts)]) info format d c now files tree n' s') (hs' : s'.base.base.Succeeded) :
    ∃ cmds, commands (announcement n start id j.sourceDir j.targetDir ++ s.output) = some cmds ∧ ∀ c', ShellRuns eff program cmds c c' ↔ c' = s'.content := by
  obtain ⟨order, h1, h2, h3, h4⟩ := C106_bootstrap_partial (start := start) (id := id) hp hf hn hdirs h hs
  refine ⟨_, h4, fun c' => ?_⟩
  rw [shellRuns_iff fun u hu => (hn u ((h2 u).mp hu)).imp fun _ ⟨_, h, _⟩ => ⟨_, h⟩]
  obtain ⟨hl, hok, as, hx⟩ := hr
  obtain ⟨hkn, hdet⟩ := run_known (force := true) hp hl hok hu hk n'
  have hsane := (run_sane hp hl hok true).1.withWorkers n'
  have hpl := plausible hp tree true
  have hall : ∀ t ∈ (Db.taskListAll tree.graph).2, s'.base.base.Executed t := by
    obtain ⟨_, g⟩ := Build.C88_refines ((theBuild j tree true kind).withWorkers n') tools _ hsane.topological hkn.promise hp.kinds (Build.cexec_pexec hx)
    exact Build.forced_all hsane rfl rfl ⟨hpl.past, hpl.kinds⟩ g hs'
  have key := Build.C94_serial _ eff _ hsane hkn rfl hp.kinds hx hs' h1 (fun t => ⟨fun ht => ⟨(h2 t).mp ht, hall t ((h2 t).mp ht)⟩, fun ht => (h2 t).mpr ht.1⟩) h3
  constructor
  · intro hc
    exact Build.oneByOne_unique (fun t ht => hdet t ((h2 t).mp ht)) hc key
  · rintro rfl
    exact key

end Maike.Main
