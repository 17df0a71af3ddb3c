import Verif.Main.Bootstrap
import Verif.Main.SerialExamples

/-!
# Examples of scripts (C106)
-/

namespace Maike.Build

variable {P : Type} [DecidableEq P]

/-- A scheduler for examples: performs the first of some actions that is possible, as often as told. -/
def lauto (b : Build P) (l : Logger) : Nat → LState P → List (LAct P)
  | 0, _ => []
  | n + 1, s =>
    let candidates : List (LAct P) := [.base (.check 1), .base (.check 0), .log 1 ⟨false, [], [], 1, 2⟩, .log 0 ⟨false, [], [], 1, 2⟩, .base (.sched (.work 1 .success)), .base (.sched (.work 0 .success)),
      .base (.sched .main), .base (.sched .take)]
    match candidates.findSome? (fun a => (lstep b l a s).map fun s' => (a, s')) with
    | some (a, s') => a :: lauto b l n s'
    | none => []

/-- The state after some actions, if they are possible. -/
def lstateOf (b : Build P) (l : Logger) (fs : FileSys P) (now : Nat) (as : List (LAct P)) : LState P := (lexec b l as (linit b fs now)).getD (linit b fs now)

theorem lstateOf_exec {b : Build P} {l : Logger} {fs : FileSys P} {now : Nat} {as : List (LAct P)} (h : (lexec b l as (linit b fs now)).isSome = true) :
    lexec b l as (linit b fs now) = some (lstateOf b l fs now as) := by
  obtain ⟨s, hs⟩ := Option.isSome_iff_exists.mp h
  simp [lstateOf, hs]

end Maike.Build

namespace Maike.Main.BootstrapExample

open Fs Tree Paths
open Maike.Kvs (Json Members)
open Maike.Kvs.JsonText (store)
open Maike.Kvs.JsonText.Examples (reals reals_ok)
open Maike.Build (Logger LState lauto lstateOf linit lexec)
open Maike.Recipes (Script)
open Maike.Text.Shell (commands)
open CompiledExample ProcessesExample SerialExample

/-! ## What is written for a project -/

def logger : Logger := theLogger reals .compilationCommand files tree info .plainText

def dry (n : Nat) : Build.Build Path := dryBuild job tree true kind n

def state (n : Nat) : LState Path := lstateOf (dry n) logger disk.fs 10 (lauto (dry n) logger 60 (linit (dry n) disk.fs 10))

theorem dryRun : DryRun job true kind logger disk 10 files tree 2 (state 2) := ⟨loads, acyclic, _, Build.lstateOf_exec (by decide +kernel)⟩

theorem succeeded : (state 2).base.Succeeded := ⟨2, by decide +kernel⟩

mutual
/-- All strings in a value. -/
def strings : Json → List String
  | .str s => [s]
  | .arr vs => stringsArr vs
  | .obj ms => stringsObj ms
  | _ => []
def stringsArr : List Json → List String
  | [] => []
  | v :: vs => strings v ++ stringsArr vs
def stringsObj : List (String × Json) → List String
  | [] => []
  | (k, v) :: ms => k :: (strings v ++ stringsObj ms)
end

theorem mem_stringsArr {s : String} {v : Json} {vs : List Json} (h : v ∈ vs) (hs : s ∈ strings v) : s ∈ stringsArr vs := by
  induction h with
  | head => simp [stringsArr, hs]
  | tail _ _ ih => simp [stringsArr, ih]

theorem mem_stringsObj {s k : String} {v : Json} {ms : List (String × Json)} (h : (k, v) ∈ ms) (hs : s = k ∨ s ∈ strings v) : s ∈ stringsObj ms := by
  induction ms with
  | nil => cases h
  | cons m ms ih =>
    obtain ⟨k', v'⟩ := m
    simp only [stringsObj, List.mem_cons, List.mem_append]
    rcases List.mem_cons.mp h with e | h
    · cases e
      rcases hs with h | h
      · exact .inl h
      · exact .inr (.inl h)
    · exact .inr (.inr (ih h))

theorem mem_strings {s : String} {v : Json} (h : Kvs.JsonText.Occurs s v) : s ∈ strings v := by
  induction h with
  | str => simp [strings]
  | elem h _ ih => exact mem_stringsArr h ih
  | name h => exact mem_stringsObj h (.inl rfl)
  | member h _ ih => exact mem_stringsObj h (.inr ih)

theorem plain : PlainNames files tree info .plainText := by
  intro u hu
  have h : ∀ u ∈ (Db.taskListAll tree.graph).2, ((commandOf files tree info .plainText u).any fun x => decide (PlainName x.1.toList) && (stringsObj x.2).all fun s => decide (PlainName s.toList)) = true := by
    decide +kernel
  have h := h u hu
  cases hc : commandOf files tree info .plainText u with
  | none => simp [hc] at h
  | some x =>
    obtain ⟨exe, opts⟩ := x
    simp only [hc, Option.any_some, Bool.and_eq_true, decide_eq_true_eq, List.all_eq_true] at h
    exact ⟨exe, opts, rfl, h.1, fun s hs => h.2 s (mem_strings hs)⟩

theorem dirs_plain : PlainName job.sourceDir.str ∧ PlainName job.targetDir.str := by decide +kernel

/-- The hypotheses of C106_bootstrap_partial are met: the script makes the directory, and then compiles the file. -/
example : ∃ order : List Nat, order.Nodup ∧ (∀ u, u ∈ order ↔ u = 0 ∨ u = 3) ∧
    commands (announcement 2 0 [] job.sourceDir job.targetDir ++ (state 2).output) = some (order.map fun u => (logger.command u).executable :: (logger.command u).args) := by
  obtain ⟨order, h1, h2, _, h3⟩ := C106_bootstrap_partial (start := 0) (id := []) proper reals_ok plain dirs_plain dryRun succeeded
  have h : ∀ u, u ∈ (Db.taskListAll tree.graph).2 ↔ u = 0 ∨ u = 3 := by
    intro u
    have e : (Db.taskListAll tree.graph).2 = [0, 3] := by decide +kernel
    simp [e]
  exact ⟨order, h1, fun u => (h2 u).trans (h u), h3⟩

/-! ## What the script does -/

/-- What the programs do. -/
def program (exe : Str) (_ : List Str) : Script := if exe = "cxx_compiler.py".toList then script 3 else script 0

def recipe' (exe : String) (opts : Members) : Script := program exe.toList ["compile".toList, store reals false (.obj opts)]

theorem same {u : Nat} (hu : u = 0 ∨ u = 3) {exe : String} {opts : Members} (hc : commandOf files tree info .plainText u = some (exe, opts)) : recipe' exe opts = recipe exe opts := by
  have h : ∀ u ∈ [0, 3], ((commandOf files tree info .plainText u).all fun x => decide (x.1 = "cxx_compiler.py") == decide (u = 3)) = true := by decide +kernel
  have h := h u (by simpa using hu)
  simp only [hc, Option.all_some, beq_iff_eq, decide_eq_decide] at h
  have e : script u = recipe exe opts := by simp [script, scriptOf, hc]
  simp only [recipe', program, String.toList_inj, h]
  rcases hu with rfl | rfl <;> simpa using e

theorem task_of {p : Path} {i : FileInfo} (hs : Scanned job disk p i) (hi : i.targets ≠ []) {u : Nat} (hu : tree.graph.PathOf u p.normal) : u = 0 ∨ u = 3 := by
  obtain ⟨v, hv, hpv, _⟩ := C79_command proper loads apart acyclic hs hi info .plainText
  obtain rfl := Build.path_unique (graph_sorted proper loads) hpv hu
  exact like.tasks _ hv

theorem uses' : Uses job kind tools recipe' info .plainText disk files tree :=
  ⟨uses.names, fun p i hs hi u hu exe opts hc => (same (task_of hs hi hu) hc).symm ▸ uses.suitable p i hs hi u hu exe opts hc⟩

theorem known' : ReadsKnown job kind eff recipe' info .plainText disk files tree :=
  fun p i hs hi u hu exe opts hc => (same (task_of hs hi hu) hc).symm ▸ known p i hs hi u hu exe opts hc

def script' : Nat → Script := scriptOf recipe' files tree info .plainText

def trace' (n : Nat) : List (Build.PAct Path × Nat) := Build.xauto (build true n) tools script' reads make (fun _ => []) (fun _ _ => 0) 0 60 (start true n)

def final' (n : Nat) : Option (Build.XState Path Nat) := Build.xexec (build true n) tools script' reads make (fun _ => []) (fun _ _ => 0) (trace' n) (start true n)

theorem possible' {n : Nat} (h : (final' n).map (fun x => (x.base.base.sched.pc, x.content aObj)) = some (.returned 2, 42)) :
    ∃ s, RunsOn job true kind tools eff recipe' info .plainText disk content 10 files tree n s ∧ s.base.base.Succeeded ∧ s.content aObj = 42 := by
  obtain ⟨x, h1, h2⟩ := Option.map_eq_some_iff.mp h
  obtain ⟨s, h3, h4, h5⟩ := Build.xexec_cexec h1
  simp only [Prod.mk.injEq] at h2
  exact ⟨s, ⟨loads, acyclic, _, h3⟩, ⟨2, by rw [h4]; exact h2.1⟩, by rw [h5]; exact h2.2⟩

/-- The hypotheses of C106_files_partial are met: the script puts into the object file what the build puts there. -/
example : ∃ cmds, commands (announcement 2 0 [] job.sourceDir job.targetDir ++ (state 2).output) = some cmds ∧
    (∃ c', ShellRuns eff program cmds content c') ∧ ∀ c', ShellRuns eff program cmds content c' → c' aObj = 42 := by
  obtain ⟨s', h1, h2, h3⟩ := possible' (n := 3) (by decide +kernel)
  obtain ⟨cmds, h4, h5⟩ := C106_files_partial (start := 0) (id := []) proper reals_ok plain dirs_plain dryRun succeeded uses' known' h1 h2
  exact ⟨cmds, h4, ⟨_, (h5 _).mpr rfl⟩, fun c' hc => by rw [(h5 c').mp hc]; exact h3⟩

/-! ## A name that the script cannot have -/

/-- The name of a file. -/
def odd : Str := "a\n\\rm \\-r \\b\n#.c".toList

def oddJob : Job :=
  { job with loader := fun e => if e = [] then none else some fun _ => ⟨cc, false, some [], some [("target", .obj [("name", .str "a.o")])]⟩ }

def oddStats : List (Path × Build.Stat) := [(parse ['.'], ⟨1, true⟩), (parse odd, ⟨2, false⟩)]

def oddDisk : Disk := diskOf (RequestExample.fsOf oddStats) (oddStats.map Prod.fst)

def oddFiles : List (Path × FileInfo) := (scan oddJob oddDisk 80).shared.files

def oddTree : Db.SourceTree Path := treeOf oddFiles

theorem oddAll : ∀ p, ((RequestExample.fsOf oddStats) p).isSome → p ∈ oddStats.map Prod.fst := by
  intro p hp
  obtain ⟨st, hst⟩ := Option.isSome_iff_exists.mp hp
  exact List.mem_map.mpr ⟨_, RequestExample.fsOf_mem hst, rfl⟩

theorem oddDisk_ok : oddDisk.Ok := diskOf_ok (by decide +kernel) oddAll (slash_of oddAll (by decide +kernel))

theorem oddLoads : Loads oddJob oddDisk oddFiles oddTree := loads_of 80 (by decide +kernel) (by decide +kernel) (treeOf_ok (by decide +kernel))

theorem oddPast : ∀ p st, kind p = false → oddDisk.fs p = some st → st.mtime < 10 := by
  intro p st _ h
  have : ∀ x ∈ oddStats, x.2.mtime < 10 := by decide +kernel
  exact this _ (RequestExample.fsOf_mem h)

theorem oddKinds : ∀ p st, oddDisk.fs p = some st → st.dir = kind p := by
  intro p st h
  have : ∀ x ∈ oddStats, x.2.dir = kind x.1 := by decide +kernel
  exact this _ (RequestExample.fsOf_mem h)

theorem oddProper : Proper oddJob kind oddDisk 10 :=
  proper_of oddDisk_ok (by decide +kernel) (by decide +kernel) oddPast oddKinds oddLoads (by decide +kernel) (by decide +kernel) (by decide +kernel)

def oddLogger : Logger := theLogger reals .compilationCommand oddFiles oddTree info .plainText

def oddDry : Build.Build Path := dryBuild oddJob oddTree true kind 1

def oddState : LState Path := lstateOf oddDry oddLogger oddDisk.fs 10 (lauto oddDry oddLogger 60 (linit oddDry oddDisk.fs 10))

/-- **C106 is false**: a file can have a name such that the script executes a command that is in this name, and is no command of the build. -/
theorem C106_false : ∃ (j : Job) (d : Disk) (kind : Path → Bool) (now : Nat) (files : List (Path × FileInfo)) (tree : Db.SourceTree Path) (info : Json) (s : LState Path),
    Proper j kind d now ∧ DryRun j true kind (theLogger reals .compilationCommand files tree info .plainText) d now files tree 1 s ∧ s.base.Succeeded ∧
    ∃ cmds, commands (announcement 1 0 [] j.sourceDir j.targetDir ++ s.output) = some cmds ∧ ["rm".toList, "-r".toList, "b".toList] ∈ cmds ∧
      ∀ u, ∀ exe opts, commandOf files tree info .plainText u = some (exe, opts) → exe ≠ "rm" := by
  refine ⟨oddJob, oddDisk, kind, 10, oddFiles, oddTree, info, oddState, oddProper, ⟨oddLoads, by decide +kernel, _, Build.lstateOf_exec (by decide +kernel)⟩, ⟨2, by decide +kernel⟩, ?_⟩
  rw [commands_announcement _ _ _ _ _ (by decide +kernel) (by decide +kernel)]
  have h : ((commands oddState.output).any fun cmds => decide (["rm".toList, "-r".toList, "b".toList] ∈ cmds)) = true := by decide +kernel
  cases hc : commands oddState.output with
  | none => simp [hc] at h
  | some cmds =>
    refine ⟨cmds, rfl, by simpa [hc] using h, fun u exe opts hu e => ?_⟩
    subst e
    by_cases hlt : u < oddTree.graph.files.length
    · have key : ∀ u < oddTree.graph.files.length, ((commandOf oddFiles oddTree info .plainText u).all fun x => decide (x.1 ≠ "rm")) = true := by decide +kernel
      have := key u hlt
      simp [hu] at this
    · have : oddTree.graph.files[u]? = none := List.getElem?_eq_none (by omega)
      simp [commandOf, requestOf, this] at hu

end Maike.Main.BootstrapExample
