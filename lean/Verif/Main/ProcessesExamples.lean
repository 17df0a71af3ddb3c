import Verif.Main.Processes
import Verif.Main.CompiledExamples
import Verif.Recipes.Documents

/-!
# Examples of runs with the recipes of maike (C88)
-/

namespace Maike.Build

open Maike.Recipes (Script Mkdir)

variable {P : Type} [DecidableEq P]

/-- A scheduler for examples: performs the first of some actions that is possible, as often as told. Programs write what they may write and return zero. -/
def pauto (b : Build P) (tools : Tools P) (script : Nat → Script) : Nat → PState P → List (PAct P)
  | 0, _ => []
  | n + 1, s =>
    let candidates : List (PAct P) := [.check 0] ++
      (match procOf s 0 with
       | some (_, ⟨.run args _, wrote⟩) => ((tools.may args).filter fun p => p ∉ wrote).map fun p => .output 0 p
       | _ => []) ++ [.ended 0 (some 0), .copied 0, .mkdir 0 .made, .mkdir 0 .existed, .wrote 0, .attempted 0 true, .sched (.work 0 .success), .sched .take, .sched .main]
    match candidates.findSome? (fun a => (pstep b tools script a s).map fun s' => (a, s')) with
    | some (a, s') => a :: pauto b tools script n s'
    | none => []

/-- The state after some actions, if they are possible. -/
def pstateOf (b : Build P) (tools : Tools P) (script : Nat → Script) (fs : FileSys P) (now : Nat) (as : List (PAct P)) : PState P :=
  (pexec b tools script as (pinit b fs now)).getD (pinit b fs now)

theorem pstateOf_exec {b : Build P} {tools : Tools P} {script : Nat → Script} {fs : FileSys P} {now : Nat} {as : List (PAct P)}
    (h : (pexec b tools script as (pinit b fs now)).isSome = true) :
    pexec b tools script as (pinit b fs now) = some (pstateOf b tools script fs now as) := by
  obtain ⟨s, hs⟩ := Option.isSome_iff_exists.mp h
  simp [pstateOf, hs]

end Maike.Build

namespace Maike.Main.ProcessesExample

open Fs Tree Paths
open Maike.Kvs (Json Members)
open Maike.Build (Tools PState pexec pinit pauto pstateOf Suitable)
open Maike.Recipes (Script compileCommand targetsOf)
open CompiledExample

/-- The command that compiles `a.c`. -/
def args : List String := (command.bind fun x => compileCommand Recipes.CompileExample.env x.2).getD []

def aObj : Path := parse ['_', '_', 't', '/', 'a', '.', 'o']

/-- The compiler writes the object file; other programs write nothing. -/
def tools : Tools Path where
  name s := parse s.toList
  may as := if as = args then [aObj] else []
  must as := if as = args then [aObj] else []

/-- What is in the files `cxx_compiler.py` and `mkdir.py`. -/
def recipe (exe : String) (opts : Members) : Script :=
  if exe = "cxx_compiler.py" then Recipes.compiler Recipes.CompileExample.env opts else Recipes.directoryMaker opts

def theB : Build.Build Path := theBuild job tree false kind

def state : PState Path :=
  pstateOf theB tools (scriptOf recipe files tree info .plainText) disk.fs 10 (pauto theB tools (scriptOf recipe files tree info .plainText) 60 (pinit theB disk.fs 10))

theorem runs : RunsRecipes job false kind tools recipe info .plainText disk 10 files tree state :=
  ⟨loads, acyclic, _, Build.pstateOf_exec (by decide +kernel)⟩

theorem succeeded : state.base.Succeeded := ⟨2, by decide +kernel⟩

/-- What has been loaded is like `files`. -/
structure Like (files : List (Path × FileInfo)) (tree : Db.SourceTree Path) : Prop where
  acyclic : (Db.taskListAll tree.graph).1 = .ok
  /-- A task is the one for the directory, or the one for `a.c`. -/
  tasks : ∀ u ∈ (Db.taskListAll tree.graph).2, u = 0 ∨ u = 3
  names : ∀ x ∈ files, ∀ t ∈ x.2.targets, parse t.name.str = t.name
  maker : ((commandOf files tree info .plainText 0).map fun x => (decide (x.1 = "cxx_compiler.py"), (targetsOf x.2).map fun l => l.map fun t =>
    (kind (parse t.toList), decide (parse (Recipes.withoutDot t).toList = parse t.toList)))) = some (false, some [(true, true)])
  compiler : ((commandOf files tree info .plainText 3).map fun x => (decide (x.1 = "cxx_compiler.py"), ((Kvs.lookup "source_file" x.2).bind Json.asString).map Recipes.isHeader,
    (targetsOf x.2).map fun l => l.map fun t => parse t.toList)) = some (true, some false, some [aObj])
  cmd : ((commandOf files tree info .plainText 3).bind fun x => compileCommand Recipes.CompileExample.env x.2) = some args
  source : tree.graph.files[3]?.map Prod.fst = some (parse ['a', '.', 'c'])
  directory : tree.graph.files[0]?.map (fun x => kind x.1) = some true
  target : ∀ x ∈ files, x.1 = parse ['a', '.', 'c'] → ∃ t ∈ x.2.targets, t.name = aObj
  only : ∀ x ∈ files, x.1 = parse ['a', '.', 'c'] → ∀ t ∈ x.2.targets, t.name = aObj

theorem like : Like files tree :=
  ⟨acyclic, by decide +kernel, by decide +kernel, by decide +kernel, by decide +kernel, by decide +kernel, by decide +kernel, by decide +kernel,
    by decide +kernel, by decide +kernel⟩

section

variable {files : List (Path × FileInfo)} {tree : Db.SourceTree Path}

/-- The command that makes the directory. -/
theorem Like.ofMaker (h : Like files tree) {exe : String} {opts : Members} (hc : commandOf files tree info .plainText 0 = some (exe, opts)) :
    recipe exe opts = Recipes.directoryMaker opts ∧ ∃ ts, targetsOf opts = some ts ∧ ∀ t ∈ ts, kind (tools.name t) = true ∧ ∀ d, Recipes.Directory t d → tools.name d = tools.name t ∧ tools.foreign d = false := by
  have h := h.maker
  rw [hc] at h
  simp only [Option.map_some, Option.some.injEq, Prod.mk.injEq, decide_eq_false_iff_not, Option.map_eq_some_iff] at h
  obtain ⟨h1, ts, h2, h3⟩ := h
  refine ⟨if_neg h1, ts, h2, fun t ht => ?_⟩
  have : (kind (parse t.toList), decide (parse (Recipes.withoutDot t).toList = parse t.toList)) ∈ [(true, true)] := by
    rw [← h3]; exact List.mem_map.mpr ⟨t, ht, rfl⟩
  refine ⟨by simpa [tools] using (Prod.mk.inj (List.mem_singleton.mp this)).1, fun d hd => ?_⟩
  rw [(Recipes.directory_withoutDot _ _).mp hd]
  exact ⟨by simpa [tools] using (Prod.mk.inj (List.mem_singleton.mp this)).2, rfl⟩

/-- The command that compiles `a.c`. -/
theorem Like.ofCompiler (h : Like files tree) {exe : String} {opts : Members} (hc : commandOf files tree info .plainText 3 = some (exe, opts)) :
    recipe exe opts = Recipes.compiler Recipes.CompileExample.env opts ∧ compileCommand Recipes.CompileExample.env opts = some args ∧ ∃ src target,
      Kvs.lookup "source_file" opts = some (.str src) ∧ ¬ Recipes.IsHeaderName src ∧ targetsOf opts = some [target] ∧ tools.name target = aObj ∧
      [target] ≠ args ∧ ["clang-tidy", src, "--", "-Wno-unknown-warning-option"] ++ args ≠ args := by
  have ha := h.cmd
  have h := h.compiler
  rw [hc] at h ha
  simp only [Option.map_some, Option.some.injEq, Prod.mk.injEq, decide_eq_true_eq, Option.map_eq_some_iff, Option.bind_eq_some_iff] at h
  obtain ⟨h1, ⟨src, ⟨v, h2, hv⟩, h3⟩, ts, h4, h5⟩ := h
  obtain ⟨target, rest, rfl, h6, h7⟩ := List.map_eq_cons_iff.mp h5
  obtain rfl := List.map_eq_nil_iff.mp h7
  have hv : v = .str src := by
    cases v <;> simp_all [Json.asString]
  subst hv
  have hl : args.length ≠ 1 := by decide +kernel
  refine ⟨if_pos h1, ha, src, target, h2, by rw [← Recipes.isHeader_iff, h3]; decide, h4, h6, fun e => hl (by rw [← e]; rfl), fun e => ?_⟩
  have := congrArg List.length e
  simp only [List.length_append, List.length_cons, List.length_nil] at this
  omega

theorem uses_of (hlike : Like files tree) {j : Job} {d : Disk} {now : Nat} (proper : Proper j kind d now) (loads : Loads j d files tree) (apart : Apart j d) :
    Uses j kind tools recipe info .plainText d files tree where
  names := by
    intro p i hs t ht
    have h : ∀ x ∈ files, ∀ t ∈ x.2.targets, parse (text t.name).toList = t.name := by
      simpa [text] using hlike.names
    exact h _ ((mem_files proper loads _ _).mpr ⟨p, hs, rfl⟩) t ht
  suitable := by
    intro p i hs hi u hu exe opts hc
    obtain ⟨v, hv, hpv, _⟩ := C79_command proper loads apart hlike.acyclic hs hi info .plainText
    obtain rfl := Build.path_unique (graph_sorted proper loads) hpv hu
    rcases hlike.tasks _ hv with rfl | rfl
    · obtain ⟨h1, ts, h2, h3⟩ := hlike.ofMaker hc
      rw [h1]
      exact .directoryMaker h2 h3
    · obtain ⟨h1, ha, src, target, h2, h3, h4, h6, n1, n2⟩ := hlike.ofCompiler hc
      rw [h1]
      have hk : kind aObj = false := by decide +kernel
      refine .compiler h2 h3 h4 (by simpa [h6] using hk) fun as ha' => ?_
      obtain rfl : args = as := by rw [ha] at ha'; cases ha'; rfl
      refine ⟨⟨by rw [h6]; simp [tools], by rw [h6]; simp [tools]⟩, ?_, ?_⟩
      · simp [Build.Tools.Harmless, tools, n1]
      · simp only [Build.Tools.Harmless, tools, n2, if_false]

end

theorem uses : Uses job kind tools recipe info .plainText disk files tree := uses_of like proper loads apart

/-- The hypotheses of C88_success_partial are met: the directory has been made, and the file has been compiled. -/
example : Build.Exists state.base.fs aObj := by
  have h : ∃ x ∈ files, ∃ t ∈ x.2.targets, t.name = aObj := by decide +kernel
  obtain ⟨⟨k, i⟩, hx, t, ht, e⟩ := h
  obtain ⟨p, hs, rfl⟩ := (mem_files proper loads _ _).mp hx
  exact e ▸ (C88_success_partial proper uses runs succeeded hs ht).1

/-! ## Recipes that do not keep their promise -/

/-- A file with two targets. -/
def two : Build.Build Nat where
  job := ⟨[0], fun _ => [], 1⟩
  task _ := { src := 0, targets := [1, 2], deps := [] }
  force := false
  kind _ := false
  fine := true

def twoFs : Build.FileSys Nat := fun p => if p = 0 then some ⟨1, false⟩ else none

def opts : Members := Recipes.StatusExample.opts "a.app" [] [.str "a", .str "b"]

/-- Programs that write the first target, or nothing. -/
def twoTools (writes : Bool) : Tools Nat where
  name s := if s = "a" then 1 else if s = "b" then 2 else 0
  foreign s := !(s = "a" || s = "b")
  may _ := if writes then [1] else []
  must _ := if writes then [1] else []

/-- **C88 is false** of recipes/{cxx_linker,make_lib,doc2html,md2htmlpart,vcslog}.py for more than one target, and of recipes/generic.py: a build succeeds although a target has not been made. In all cases but
the last one, the program has done what it has been asked to do. In the last one, it may have failed. -/
theorem C88_false : ∀ x ∈ [(true, Recipes.linker "g++" Recipes.StatusExample.env.pkg opts), (true, Recipes.archiver "ar" opts), (true, Recipes.docConverter Recipes.StatusExample.env' opts),
      (false, Recipes.markdown opts), (false, Recipes.vcsLog opts), (false, Recipes.generic (fun s _ _ => some s) opts)],
    ∃ as s, pexec two (twoTools x.1) (fun _ => x.2) as (pinit two twoFs 10) = some s ∧ s.base.Succeeded ∧ 2 ∈ (two.task 0).targets ∧ s.base.fs 2 = none := by
  intro x hx
  have h : ((pexec two (twoTools x.1) (fun _ => x.2) (pauto two (twoTools x.1) (fun _ => x.2) 30 (pinit two twoFs 10)) (pinit two twoFs 10)).map fun s =>
        (decide (s.base.sched.pc = .returned 1), s.base.fs 2)) = some (true, none) := by
    simp only [List.mem_cons, List.not_mem_nil, or_false] at hx
    rcases hx with rfl | rfl | rfl | rfl | rfl | rfl <;> decide +kernel
  obtain ⟨s, h1, h2⟩ := Option.map_eq_some_iff.mp h
  simp only [Prod.mk.injEq, decide_eq_true_eq] at h2
  exact ⟨_, s, h1, ⟨1, h2.1⟩, by simp [two], h2.2⟩

end Maike.Main.ProcessesExample
