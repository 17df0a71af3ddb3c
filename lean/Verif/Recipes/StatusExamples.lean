import Verif.Recipes.Status

/-!
# Recipes that do not keep what C82 says, and examples
-/

namespace Maike.Recipes

open Maike.Kvs (Json Members)

/-- **C82 is false** of recipes/generic.py: whatever the command returns, the status is zero if it could be started. -/
theorem C82_generic {programs : Programs} {substitute : Substitute} {opts : Members} {args : List String} {fs fs' : Files} {es : List Event} {st : Nat}
    (hargs : genericCommand substitute opts = some args) (h : Exec programs (generic substitute opts) fs es st fs') :
    (∃ rc wrote, es = [.ran args rc wrote] ∧ programs args fs rc fs' wrote ∧ st = 0) ∨ (es = [.notStarted args] ∧ st = 255) := by
  simp only [generic, hargs, orFail] at h
  rcases exec_run_or (f := fun _ => .exit 0) h with ⟨rc, fs₁, wrote, es', h1, rfl, h2⟩ | h
  · obtain ⟨rfl, rfl, rfl⟩ := exec_exit.mp h2
    exact .inl ⟨rc, wrote, rfl, h1, rfl⟩
  · exact .inr h

/-- Nothing is made from headers by recipes/cxx_compiler.py, but success is reported. -/
theorem C82_header {programs : Programs} {env : Env} {opts : Members} {src : String} (hsrc : Kvs.lookup "source_file" opts = some (.str src)) (hh : IsHeaderName src)
    {fs fs' : Files} {es : List Event} {st : Nat} : Exec programs (compiler env opts) fs es st fs' ↔ es = [] ∧ st = 0 ∧ fs' = fs := by
  have e : compiler env opts = .exit 0 := by simp [compiler, hsrc, Json.asString, orFail, (isHeader_iff src).mpr hh]
  rw [e, exec_exit]
  rfl

namespace StatusExample

/-- Options for a file `a.cpp`, or another one, with two targets. -/
def opts (src : String) (acts : List Json) (targets : List Json) : Members :=
  [("compiler_cfg", .obj [("backend", .str "g++"), ("cflags", .arr [.str "-g"]), ("iquote", .arr []), ("actions", .arr acts),
    ("compilation_cmd", .obj [("executable", .str "false"), ("args", .arr [])])]),
   ("source_file", .str src), ("targets", .arr targets), ("dependencies", .arr []), ("task_id", .int 1), ("log_format", .str "plain_text"),
   ("build_info", .obj [("start_time", .int 0), ("build_id", .str "0"), ("target_dir", .str "__t"), ("source_dir", .str ".")])]

def env : Env where
  pkg := ⟨fun _ => none, fun _ => none, fun _ => none⟩
  cwd := "/"
  relpath p _ := p
  dirname _ := ""
  utc _ := ""

/-- A program that returns `rc` and writes to `names`. -/
def does (rc : List String → Int) (names : List String) : Programs :=
  fun args fs r fs' wrote => r = rc args ∧ wrote = names ∧ fs' = names.foldl (fun fs p => fs.put p (.file [])) fs

theorem returns {rc : List String → Int} {names : List String} (h : ∀ a, -64 ≤ rc a ∧ rc a ≤ 255) : (does rc names).Returns := by
  rintro args fs r fs' wrote ⟨rfl, _⟩
  exact h args

/-- **C82 is false**: a command that fails is not reported by recipes/generic.py. -/
theorem C82_generic_false : ∃ programs : Programs, programs.Returns ∧ ∃ opts substitute fs es fs', Exec programs (generic substitute opts) fs es 0 fs' ∧ ∃ e ∈ es, ¬ e.Good := by
  refine ⟨does (fun _ => 1) [], returns (by simp), opts "a.txt" [] [.str "b.txt"], fun s _ _ => some s, fun _ => none, [.ran ["false"] 1 []], fun _ => none, ?_, .ran ["false"] 1 [], by simp, by simp [Event.Good]⟩
  have e : generic (fun s _ _ => some s) (opts "a.txt" [] [.str "b.txt"]) = .run ["false"] fun rc => orFail rc fun _ => .exit 0 := rfl
  rw [e]
  exact .ran ⟨rfl, rfl, rfl⟩ .exit

/-- **C82 is false**: if there is more than one target, recipes/cxx_linker.py and recipes/make_lib.py report success without having made all of them. -/
theorem C82_targets_false : ∃ programs : Programs, programs.Returns ∧ ∃ opts fs,
    (∃ args es fs', linkCommand "g++" env.pkg opts = some args ∧ programs.Writes args "a" ∧ Exec programs (linker "g++" env.pkg opts) fs es 0 fs' ∧
      targetsOf opts = some ["a", "b"] ∧ "b" ∉ es.flatMap Event.wrote ∧ fs' "b" = none) ∧
    ∃ args es fs', archiveCommand "ar" opts = some args ∧ programs.Writes args "a" ∧ Exec programs (archiver "ar" opts) fs es 0 fs' ∧
      targetsOf opts = some ["a", "b"] ∧ "b" ∉ es.flatMap Event.wrote ∧ fs' "b" = none := by
  have hw : ∀ args, (does (fun _ => 0) ["a"]).Writes args "a" := by
    rintro args fs rc fs' wrote ⟨_, rfl, _⟩ _
    simp
  refine ⟨does (fun _ => 0) ["a"], returns (by simp), opts "a.app" [] [.str "a", .str "b"], fun _ => none,
    ⟨_, [.ran _ 0 ["a"]], _, rfl, hw _, .ran ⟨rfl, rfl, rfl⟩ .exit, rfl, by simp [Event.wrote], by simp [Files.put]⟩,
    ⟨_, [.ran _ 0 ["a"]], _, rfl, hw _, .ran ⟨rfl, rfl, rfl⟩ .exit, rfl, by simp [Event.wrote], by simp [Files.put]⟩⟩

/-- **C82 is false**: recipes/make_directory.py reports success if there is a file with the name of the directory. -/
theorem C82_directory_false : ∃ (programs : Programs) (opts : Members) (fs : Files) (es : List Event), targetsOf opts = some ["a"] ∧
    Exec programs (directoryMaker opts) fs es 0 fs ∧ fs "a" = some (.file []) := by
  refine ⟨fun _ _ _ _ _ => False, opts "a" [] [.str "a"], fun _ => some (.file []), [.mkdir "a" .existed], rfl, ?_, rfl⟩
  have e : directoryMaker (opts "a" [] [.str "a"]) = makeAll ["a"] := rfl
  rw [e]
  have e : makeAll ["a"] = .mkdir "a" fun r => if r = .failed then .exit (-1) else .exit 0 := rfl
  rw [e]
  exact .existed (by simp) .exit

theorem writes_a (rc : List String → Int) (args : List String) : (does rc ["__t/a"]).Writes args "__t/a" := by
  rintro fs r fs' wrote ⟨_, rfl, _⟩ _
  simp

/-- Options for a test, with two targets. -/
def testOpts : Members := opts "a.cpp" [.str "link", .str "run"] [.str "__t/a", .str "__t/b"]

theorem command : ∃ args, compileCommand env testOpts = some args ∧ args.length ≠ 1 := ⟨_, rfl, by simp⟩

theorem script {args : List String} (h : compileCommand env testOpts = some args) : compiler env testOpts =
    .run args fun rc => orFail rc fun rc => .copy "__t/a" "__t/b" fun ok => if ok then runTarget ["link", "run"] "a.cpp" "__t/a" args rc else .exit (-1) := by
  have h1 : targetsOf testOpts = some ["__t/a", "__t/b"] := rfl
  have h2 : (Kvs.lookup "source_file" testOpts).bind Json.asString = some "a.cpp" := rfl
  have h3 : (Kvs.lookup "compiler_cfg" testOpts).bind actions = some ["link", "run"] := rfl
  have h4 : isHeader "a.cpp" = false := by decide +kernel
  simp [compiler, h1, h2, h3, h4, h, orFail, copyAll]

theorem executed (rc : Int) : ∃ args es fs', compileCommand env testOpts = some args ∧
    Exec (does (fun args => if args = ["__t/a"] then rc else 0) ["__t/a"]) (compiler env testOpts) (fun _ => none) es (exitStatus rc) fs' ∧
    es = [.ran args 0 ["__t/a"], .copied "__t/a" "__t/b", .ran ["__t/a"] rc ["__t/a"]] := by
  obtain ⟨args, h, hl⟩ := command
  have hne : args ≠ ["__t/a"] := by rintro rfl; exact hl rfl
  suffices hs : ∃ fs', Exec (does (fun args => if args = ["__t/a"] then rc else 0) ["__t/a"]) (compiler env testOpts) (fun _ => none)
      [.ran args 0 ["__t/a"], .copied "__t/a" "__t/b", .ran ["__t/a"] rc ["__t/a"]] (exitStatus rc) fs' by
    obtain ⟨fs', hs⟩ := hs
    exact ⟨args, _, fs', h, hs, rfl⟩
  rw [script h]
  let w : Files → Files := fun fs => ["__t/a"].foldl (fun fs p => fs.put p (.file [])) fs
  refine ⟨w ((w fun _ => none).put "__t/b" (.file [])), ?_⟩
  refine .ran ⟨(if_neg hne).symm, rfl, rfl⟩ ?_
  refine .copied (c := []) (by simp [Files.put]) (by simp) (by simp [Files.put]) ?_
  simp only [if_true]
  have : runTarget ["link", "run"] "a.cpp" "__t/a" args 0 = .run ["__t/a"] fun rc => orFail rc fun rc => tidy ["link", "run"] "a.cpp" args rc := rfl
  rw [this]
  refine .ran ⟨(if_pos rfl).symm, rfl, rfl⟩ ?_
  have : tidy ["link", "run"] "a.cpp" args rc = .exit rc := by simp [tidy]
  simp only [orFail, this]
  exact .exit

/-- A test program that fails. It is built successfully, so its target has been written when the recipe fails (see C80). -/
theorem C82_test_program : ∃ (programs : Programs), programs.Returns ∧ ∃ opts fs args es fs' st, compileCommand env opts = some args ∧ programs.Writes args "__t/a" ∧
    Exec programs (compiler env opts) fs es st fs' ∧ st ≠ 0 ∧ "__t/a" ∈ es.flatMap Event.wrote ∧ .ran ["__t/a"] 1 ["__t/a"] ∈ es := by
  obtain ⟨args, es, fs', h1, h2, rfl⟩ := executed 1
  exact ⟨_, returns (fun a => by split <;> decide), testOpts, _, args, _, fs', _, h1, writes_a _ _, h2, by decide, by simp [Event.wrote], by simp⟩

/-- The hypotheses of C82_compiler_partial are met by a test with two targets that succeeds. -/
example : ∃ (programs : Programs) (args : List String) (es : List Event) (fs' : Files), programs.Returns ∧ compileCommand env testOpts = some args ∧ programs.Writes args "__t/a" ∧
    Exec programs (compiler env testOpts) (fun _ => none) es 0 fs' ∧ es.length = 3 ∧ ∀ t ∈ ["__t/a", "__t/b"], t ∈ es.flatMap Event.wrote := by
  obtain ⟨args, es, fs', h1, h2, h3⟩ := executed 0
  have hr : (does (fun args => if args = ["__t/a"] then 0 else 0) ["__t/a"]).Returns := returns (fun a => by split <;> decide)
  have h := C82_compiler_partial hr (src := "a.cpp") (cfg := _) rfl (by rw [← isHeader_iff]; decide +kernel) rfl (acts := ["link", "run"]) rfl (by simp) (target := "__t/a") (others := ["__t/b"]) rfl h1 h2
  exact ⟨_, args, es, fs', hr, h1, writes_a _ _, h2, by rw [h3]; rfl, h.2.2.2 rfl (writes_a _ _)⟩

/-- The hypotheses of C82_copier and C82_directory_partial are met. -/
example : ∃ es fs', Exec (does (fun _ => 0) []) (copier (opts "a" [] [.str "b", .str "c"])) (fun p => if p = "a" then some (.file [1]) else none) es 0 fs' ∧
    fs' "b" = some (.file [1]) ∧ fs' "c" = some (.file [1]) :=
  ⟨_, _, .copied (c := [1]) (by simp) (by simp) (by simp) (.copied (c := [1]) (by simp [Files.put]) (by simp) (by simp [Files.put]) .exit), by simp [Files.put], by simp [Files.put]⟩

example : ∃ es fs', Exec (does (fun _ => 0) []) (directoryMaker (opts "a" [] [.str "b/."])) (fun _ => none) es 0 fs' ∧ fs' "b" = some .dir := by
  have e : directoryMaker (opts "a" [] [.str "b/."]) = makeAll ["b/."] := rfl
  have e' : withoutDot "b/." = "b" := by
    have : (withoutDot "b/.").toList = ['b'] := by decide +kernel
    rw [← String.toList_inj, this]
    rfl
  rw [e]
  have e : makeAll ["b/."] = .mkdir "b" fun r => if r = .failed then .exit (-1) else .exit 0 := by simp [makeAll, e']
  rw [e]
  exact ⟨_, _, .made rfl .exit, by simp [Files.put]⟩

end StatusExample

end Maike.Recipes
