import Verif.Recipes.Generators
import Verif.Tree.Names

/-!
# What the scripts of the project itself do (C114)

Documents are generated by scripts in doc, build.py makes the program twice, and install.sh puts it into place. Which files the generators read is the subject of `Main/Generators`.
-/

namespace Maike.Recipes

open Maike.Kvs (Json Members)
open Maike.Fs (Str splitNames joinNames dot dotdot)

/-! ## Specification -/

/-- How a text is read as Markdown: its characters, and whether they are escaped by a backslash. -/
def marked : Str → List (Char × Bool)
  | '\\' :: c :: s => (c, true) :: marked s
  | c :: s => (c, false) :: marked s
  | [] => []

/-- Two hyphens in a row are read as a dash, unless they are escaped. -/
def HasDash (s : Str) : Prop := [('-', false), ('-', false)] <:+: marked s

/-- Arguments that are passed by maike to a script that is a recipe. -/
def Guarded (argv : List String) : Prop := ∃ a rest, argv = a :: rest ∧ a ∈ ["get_tags", "configure", "compile"]

/-! ## Proof -/

variable {programs : Programs} {fs fs' : Files} {es : List Event} {st : Nat}

/-- **C114** (`cmdlineopts.md`, `configdefault.md`). The status is zero if and only if nothing went wrong. Then the program that has been built has been started once, it has returned zero, and the first
target is a file that has been written after that. -/
theorem C114_description (hr : programs.Returns) {args : List String} {opts : Members} {targetDir t : String} {others : List String}
    (hd : (infoField opts "target_dir").bind Json.asString = some targetDir) (ht : targetsOf opts = some (t :: others)) (h : Exec programs (selfDescription args opts) fs es st fs') :
    (st = 0 ↔ ∀ e ∈ es, e.Good) ∧
    (st = 0 → (∃ wrote, es = [.ran ((targetDir ++ "/core/bin/maike2") :: args) 0 wrote, .written t]) ∧ ∃ c, fs' t = some (.file c)) := by
  simp only [selfDescription, selfCommand, hd, Option.map_some, ht] at h
  rcases exec_run h with ⟨rc, fs₁, wrote, es', h1, rfl, h2⟩ | ⟨es', rfl, h2⟩
  · rcases exec_attempt h2 with h' | ⟨es'', rfl, h'⟩ <;> (replace h2 := h'; clear h')
    · simp only [if_true] at h2
      by_cases h0 : rc = 0
      · rw [if_neg (by simpa using h0)] at h2
        subst h0
        rcases exec_write h2 with ⟨c, es'', rfl, h3⟩ | ⟨es'', fs₂, rfl, h3, _⟩
        · simp only [if_true] at h3
          obtain ⟨rfl, rfl, rfl⟩ := exec_exit.mp h3
          exact ⟨by simp [Event.Good, exitStatus], fun _ => ⟨⟨wrote, rfl⟩, c, by simp [Files.put]⟩⟩
        · simp only [Bool.false_eq_true, if_false] at h3
          obtain ⟨rfl, rfl, rfl⟩ := exec_exit.mp h3
          simp [Event.Good, exitStatus]
      · rw [if_pos h0] at h2
        obtain ⟨rfl, rfl, rfl⟩ := exec_exit.mp h2
        have hz := exitStatus_zero (hr _ _ _ _ _ h1)
        simp [Event.Good, hz, h0]
    · simp only [Bool.false_eq_true, if_false] at h2
      obtain ⟨rfl, rfl, rfl⟩ := exec_exit.mp h2
      simp [Event.Good, exitStatus]
  · obtain ⟨rfl, rfl, rfl⟩ := exec_exit.mp h2
    simp [Event.Good, exitStatus]

/-- **C114** (`cmdlineopts.xml`, `configdefault.xml`). If the status is zero, then `pandoc` has been started with the text, and the first target is a file that has been written. What it returns is ignored. -/
theorem C114_part_partial {cwd : List Str} {name src t : String} {opts : Members} {others : List String} (hs : inputOf cwd name opts = some src) (ht : targetsOf opts = some (t :: others))
    (h : Exec programs (textPart cwd name opts) fs es st fs') :
    ((∀ e ∈ es, e.Good) → st = 0) ∧ (st = 0 → (∃ rc wrote, es = [.ran ["pandoc", "-f", "markdown", "-t", "html", "--section-divs", src] rc wrote, .written t]) ∧
      ∃ c, fs' t = some (.file c)) := by
  simp only [textPart, hs, ht] at h
  rcases exec_attempt h with h' | ⟨es'', rfl, h'⟩ <;> (replace h := h'; clear h')
  · simp only [if_true] at h
    rcases exec_run h with ⟨rc, fs₁, wrote, es', h1, rfl, h2⟩ | ⟨es', rfl, h2⟩
    · rcases exec_attempt h2 with h' | ⟨es'', rfl, h'⟩ <;> (replace h2 := h'; clear h')
      · simp only [if_true] at h2
        rcases exec_write h2 with ⟨c, es'', rfl, h3⟩ | ⟨es'', fs₂, rfl, h3, _⟩
        · simp only [if_true] at h3
          obtain ⟨rfl, rfl, rfl⟩ := exec_exit.mp h3
          exact ⟨fun _ => rfl, fun _ => ⟨⟨rc, wrote, rfl⟩, c, by simp [Files.put]⟩⟩
        · simp only [Bool.false_eq_true, if_false] at h3
          obtain ⟨rfl, rfl, rfl⟩ := exec_exit.mp h3
          simp [Event.Good, exitStatus]
      · simp only [Bool.false_eq_true, if_false] at h2
        obtain ⟨rfl, rfl, rfl⟩ := exec_exit.mp h2
        simp [Event.Good, exitStatus]
    · obtain ⟨rfl, rfl, rfl⟩ := exec_exit.mp h2
      simp [Event.Good, exitStatus]
  · simp only [Bool.false_eq_true, if_false] at h
    obtain ⟨rfl, rfl, rfl⟩ := exec_exit.mp h
    simp [Event.Good, exitStatus]

/-- **C114** (manual page). If nothing went wrong, then the status is zero. If the status is zero, then `pandoc` has been started once, and has been told to write the first target. What it returns is ignored. -/
theorem C114_manual_partial {cwd : List Str} {src t : String} {opts : Members} {others : List String} (hs : inputOf cwd "cmdlineopts.md" opts = some src)
    (ht : targetsOf opts = some (t :: others)) (h : Exec programs (manPage cwd opts) fs es st fs') :
    ((∀ e ∈ es, e.Good) → st = 0) ∧
    (st = 0 → ∃ rc wrote, es = [.ran ["pandoc", "-f", "markdown", "-s", "-t", "man", "-o", t] rc wrote] ∧
      (rc = 0 → programs.Writes ["pandoc", "-f", "markdown", "-s", "-t", "man", "-o", t] t → t ∈ wrote)) := by
  simp only [manPage, hs, ht] at h
  rcases exec_attempt h with h' | ⟨es'', rfl, h'⟩ <;> (replace h := h'; clear h')
  · simp only [if_true] at h
    rcases exec_run h with ⟨rc, fs₁, wrote, es', h1, rfl, h2⟩ | ⟨es', rfl, h2⟩
    · obtain ⟨rfl, rfl, rfl⟩ := exec_exit.mp h2
      exact ⟨fun _ => rfl, fun _ => ⟨rc, wrote, rfl, fun h0 hw => hw _ _ _ _ h1 h0⟩⟩
    · obtain ⟨rfl, rfl, rfl⟩ := exec_exit.mp h2
      simp [Event.Good, exitStatus]
  · simp only [Bool.false_eq_true, if_false] at h
    obtain ⟨rfl, rfl, rfl⟩ := exec_exit.mp h
    simp [Event.Good, exitStatus]

/-! ### build.py -/

/-- What follows the first build. -/
theorem exec_rebuildAfter (hr : programs.Returns) {rc : Int} (hrc : -64 ≤ rc ∧ rc ≤ 255) (h : Exec programs (rebuildAfter rc) fs es st fs') :
    (rc ≠ 0 ∧ es = [] ∧ st ≠ 0 ∧ fs' = fs) ∨
    (rc = 0 ∧ ((∃ w, es = [.ran secondBuild 0 w] ∧ st = 0) ∨ (∃ rc' w, rc' ≠ 0 ∧ es = [.ran secondBuild rc' w] ∧ st ≠ 0) ∨ (es = [.notStarted secondBuild] ∧ st ≠ 0))) := by
  unfold rebuildAfter at h
  split at h
  · rename_i h0
    obtain ⟨rfl, rfl, rfl⟩ := exec_exit.mp h
    exact .inl ⟨h0, rfl, fun e => h0 ((exitStatus_zero hrc).mp e), rfl⟩
  · rename_i h0
    refine .inr ⟨by simpa using h0, ?_⟩
    rcases exec_run h with ⟨rc', fs₁, wrote, es', h1, rfl, h2⟩ | ⟨es', rfl, h2⟩
    · dsimp only at h2
      split at h2
      · rename_i h0
        obtain ⟨rfl, rfl, rfl⟩ := exec_exit.mp h2
        exact .inr (.inl ⟨rc', wrote, h0, rfl, fun e => h0 ((exitStatus_zero (hr _ _ _ _ _ h1)).mp e)⟩)
      · rename_i h0
        have h0 : rc' = 0 := by simpa using h0
        subst h0
        obtain ⟨rfl, rfl, rfl⟩ := exec_exit.mp h2
        exact .inl ⟨wrote, rfl, rfl⟩
    · obtain ⟨rfl, rfl, rfl⟩ := exec_exit.mp h2
      exact .inr (.inr ⟨rfl, by decide⟩)

/-- **C114** (build.py). The status is zero if and only if the program has been built by the program that is installed (or by the script, if there is none), and then again by the program that has been made.
The second build is started only after the first one has succeeded. -/
theorem C114_build (hr : programs.Returns) {argv : List String} (hg : ¬ Guarded argv) (h : Exec programs (buildScript argv) fs es st fs') :
    (st = 0 ↔ ∃ w w', es = [.ran installedBuild 0 w, .ran secondBuild 0 w'] ∨ es = [.notStarted installedBuild, .ran scriptedBuild 0 w, .ran secondBuild 0 w']) ∧
    (∀ e ∈ es, e.action = .run secondBuild → ∃ w, .ran installedBuild 0 w ∈ es ∨ (.notStarted installedBuild ∈ es ∧ .ran scriptedBuild 0 w ∈ es)) := by
  have hg : ¬ (argv.head? = some "get_tags" ∨ argv.head? = some "configure" ∨ argv.head? = some "compile") := by
    intro h
    cases argv with
    | nil => simp at h
    | cons a rest => exact hg ⟨a, rest, rfl, by simpa using h⟩
  have d1 : installedBuild ≠ secondBuild := by decide
  have d2 : scriptedBuild ≠ secondBuild := by decide
  rw [buildScript, if_neg hg] at h
  rcases exec_run h with ⟨rc, fs₁, wrote, es', h1, rfl, h2⟩ | ⟨es', rfl, h2⟩
  · rcases exec_rebuildAfter hr (hr _ _ _ _ _ h1) h2 with ⟨h0, rfl, hst, _⟩ | ⟨rfl, ⟨w, rfl, rfl⟩ | ⟨rc', w, h0, rfl, hst⟩ | ⟨rfl, hst⟩⟩
    · simp [h0, hst, Event.action, d1]
    · simp [Event.action, d1]
    · simp [hst, h0, Event.action, d1]
    · simp [hst, Event.action, d1]
  · rcases exec_run h2 with ⟨rc, fs₁, wrote, es', h1, rfl, h3⟩ | ⟨es', rfl, h3⟩
    · rcases exec_rebuildAfter hr (hr _ _ _ _ _ h1) h3 with ⟨h0, rfl, hst, _⟩ | ⟨rfl, ⟨w, rfl, rfl⟩ | ⟨rc', w, h0, rfl, hst⟩ | ⟨rfl, hst⟩⟩
      · simp [h0, hst, Event.action, d1, d2]
      · simp [Event.action, d1, d2]
      · simp [hst, h0, Event.action, d1, d2]
      · simp [hst, Event.action, d1, d2]
    · obtain ⟨rfl, rfl, rfl⟩ := exec_exit.mp h3
      simp [exitStatus, Event.action, d1, d2]

/-- If build.py is called like a recipe, it does nothing. Otherwise maike would start itself from a build. -/
theorem C114_guarded {argv : List String} (hg : Guarded argv) : Exec programs (buildScript argv) fs es st fs' ↔ es = [] ∧ st = 0 ∧ fs' = fs := by
  have e : buildScript argv = .exit 0 := by
    obtain ⟨a, rest, rfl, h⟩ := hg
    rw [buildScript, if_pos (by simpa using h)]
  rw [e, exec_exit]
  rfl

/-! ### install.sh -/

theorem exec_untilFailure (hr : programs.Returns) {cmds : List (List String)} (h : Exec programs (untilFailure cmds) fs es st fs') :
    (st = 0 ↔ es.map Event.action = cmds.map Action.run ∧ ∀ e ∈ es, e.Good) ∧ es.map Event.action <+: cmds.map Action.run ∧ ∀ e ∈ es.dropLast, e.Good := by
  induction cmds generalizing fs es with
  | nil =>
    obtain ⟨rfl, rfl, rfl⟩ := exec_exit.mp h
    simp [exitStatus]
  | cons cmd cmds ih =>
    rcases exec_run h with ⟨rc, fs₁, wrote, es', h1, rfl, h2⟩ | ⟨es', rfl, h2⟩
    · dsimp only at h2
      split at h2
      · rename_i h0
        obtain ⟨rfl, rfl, rfl⟩ := exec_exit.mp h2
        simp [exitStatus_zero (hr _ _ _ _ _ h1), h0, Event.Good, Event.action]
      · rename_i h0
        have h0 : rc = 0 := by simpa using h0
        subst h0
        obtain ⟨i1, i2, i3⟩ := ih h2
        refine ⟨by simp [i1, Event.action, Event.Good], by simpa [Event.action] using i2, fun e he => ?_⟩
        cases es' with
        | nil => simp at he
        | cons x l =>
          rw [List.dropLast_cons_cons] at he
          rcases List.mem_cons.mp he with rfl | he
          · rfl
          · exact i3 e he
    · obtain ⟨rfl, rfl, rfl⟩ := exec_exit.mp h2
      simp [exitStatus, Event.Good, Event.action]

/-- **C114** (install.sh). The status is zero if and only if all commands have been executed and have succeeded. Commands are executed in this order, and nothing is executed after one that has failed. -/
theorem C114_install (hr : programs.Returns) {recipes : List String} {dir : String} (h : Exec programs (install recipes dir) fs es st fs') :
    (st = 0 ↔ es.map Event.action = (installCommands recipes dir).map Action.run ∧ ∀ e ∈ es, e.Good) ∧
    es.map Event.action <+: (installCommands recipes dir).map Action.run ∧ ∀ e ∈ es.dropLast, e.Good := exec_untilFailure hr h

theorem splitNames_slash (a b cur : Str) : splitNames (a ++ '/' :: b) cur = splitNames a cur ++ splitNames b [] := by
  induction a generalizing cur with
  | nil =>
    simp only [List.nil_append, splitNames, if_true]
    split <;> simp
  | cons c a ih =>
    simp only [List.cons_append, splitNames]
    split
    · split <;> simp [ih]
    · exact ih _

/-- **C114** (recipes). The program that has been installed looks for recipes in the directory into which install.sh has copied them, wherever that is. -/
theorem C114_recipes (dir : Str) : recipesFor (Fs.parse (dir ++ "/bin/maike2".toList)) = Fs.parse (dir ++ "/lib/maike2/recipes".toList) := by
  have e1 : "/bin/maike2".toList = '/' :: "bin/maike2".toList := by decide
  have e2 : "/lib/maike2/recipes".toList = '/' :: "lib/maike2/recipes".toList := by decide
  have s1 : splitNames "bin/maike2".toList [] = ["bin".toList, "maike2".toList] := by decide +kernel
  have s2 : splitNames "lib/maike2/recipes".toList [] = ["lib".toList, "maike2".toList, "recipes".toList] := by decide +kernel
  have l1 : ∀ s t : Str, t ≠ [] → (s ++ t).getLast? = t.getLast? := by
    intro s t h
    rw [List.getLast?_append, List.getLast?_eq_some_getLast h]
    rfl
  have p1 : Fs.parse (dir ++ "/bin/maike2".toList) = ⟨decide ((dir ++ "/bin/maike2".toList).head? = some '/'), splitNames dir [] ++ ["bin".toList, "maike2".toList], false⟩ := by
    unfold Fs.parse
    rw [l1 _ _ (by decide)]
    rw [show ("/bin/maike2".toList).getLast? = some '2' from by decide, e1, splitNames_slash, s1]
    simp
  have p2 : Fs.parse (dir ++ "/lib/maike2/recipes".toList) =
      ⟨decide ((dir ++ "/lib/maike2/recipes".toList).head? = some '/'), splitNames dir [] ++ ["lib".toList, "maike2".toList, "recipes".toList], false⟩ := by
    unfold Fs.parse
    rw [l1 _ _ (by decide)]
    rw [show ("/lib/maike2/recipes".toList).getLast? = some 's' from by decide, e2, splitNames_slash, s2]
    simp
  have hroot : (dir ++ "/bin/maike2".toList).head? = (dir ++ "/lib/maike2/recipes".toList).head? := by cases dir <;> rfl
  rw [p1, p2, hroot, recipesFor]
  have hp : (Fs.Path.parent (Fs.Path.parent ⟨decide ((dir ++ "/lib/maike2/recipes".toList).head? = some '/'), splitNames dir [] ++ ["bin".toList, "maike2".toList], false⟩)) =
      ⟨decide ((dir ++ "/lib/maike2/recipes".toList).head? = some '/'), splitNames dir [], false⟩ := by
    simp [Fs.Path.parent]
  rw [hp]
  show Fs.Path.append (Fs.Path.append (Fs.Path.append _ _) _) _ = _
  simp [Fs.Path.append]

/-! ### Hyphens -/

theorem marked_escape (s : Str) (h : '\\' ∉ s) : (marked (escapeHyphens s)).map Prod.fst = s := by
  induction s using escapeHyphens.induct with
  | case1 s ih =>
    simp only [List.mem_cons, not_or] at h
    simp [escapeHyphens, marked, ih h.2.2]
  | case2 c s hc ih =>
    simp only [List.mem_cons, not_or] at h
    rw [escapeHyphens, marked]
    · simp [ih h.2]
    · exact fun _ _ e => absurd e.symm h.1
    · exact hc
  | case3 => rfl

/-- **C114** (hyphens). As Markdown, the text of the options is read as it has been printed, and there are no dashes, if no backslash has been printed. -/
theorem C114_hyphens (s : Str) (h : '\\' ∉ s) : (marked (escapeHyphens s)).map Prod.fst = s ∧ ¬ HasDash (escapeHyphens s) := by
  refine ⟨marked_escape s h, ?_⟩
  unfold HasDash
  induction s using escapeHyphens.induct with
  | case1 s ih =>
    simp only [List.mem_cons, not_or] at h
    simp only [escapeHyphens, marked]
    intro hi
    rcases List.infix_cons_iff.mp hi with hp | hi
    · simp [List.cons_prefix_cons] at hp
    · rcases List.infix_cons_iff.mp hi with hp | hi
      · simp [List.cons_prefix_cons] at hp
      · exact ih h.2.2 hi
  | case2 c s hc ih =>
    simp only [List.mem_cons, not_or] at h
    have hm : marked (escapeHyphens (c :: s)) = (c, false) :: marked (escapeHyphens s) := by
      rw [escapeHyphens, marked]
      · exact fun _ _ e => absurd e.symm h.1
      · exact hc
    rw [hm]
    intro hi
    rcases List.infix_cons_iff.mp hi with hp | hi
    · rw [List.cons_prefix_cons] at hp
      obtain ⟨e, hp⟩ := hp
      obtain rfl : c = '-' := by simpa using (Prod.mk.inj e).1.symm
      have := marked_escape s h.2
      cases hl : marked (escapeHyphens s) with
      | nil => rw [hl] at hp; simp at hp
      | cons x l =>
        rw [hl] at hp this
        simp only [List.cons_prefix_cons, List.nil_prefix, and_true] at hp
        subst hp
        simp only [List.map_cons] at this
        exact hc _ rfl this.symm
    · exact ih h.2 hi
  | case3 => simp [escapeHyphens, marked]

/-! ## Examples -/

namespace OwnExample

open StatusExample

/-- Without the replacement, options are read as dashes. -/
example : HasDash "--help".toList := ⟨[], [('h', false), ('e', false), ('l', false), ('p', false)], by decide⟩

example : escapeHyphens "--log-file ---".toList = "\\-\\-log-file \\-\\--".toList := by decide

/-- A backslash that has been printed is lost. -/
example : (marked (escapeHyphens "a\\*".toList)).map Prod.fst = "a*".toList := by decide

/-- Where the program looks for recipes. -/
example : recipesFor (Fs.parse "/usr/local/bin/maike2".toList) = Fs.parse "/usr/local/lib/maike2/recipes".toList := by decide +kernel

/-- The options of a task for doc/manpage.py. -/
def options : Members :=
  [("build_info", .obj [("source_dir", .str "."), ("target_dir", .str "out"), ("start_time", .int 0)]), ("source_file", .str "doc/manpage.py"), ("targets", .arr [.str "out/doc/maike2.1.man"])]

example : inputOf [] "cmdlineopts.md" options = some "out/doc/cmdlineopts.md" := by decide +kernel

/-- **C114 is false** of doc/manpage.py: the status is zero though `pandoc` has failed, and the manual page is missing. -/
theorem C114_false : ∃ programs : Programs, programs.Returns ∧ ∃ opts fs es fs', targetsOf opts = some ["out/doc/maike2.1.man"] ∧ Exec programs (manPage [] opts) fs es 0 fs' ∧
    (∃ e ∈ es, ¬ e.Good) ∧ fs' "out/doc/maike2.1.man" = none := by
  refine ⟨does (fun _ => 1) [], returns (by simp), options, fun _ => none, [.ran ["pandoc", "-f", "markdown", "-s", "-t", "man", "-o", "out/doc/maike2.1.man"] 1 []], fun _ => none, rfl, ?_,
    ⟨.ran _ 1 [], List.mem_cons_self, by simp [Event.Good]⟩, rfl⟩
  have h1 : inputOf [] "cmdlineopts.md" options = some "out/doc/cmdlineopts.md" := by decide +kernel
  have h2 : targetsOf options = some ["out/doc/maike2.1.man"] := rfl
  rw [manPage, h1, h2]
  exact .done (.ran ⟨rfl, rfl, rfl⟩ .exit)

/-- The other generators do not notice a failure of `pandoc` either: their target is then made from what has been printed. -/
theorem C114_false_part : ∃ programs : Programs, programs.Returns ∧ ∃ opts fs es fs', Exec programs (textPart [] "cmdlineopts.md" opts) fs es 0 fs' ∧ ∃ e ∈ es, ¬ e.Good := by
  refine ⟨does (fun _ => 1) [], returns (by simp), options, fun _ => none,
    [.ran ["pandoc", "-f", "markdown", "-t", "html", "--section-divs", "out/doc/cmdlineopts.md"] 1 [], .written "out/doc/maike2.1.man"], Files.put (fun _ => none) "out/doc/maike2.1.man" (.file []), ?_,
    .ran _ 1 [], List.mem_cons_self, by simp [Event.Good]⟩
  have h1 : inputOf [] "cmdlineopts.md" options = some "out/doc/cmdlineopts.md" := by decide +kernel
  have h2 : targetsOf options = some ["out/doc/maike2.1.man"] := rfl
  rw [textPart]
  refine .done ?_
  rw [if_pos rfl, h1, h2]
  exact .ran ⟨rfl, rfl, rfl⟩ (.done (.wrote (by simp) .exit))

/-- The provisions of `C114_build` can be met in both ways. -/
example : ∃ programs : Programs, programs.Returns ∧ ∃ es es' fs', Exec programs (buildScript []) (fun _ => none) es 0 fs' ∧ Exec programs (buildScript []) (fun _ => none) es' 0 fs' ∧ es.length = 2 ∧ es'.length = 3 :=
  ⟨does (fun _ => 0) [], returns (by simp), [.ran installedBuild 0 [], .ran secondBuild 0 []], [.notStarted installedBuild, .ran scriptedBuild 0 [], .ran secondBuild 0 []], fun _ => none,
    .ran ⟨rfl, rfl, rfl⟩ (.ran ⟨rfl, rfl, rfl⟩ .exit), .notStarted (.ran ⟨rfl, rfl, rfl⟩ (.ran ⟨rfl, rfl, rfl⟩ .exit)), rfl, rfl⟩

/-- Without an argument, install.sh copies to the root directory. -/
example : (installCommands ["a.py"] "").head? = some ["mkdir", "-p", "/bin"] := by decide

end OwnExample

end Maike.Recipes
