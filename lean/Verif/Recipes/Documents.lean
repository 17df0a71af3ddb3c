import Verif.Recipes.StatusExamples

/-!
# What the status of the recipes for documents says (C82)

recipes/{sass2css,md2htmlpart,doc2html,vcslog}.py
-/

namespace Maike.Recipes

open Maike.Kvs (Json Members)

variable {programs : Programs} {fs fs' : Files} {es : List Event} {st : Nat}

theorem exec_attempt {next : Bool → Script} (h : Exec programs (.attempt next) fs es st fs') :
    Exec programs (next true) fs es st fs' ∨ ∃ es', es = .raised :: es' ∧ Exec programs (next false) fs es' st fs' := by
  cases h with
  | done h => exact .inl h
  | raised h => exact .inr ⟨_, rfl, h⟩

theorem exec_write {p : String} {next : Bool → Script} (h : Exec programs (.write p next) fs es st fs') :
    (∃ c es', es = .written p :: es' ∧ Exec programs (next true) (fs.put p (.file c)) es' st fs') ∨
    ∃ es' fs₁, es = .writeFailed p :: es' ∧ Exec programs (next false) fs₁ es' st fs' ∧ ∀ q, q ≠ p → fs₁ q = fs q := by
  cases h with
  | wrote h1 h => exact .inl ⟨_, _, rfl, h⟩
  | writeFailed h => exact .inr ⟨_, _, rfl, h, fun _ _ => rfl⟩
  | writePart h1 h => exact .inr ⟨_, _, rfl, h, fun q hq => by simp [Files.put, hq]⟩

/-- A loop that writes files. -/
theorem exec_writeAll {n : Int} (hn : exitStatus n ≠ 0) {ts : List String} {next : Script} (h : Exec programs (writeAll (.exit n) ts next) fs es st fs') :
    (∃ es' fs₁, es = ts.map Event.written ++ es' ∧ Exec programs next fs₁ es' st fs' ∧ (∀ t ∈ ts, ∃ c, fs₁ t = some (.file c)) ∧ ∀ p, p ∉ ts → fs₁ p = fs p) ∨
    (st ≠ 0 ∧ (∃ e ∈ es, ¬ e.Good) ∧ (∀ e ∈ es, ∃ t ∈ ts, e.action = .write t) ∧ ∀ p, p ∉ ts → fs' p = fs p) := by
  induction ts generalizing fs es with
  | nil => exact .inl ⟨es, fs, rfl, h, by simp, by simp⟩
  | cons t ts ih =>
    simp only [writeAll] at h
    rcases exec_write h with ⟨c, es', rfl, h'⟩ | ⟨es', fs₁, rfl, h', hfs⟩ <;> (replace h := h'; clear h')
    · simp only [if_true] at h
      rcases ih h with ⟨es'', fs₁, rfl, a1, a2, a3⟩ | ⟨a1, ⟨e, a2, a3⟩, a4, a5⟩
      · refine .inl ⟨es'', fs₁, rfl, a1, fun u hu => ?_, fun p hp => ?_⟩
        · by_cases hm : u ∈ ts
          · exact a2 u hm
          · have : u = t := by simpa [hm] using hu
            subst this
            exact ⟨c, by rw [a3 _ hm]; simp [Files.put]⟩
        · simp only [List.mem_cons, not_or] at hp
          rw [a3 p hp.2]
          simp [Files.put, hp.1]
      · refine .inr ⟨a1, ⟨e, by simp [a2], a3⟩, fun e he => ?_, fun p hp => ?_⟩
        · rcases List.mem_cons.mp he with rfl | he
          · exact ⟨t, by simp, rfl⟩
          · obtain ⟨u, hu, e'⟩ := a4 e he
            exact ⟨u, by simp [hu], e'⟩
        · simp only [List.mem_cons, not_or] at hp
          rw [a5 p hp.2]
          simp [Files.put, hp.1]
    · simp only [Bool.false_eq_true, if_false] at h
      obtain ⟨rfl, rfl, rfl⟩ := exec_exit.mp h
      refine .inr ⟨hn, ⟨_, List.mem_cons_self, id⟩, by simp [Event.action], fun p hp => ?_⟩
      simp only [List.mem_cons, not_or] at hp
      exact hfs p hp.1

theorem good_written (ts : List String) : ∀ e ∈ ts.map Event.written, e.Good := by
  intro e he
  obtain ⟨t, _, rfl⟩ := List.mem_map.mp he
  trivial

/-- **C82** (style sheets). The status is zero if and only if nothing went wrong. Then all targets are files that have been written. In any case, no program has been started,
and nothing but targets has been changed. -/
theorem C82_sass {opts : Members} {src : String} {ts : List String} (hsrc : Kvs.lookup "source_file" opts = some (.str src)) (ht : targetsOf opts = some ts) (hne : ts ≠ [])
    (h : Exec programs (sass opts) fs es st fs') :
    (st = 0 ↔ ∀ e ∈ es, e.Good) ∧ (st = 0 → es = ts.map Event.written ∧ ∀ t ∈ ts, ∃ c, fs' t = some (.file c)) ∧ ∀ p, p ∉ ts → fs' p = fs p := by
  obtain ⟨t, ts, rfl⟩ := List.exists_cons_of_ne_nil hne
  have e : sass opts = .attempt fun ok => if ok then writeAll (.exit 1) (t :: ts) (.exit 0) else .exit 1 := by
    simp only [sass, ht, hsrc, Option.bind_some, Json.asString]
  rw [e] at h
  rcases exec_attempt h with h' | ⟨es', rfl, h'⟩ <;> (replace h := h'; clear h')
  · simp only [if_true] at h
    rcases exec_writeAll (by decide) h with ⟨es', fs₁, rfl, h1, h2, h3⟩ | ⟨h1, ⟨e, he, hg⟩, _, h5⟩
    · obtain ⟨rfl, rfl, rfl⟩ := exec_exit.mp h1
      rw [List.append_nil]
      exact ⟨⟨fun _ => good_written _, fun _ => rfl⟩, fun _ => ⟨rfl, h2⟩, h3⟩
    · exact ⟨⟨fun e => absurd e h1, fun hall => absurd (hall e he) hg⟩, fun e => absurd e h1, h5⟩
  · simp only [Bool.false_eq_true, if_false] at h
    obtain ⟨rfl, rfl, rfl⟩ := exec_exit.mp h
    simp [Event.Good, exitStatus]

theorem docCommand_target {env : Env} {opts : Members} {args : List String} {target : String} (h : docCommand env opts = some args) (ht : firstTarget opts = some target) :
    ∃ rest, args = "xsltproc" :: "-o" :: target :: rest := by
  simp only [docCommand, Option.bind_eq_bind, Option.bind_eq_some_iff] at h
  obtain ⟨_, _, t, ht', _, _, _, _, h⟩ := h
  obtain rfl := Option.some.inj (ht.symm.trans ht')
  split at h
  · cases h
  · exact ⟨_, (Option.some.inj h).symm⟩

/-- **C82** (documents). The status is zero if and only if nothing went wrong. Then the program has returned zero, and the first target has been written. -/
theorem C82_doc_partial (hr : programs.Returns) {env : Env} {opts : Members} {args : List String} {target : String} {others : List String}
    (hargs : docCommand env opts = some args) (ht : targetsOf opts = some (target :: others)) (h : Exec programs (docConverter env opts) fs es st fs') :
    (st = 0 ↔ ∀ e ∈ es, e.Good) ∧ (st = 0 → ∃ wrote, es = [.ran args 0 wrote] ∧ programs args fs 0 fs' wrote) ∧ (∃ rest, args = "xsltproc" :: "-o" :: target :: rest) ∧
    (st = 0 → programs.Writes args target → target ∈ es.flatMap Event.wrote) := by
  suffices hmain : (st = 0 ↔ ∀ e ∈ es, e.Good) ∧ (st = 0 → ∃ wrote, es = [.ran args 0 wrote] ∧ programs args fs 0 fs' wrote) by
    refine ⟨hmain.1, hmain.2, docCommand_target hargs (firstTarget_eq ht), fun h0 hw => ?_⟩
    obtain ⟨wrote, rfl, h1⟩ := hmain.2 h0
    simp [Event.wrote, hw _ _ _ _ h1 rfl]
  simp only [docConverter, hargs] at h
  rcases exec_attempt h with h' | ⟨es', rfl, h'⟩ <;> (replace h := h'; clear h')
  · simp only [if_true] at h
    rcases exec_run h with ⟨rc, fs₁, wrote, es', h1, rfl, h2⟩ | ⟨es', rfl, h2⟩
    · rcases exec_attempt h2 with h' | ⟨es'', rfl, h'⟩ <;> (replace h2 := h'; clear h')
      · simp only [if_true] at h2
        obtain ⟨rfl, rfl, rfl⟩ := exec_exit.mp h2
        have hz := exitStatus_zero (hr _ _ _ _ _ h1)
        refine ⟨by simp [Event.Good, hz], fun h0 => ?_⟩
        obtain rfl := hz.mp h0
        exact ⟨_, rfl, h1⟩
      · simp only [Bool.false_eq_true, if_false] at h2
        obtain ⟨rfl, rfl, rfl⟩ := exec_exit.mp h2
        simp [Event.Good, exitStatus]
    · obtain ⟨rfl, rfl, rfl⟩ := exec_exit.mp h2
      simp [Event.Good, exitStatus]
  · simp only [Bool.false_eq_true, if_false] at h
    obtain ⟨rfl, rfl, rfl⟩ := exec_exit.mp h
    simp [Event.Good, exitStatus]

/-- A document in the directory that is the root of the project cannot be converted: the name of its directory is empty, and recipes/doc2html.py fails without having started anything. -/
theorem C82_doc_top {env : Env} {opts : Members} {src : String} (hsrc : Kvs.lookup "source_file" opts = some (.str src)) (hd : env.dirname src = "")
    (h : Exec programs (docConverter env opts) fs es st fs') : es = [] ∧ st = 1 ∧ fs' = fs := by
  have e : docCommand env opts = none := by
    simp only [docCommand, hsrc, Option.bind_some, Json.asString, hd, if_true, Option.bind_eq_bind, Option.bind_none, Option.bind_fun_none]
  simp only [docConverter, e] at h
  exact exec_exit.mp h

/-- **C82** (text). If the status is zero, then the program could be started, and the first target is a file that has been written. Whatever the program returns is ignored
(see `C82_markdown_false`). -/
theorem C82_markdown_partial {opts : Members} {src target : String} {others : List String} (hsrc : Kvs.lookup "source_file" opts = some (.str src))
    (ht : targetsOf opts = some (target :: others)) (h : Exec programs (markdown opts) fs es st fs') :
    ((∀ e ∈ es, e.Good) → st = 0) ∧ (st = 0 → (∃ rc wrote, es = [.ran ["pandoc", "-f", "markdown", "-t", "html", "--section-divs", src] rc wrote, .written target]) ∧
      ∃ c, fs' target = some (.file c)) := by
  simp only [markdown, ht, hsrc, Option.bind_some, Json.asString] at h
  rcases exec_run h with ⟨rc, fs₁, wrote, es', h1, rfl, h2⟩ | ⟨es', rfl, h2⟩
  · rcases exec_attempt h2 with h' | ⟨es'', rfl, h'⟩ <;> (replace h2 := h'; clear h')
    · simp only [if_true] at h2
      rcases exec_write h2 with ⟨c, es'', rfl, h3⟩ | ⟨es'', fs₂, rfl, h3, _⟩
      · simp only [if_true] at h3
        obtain ⟨rfl, rfl, rfl⟩ := exec_exit.mp h3
        exact ⟨fun _ => rfl, fun _ => ⟨⟨rc, wrote, rfl⟩, c, by simp [Files.put]⟩⟩
      · simp only [Bool.false_eq_true, if_false] at h3
        obtain ⟨rfl, rfl, rfl⟩ := exec_exit.mp h3
        simp [Event.Good, exitStatus]
    · simp only [Bool.false_eq_true, if_false] at h2
      obtain ⟨rfl, rfl, rfl⟩ := exec_exit.mp h2
      simp [Event.Good, exitStatus]
  · obtain ⟨rfl, rfl, rfl⟩ := exec_exit.mp h2
    simp [Event.Good, exitStatus]

/-- What recipes/vcslog.py does when it has got the log. -/
theorem exec_log {target dir cache : String} {st : Nat} (h : Exec programs (.write target fun ok => if ok then .mkdir dir fun r =>
      if r = .failed then .exit (-1) else .write cache fun ok => if ok then .exit 0 else .exit (-1) else .exit (-1)) fs es st fs') :
    (st = 0 ↔ ∀ e ∈ es, e.Good) ∧ (st = 0 → ∃ r, es = [.written target, .mkdir dir r, .written cache] ∧ ∃ c, fs' target = some (.file c)) ∧
    ∀ p, p ≠ target → p ≠ dir → p ≠ cache → fs' p = fs p := by
  rcases exec_write h with ⟨c, es', rfl, h'⟩ | ⟨es', fs₁, rfl, h', hfs⟩ <;> (replace h := h'; clear h')
  · simp only [if_true] at h
    have hrest : ∀ {fs₁ es r}, Exec programs (.write cache fun ok => if ok then .exit 0 else .exit (-1)) fs₁ es st fs' → fs₁ target = some (.file c) →
        r ≠ .failed → (st = 0 ↔ ∀ e ∈ Event.written target :: .mkdir dir r :: es, e.Good) ∧
        (st = 0 → es = [.written cache] ∧ ∃ c, fs' target = some (.file c)) ∧ ∀ p, p ≠ cache → fs' p = fs₁ p := by
      intro fs₁ es r h hf hrf
      rcases exec_write h with ⟨c', es', rfl, h'⟩ | ⟨es', fs₂, rfl, h', hfs⟩ <;> (replace h := h'; clear h')
      · simp only [if_true] at h
        obtain ⟨rfl, rfl, rfl⟩ := exec_exit.mp h
        refine ⟨⟨fun _ => by simp [Event.Good, hrf], fun _ => rfl⟩, fun _ => ⟨rfl, ?_⟩, fun p hp => by simp [Files.put, hp]⟩
        by_cases he : target = cache
        · exact ⟨c', by simp [Files.put, he]⟩
        · exact ⟨c, by simp [Files.put, he, hf]⟩
      · simp only [Bool.false_eq_true, if_false] at h
        obtain ⟨rfl, rfl, rfl⟩ := exec_exit.mp h
        exact ⟨by simp [Event.Good, exitStatus], by simp [exitStatus], hfs⟩
    cases h with
    | made h1 h2 =>
      simp only [reduceCtorEq, if_false] at h2
      have hd : dir ≠ target := by rintro rfl; simp [Files.put] at h1
      obtain ⟨a1, a2, a3⟩ := hrest (r := .made) h2 (by simp [Files.put, hd.symm]) (by simp)
      exact ⟨a1, fun h0 => by obtain ⟨rfl, hc⟩ := a2 h0; exact ⟨_, rfl, hc⟩, fun p p1 p2 p3 => by rw [a3 p p3]; simp [Files.put, p1, p2]⟩
    | existed h1 h2 =>
      simp only [reduceCtorEq, if_false] at h2
      obtain ⟨a1, a2, a3⟩ := hrest (r := .existed) h2 (by simp [Files.put]) (by simp)
      exact ⟨a1, fun h0 => by obtain ⟨rfl, hc⟩ := a2 h0; exact ⟨_, rfl, hc⟩, fun p p1 p2 p3 => by rw [a3 p p3]; simp [Files.put, p1]⟩
    | mkdirFailed h =>
      simp only [if_true] at h
      obtain ⟨rfl, rfl, rfl⟩ := exec_exit.mp h
      exact ⟨by simp [Event.Good, exitStatus], by simp [exitStatus], fun p p1 _ _ => by simp [Files.put, p1]⟩
  · simp only [Bool.false_eq_true, if_false] at h
    obtain ⟨rfl, rfl, rfl⟩ := exec_exit.mp h
    exact ⟨by simp [Event.Good, exitStatus], by simp [exitStatus], fun p p1 _ _ => hfs p p1⟩

/-- **C82** (revision log). If nothing went wrong, then the status is zero. If the status is zero, then nothing but reading the repository went wrong, the first target is a file that has been
written, and so has been the cache. In any case, nothing but the first target and the cache has been changed. -/
theorem C82_vcslog_partial {opts : Members} {target srcDir : String} {others : List String} (ht : targetsOf opts = some (target :: others))
    (hd : (infoField opts "source_dir").bind Json.asString = some srcDir) (h : Exec programs (vcsLog opts) fs es st fs') :
    ((∀ e ∈ es, e.Good) → st = 0) ∧
    (st = 0 → (∃ r, es.filter (· ≠ .raised) = [.written target, .mkdir (srcDir ++ "/__buildcache") r, .written (srcDir ++ "/__buildcache/vcslog.json")] ∧ r ≠ .failed) ∧
      es.count .raised ≤ 1 ∧ ∃ c, fs' target = some (.file c)) ∧
    ∀ p, p ≠ target → p ≠ srcDir ++ "/__buildcache" → p ≠ srcDir ++ "/__buildcache/vcslog.json" → fs' p = fs p := by
  simp only [vcsLog, firstTarget_eq ht, hd] at h
  have hgood : ∀ {r : Mkdir} {a b c : String}, (∀ e ∈ [Event.written a, .mkdir b r, .written c], e.Good) → r ≠ .failed := by
    intro r a b c h
    simpa [Event.Good] using h
  rcases exec_attempt h with h' | ⟨es', rfl, h'⟩ <;> (replace h := h'; clear h')
  · simp only [if_true] at h
    obtain ⟨a1, a2, a3⟩ := exec_log h
    refine ⟨a1.mpr, fun h0 => ?_, a3⟩
    obtain ⟨r, rfl, hc⟩ := a2 h0
    exact ⟨⟨r, by simp, hgood (a1.mp h0)⟩, by simp, hc⟩
  · simp only [Bool.false_eq_true, if_false] at h
    rcases exec_attempt h with h' | ⟨es', rfl, h'⟩ <;> (replace h := h'; clear h')
    · simp only [if_true] at h
      obtain ⟨a1, a2, a3⟩ := exec_log h
      refine ⟨fun hg => absurd (hg _ List.mem_cons_self) id, fun h0 => ?_, a3⟩
      obtain ⟨r, rfl, hc⟩ := a2 h0
      exact ⟨⟨r, by simp, hgood (a1.mp h0)⟩, by simp, hc⟩
    · simp only [Bool.false_eq_true, if_false] at h
      obtain ⟨rfl, rfl, rfl⟩ := exec_exit.mp h
      exact ⟨fun hg => absurd (hg _ List.mem_cons_self) id, by simp [exitStatus], fun _ _ _ _ => rfl⟩

namespace StatusExample

/-- **C82 is false**: a failure of `pandoc` is not reported by recipes/md2htmlpart.py. -/
theorem C82_markdown_false : ∃ programs : Programs, programs.Returns ∧ ∃ opts fs es fs', targetsOf opts = some ["b.html"] ∧ Exec programs (markdown opts) fs es 0 fs' ∧ ∃ e ∈ es, ¬ e.Good := by
  refine ⟨does (fun _ => 1) [], returns (by simp), opts "a.md" [] [.str "b.html"], fun _ => none,
    [.ran ["pandoc", "-f", "markdown", "-t", "html", "--section-divs", "a.md"] 1 [], .written "b.html"], Files.put (fun _ => none) "b.html" (.file []), rfl, ?_, .ran _ 1 [], List.mem_cons_self, by simp [Event.Good]⟩
  have e : markdown (opts "a.md" [] [.str "b.html"]) = .run ["pandoc", "-f", "markdown", "-t", "html", "--section-divs", "a.md"] fun rc =>
      match rc with
      | none => .exit 1
      | some _ => .attempt fun ok => if ok then .write "b.html" fun ok => if ok then .exit 0 else .exit 1 else .exit 1 := rfl
  rw [e]
  refine .ran ⟨rfl, rfl, rfl⟩ (.done ?_)
  simp only [if_true]
  exact .wrote (c := []) (by simp) .exit

/-- The name of the directory of `d/a.xml`. -/
def env' : Env := { env with dirname := fun _ => "d" }

/-- A style sheet with two targets, a document, a text, and a revision log whose repository cannot be read. -/
example : ∃ programs : Programs, programs.Returns ∧
    (∃ es fs', Exec programs (sass (opts "a.scss" [] [.str "a.css", .str "b.css"])) (fun _ => none) es 0 fs' ∧ es = [.written "a.css", .written "b.css"]) ∧
    (∃ args es fs', docCommand env' (opts "d/a.xml" [] [.str "a"]) = some args ∧ programs.Writes args "a" ∧
      Exec programs (docConverter env' (opts "d/a.xml" [] [.str "a"])) (fun _ => none) es 0 fs') ∧
    ∃ es fs', Exec programs (vcsLog (opts "a.vcslog" [] [.str "a.json"])) (fun _ => none) es 0 fs' ∧ .raised ∈ es := by
  have hw : ∀ args, (does (fun _ => 0) ["a"]).Writes args "a" := by
    rintro args fs rc fs' wrote ⟨_, rfl, _⟩ _
    simp
  refine ⟨does (fun _ => 0) ["a"], returns (by simp), ?_, ?_, ?_⟩
  · refine ⟨_, Files.put (Files.put (fun _ => none) "a.css" (.file [])) "b.css" (.file []), ?_, rfl⟩
    have e : sass (opts "a.scss" [] [.str "a.css", .str "b.css"]) = .attempt fun ok => if ok then writeAll (.exit 1) ["a.css", "b.css"] (.exit 0) else .exit 1 := rfl
    rw [e]
    refine .done ?_
    simp only [if_true, writeAll]
    exact .wrote (c := []) (by simp) (.wrote (c := []) (by simp [Files.put]) .exit)
  · exact ⟨_, [.ran _ 0 ["a"]], _, rfl, hw _, .done (.ran ⟨rfl, rfl, rfl⟩ (.done .exit))⟩
  · have e : vcsLog (opts "a.vcslog" [] [.str "a.json"]) =
      let rest : Script := .write "a.json" fun ok =>
        if ok then .mkdir "./__buildcache" fun r =>
          if r = .failed then .exit (-1) else .write "./__buildcache/vcslog.json" fun ok => if ok then .exit 0 else .exit (-1)
        else .exit (-1)
      .attempt fun ok => if ok then rest else .attempt fun ok => if ok then rest else .exit (-1) := rfl
    rw [e]
    exact ⟨.raised :: [.written "a.json", .mkdir "./__buildcache" .made, .written "./__buildcache/vcslog.json"], _,
      .raised (.done (.wrote (c := []) (by simp) (.made (by simp [Files.put]) (.wrote (c := []) (by simp [Files.put]) .exit)))), List.mem_cons_self⟩

end StatusExample

end Maike.Recipes
