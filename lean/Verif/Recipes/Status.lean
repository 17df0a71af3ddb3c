import Verif.Recipes.Names
import Verif.Recipes.Link

/-!
# What the status of a recipe says (C82)
-/

namespace Maike.Recipes

open Maike.Kvs (Json Members)

/-! ## Specification -/

/-- Nothing went wrong. -/
def Event.Good : Event → Prop
  | .ran _ rc _ => rc = 0
  | .notStarted _ => False
  | .copied _ _ => True
  | .copyFailed _ _ => False
  | .mkdir _ r => r ≠ .failed
  | .written _ => True
  | .writeFailed _ => False
  | .raised => False

/-- The names that have been written. -/
def Event.wrote : Event → List String
  | .ran _ _ wrote => wrote
  | .copied _ dst => [dst]
  | .mkdir p .made => [p]
  | .written p => [p]
  | _ => []

/-- What has been done, without the results. -/
inductive Action where
  | run (args : List String)
  | copy (src dst : String)
  | mkdir (p : String)
  | write (p : String)
  | other
deriving DecidableEq, Repr

def Event.action : Event → Action
  | .ran args _ _ => .run args
  | .notStarted args => .run args
  | .copied src dst => .copy src dst
  | .copyFailed src dst => .copy src dst
  | .mkdir p _ => .mkdir p
  | .written p => .write p
  | .writeFailed p => .write p
  | .raised => .other

/-- Return codes as given by `subprocess`: the status of a process, or the negative number of the signal that has terminated it. -/
def Programs.Returns (programs : Programs) : Prop := ∀ args fs rc fs' wrote, programs args fs rc fs' wrote → -64 ≤ rc ∧ rc ≤ 255

/-- The compiler, linker or archiver writes its output if it reports success. -/
def Programs.Writes (programs : Programs) (args : List String) (target : String) : Prop :=
  ∀ fs rc fs' wrote, programs args fs rc fs' wrote → rc = 0 → target ∈ wrote

/-! ## Proof -/

theorem exitStatus_zero {n : Int} (h : -64 ≤ n ∧ n ≤ 255) : exitStatus n = 0 ↔ n = 0 := by
  unfold exitStatus
  omega

variable {programs : Programs} {fs fs' : Files} {es : List Event} {st : Nat}

theorem exec_exit {n : Int} : Exec programs (.exit n) fs es st fs' ↔ es = [] ∧ st = exitStatus n ∧ fs' = fs := by
  constructor
  · intro h; cases h; exact ⟨rfl, rfl, rfl⟩
  · rintro ⟨rfl, rfl, rfl⟩; exact .exit

theorem exec_run {args : List String} {next : Option Int → Script} (h : Exec programs (.run args next) fs es st fs') :
    (∃ rc fs₁ wrote es', programs args fs rc fs₁ wrote ∧ es = .ran args rc wrote :: es' ∧ Exec programs (next (some rc)) fs₁ es' st fs') ∨
    ∃ es', es = .notStarted args :: es' ∧ Exec programs (next none) fs es' st fs' := by
  cases h with
  | ran h1 h2 => exact .inl ⟨_, _, _, _, h1, rfl, h2⟩
  | notStarted h => exact .inr ⟨_, rfl, h⟩

/-- `subprocess.run` followed by something else in `try`. -/
theorem exec_run_or {args : List String} {f : Int → Script} (h : Exec programs (.run args fun rc => orFail rc f) fs es st fs') :
    (∃ rc fs₁ wrote es', programs args fs rc fs₁ wrote ∧ es = .ran args rc wrote :: es' ∧ Exec programs (f rc) fs₁ es' st fs') ∨
    (es = [.notStarted args] ∧ st = 255) := by
  rcases exec_run h with h1 | ⟨es', rfl, h1⟩
  · exact .inl h1
  · obtain ⟨rfl, rfl, rfl⟩ := exec_exit.mp h1
    exact .inr ⟨rfl, rfl⟩

theorem exec_runOnly (hr : programs.Returns) {args : List String} (h : Exec programs (runOnly args) fs es st fs') :
    (st = 0 ↔ ∀ e ∈ es, e.Good) ∧ es.map Event.action = [.run args] ∧ (st = 0 → ∃ wrote, es = [.ran args 0 wrote] ∧ programs args fs 0 fs' wrote) := by
  rcases exec_run_or h with ⟨rc, fs₁, wrote, es', h1, rfl, h2⟩ | ⟨rfl, rfl⟩
  · obtain ⟨rfl, rfl, rfl⟩ := exec_exit.mp h2
    have hz := exitStatus_zero (hr _ _ _ _ _ h1)
    refine ⟨by simp [hz, Event.Good], rfl, fun h0 => ?_⟩
    obtain rfl := hz.mp h0
    exact ⟨wrote, rfl, h1⟩
  · simp [Event.Good, Event.action]

/-- A loop that copies a file. -/
theorem exec_copyAll {src : String} {n : Int} (hn : exitStatus n ≠ 0) {ts : List String} {next : Script}
    (h : Exec programs (copyAll src (.exit n) ts next) fs es st fs') :
    (∃ es' fs₁, es = ts.map (Event.copied src) ++ es' ∧ Exec programs next fs₁ es' st fs' ∧ src ∉ ts ∧ fs₁ src = fs src ∧ (∀ t ∈ ts, fs₁ t = fs src) ∧
      (∀ p, p ∉ ts → fs₁ p = fs p) ∧ (ts ≠ [] → ∃ c, fs src = some (.file c))) ∨
    (st ≠ 0 ∧ (∃ e ∈ es, ¬ e.Good) ∧ ∀ e ∈ es, ∃ t ∈ ts, e.action = .copy src t) := by
  induction ts generalizing fs es with
  | nil => exact .inl ⟨es, fs, rfl, h, by simp, rfl, by simp, by simp, by simp⟩
  | cons t ts ih =>
    simp only [copyAll] at h
    have hfail : ∀ {fs : Files} {es'}, Exec programs (.exit n) fs es' st fs' → es = .copyFailed src t :: es' →
        st ≠ 0 ∧ (∃ e ∈ es, ¬ e.Good) ∧ ∀ e ∈ es, ∃ u ∈ t :: ts, e.action = .copy src u := by
      intro fs es' h e
      obtain ⟨rfl, rfl, rfl⟩ := exec_exit.mp h
      subst e
      exact ⟨hn, ⟨.copyFailed src t, by simp, id⟩, by simp [Event.action]⟩
    cases h with
    | copied h1 h2 h3 h4 =>
      rename_i c es'
      simp only [if_true] at h4
      have hsrc : (fs.put t (.file c)) src = fs src := by simp [Files.put, h2]
      rcases ih h4 with ⟨es'', fs₁, rfl, a1, a2, a3, a4, a5, a6⟩ | ⟨a1, ⟨e, a2, a3⟩, a4⟩
      · refine .inl ⟨es'', fs₁, rfl, a1, by simp [h2, a2], by rw [a3, hsrc], ?_, ?_, fun _ => ⟨c, h1⟩⟩
        · intro u hu
          by_cases hm : u ∈ ts
          · rw [a4 u hm, hsrc]
          · have : u = t := by simpa [hm] using hu
            subst this
            rw [a5 _ hm, h1]
            simp [Files.put]
        · intro p hp
          simp only [List.mem_cons, not_or] at hp
          rw [a5 p hp.2]
          simp [Files.put, hp.1]
      · refine .inr ⟨a1, ⟨e, by simp [a2], a3⟩, ?_⟩
        intro e he
        rcases List.mem_cons.mp he with rfl | he
        · exact ⟨t, by simp, rfl⟩
        · obtain ⟨u, hu, e'⟩ := a4 e he
          exact ⟨u, by simp [hu], e'⟩
    | copyFailed h => exact .inr (hfail h rfl)
    | copyPart _ _ h => exact .inr (hfail h rfl)

theorem good_copied (src : String) (ts : List String) : ∀ e ∈ ts.map (Event.copied src), e.Good := by
  intro e he
  obtain ⟨t, _, rfl⟩ := List.mem_map.mp he
  trivial

/-- What is started when the target has been made. -/
def after (acts : List String) (src target : String) (args : List String) : List Action :=
  (if "run" ∈ acts then [.run [target]] else []) ++
  if "sanitize" ∈ acts then [.run (["clang-tidy", src, "--", "-Wno-unknown-warning-option"] ++ args)] else []

theorem exec_tidy (hr : programs.Returns) {acts : List String} {src : String} {args : List String} {rc : Int} (hrc : -64 ≤ rc ∧ rc ≤ 255)
    (h : Exec programs (tidy acts src args rc) fs es st fs') :
    (rc ≠ 0 → st ≠ 0 ∧ es = []) ∧ (rc = 0 → (st = 0 ↔ ∀ e ∈ es, e.Good) ∧
      es.map Event.action = if "sanitize" ∈ acts then [.run (["clang-tidy", src, "--", "-Wno-unknown-warning-option"] ++ args)] else []) := by
  unfold tidy at h
  split at h
  · rename_i hs
    refine ⟨fun h0 => absurd hs.2 h0, fun _ => ?_⟩
    obtain ⟨h1, h2, _⟩ := exec_runOnly hr h
    simp [h1, h2, hs.1]
  · rename_i hs
    obtain ⟨rfl, rfl, rfl⟩ := exec_exit.mp h
    refine ⟨fun h0 => ⟨fun e => h0 ((exitStatus_zero hrc).mp e), rfl⟩, ?_⟩
    rintro rfl
    have : ¬ "sanitize" ∈ acts := fun h => hs ⟨h, rfl⟩
    simp [this, exitStatus]

theorem exec_runTarget (hr : programs.Returns) {acts : List String} {src target : String} {args : List String} {rc : Int} (hrc : -64 ≤ rc ∧ rc ≤ 255)
    (hl : "run" ∈ acts → "link" ∈ acts) (h : Exec programs (runTarget acts src target args rc) fs es st fs') :
    (rc ≠ 0 → st ≠ 0 ∧ es = []) ∧ (rc = 0 → (st = 0 ↔ ∀ e ∈ es, e.Good) ∧ (st = 0 → es.map Event.action = after acts src target args)) := by
  unfold runTarget at h
  split at h
  · rename_i hs
    rw [if_pos (hl hs.1)] at h
    refine ⟨fun h0 => absurd hs.2 h0, fun _ => ?_⟩
    rcases exec_run_or h with ⟨rc', fs₁, wrote, es', h1, rfl, h2⟩ | ⟨rfl, rfl⟩
    · obtain ⟨a1, a2⟩ := exec_tidy hr (hr _ _ _ _ _ h1) h2
      by_cases h0 : rc' = 0
      · obtain ⟨b1, b2⟩ := a2 h0
        refine ⟨?_, fun _ => ?_⟩
        · rw [b1]; simp [Event.Good, h0]
        · simp only [List.map_cons, b2, after, if_pos hs.1]
          rfl
      · obtain ⟨b1, rfl⟩ := a1 h0
        refine ⟨?_, fun e => absurd e b1⟩
        simp [Event.Good, h0, b1]
    · simp [Event.Good]
  · rename_i hs
    obtain ⟨a1, a2⟩ := exec_tidy hr hrc h
    refine ⟨a1, fun h0 => ?_⟩
    obtain ⟨b1, b2⟩ := a2 h0
    have : ¬ "run" ∈ acts := fun h => hs ⟨h, h0⟩
    exact ⟨b1, fun _ => by rw [b2]; simp [after, this]⟩

theorem firstTarget_eq {opts : Members} {target : String} {others : List String} (h : targetsOf opts = some (target :: others)) : firstTarget opts = some target := by
  simp only [targetsOf, Option.bind_eq_some_iff] at h
  obtain ⟨v, hv, l, hl, h⟩ := h
  cases l with
  | nil => simp [strings] at h
  | cons a l =>
    simp only [strings, Option.bind_eq_bind, Option.bind_eq_some_iff, Option.some.injEq, List.cons.injEq] at h
    obtain ⟨s, hs, _, _, rfl, _⟩ := h
    simp [firstTarget, hv, hl, hs]

theorem compileCommand_target {env : Env} {opts : Members} {args : List String} {target : String} (h : compileCommand env opts = some args)
    (ht : firstTarget opts = some target) : ∃ init, args = init ++ ["-o", target] := by
  simp only [compileCommand, Option.bind_eq_bind, Option.bind_eq_some_iff] at h
  obtain ⟨_, _, _, _, _, _, _, _, _, _, _, _, _, _, _, _, _, _, _, _, _, _, _, _, t, ht', h⟩ := h
  obtain rfl := Option.some.inj (ht.symm.trans ht')
  exact ⟨_, (Option.some.inj h).symm⟩

theorem linkCommand_target {cc : String} {pkg : Pkg} {opts : Members} {args : List String} {target : String} (h : linkCommand cc pkg opts = some args)
    (ht : firstTarget opts = some target) : ∃ init, args = init ++ ["-o", target] := by
  simp only [linkCommand, Option.bind_eq_bind, Option.bind_eq_some_iff] at h
  obtain ⟨_, _, _, _, _, _, _, _, _, _, _, _, t, ht', h⟩ := h
  obtain rfl := Option.some.inj (ht.symm.trans ht')
  exact ⟨_, (Option.some.inj h).symm⟩

theorem archiveCommand_target {ar : String} {opts : Members} {args : List String} {target : String} (h : archiveCommand ar opts = some args)
    (ht : firstTarget opts = some target) : ∃ members, args = ar :: "rcs" :: target :: members := by
  simp only [archiveCommand, Option.bind_eq_bind, Option.bind_eq_some_iff] at h
  obtain ⟨t, ht', _, _, _, _, _, _, h⟩ := h
  obtain rfl := Option.some.inj (ht.symm.trans ht')
  exact ⟨_, (Option.some.inj h).symm⟩

/-! ## Theorems -/

/-- **C82** (compiler). For a file that is not a header, and options that are understood: the status is zero if and only if nothing went wrong, i. e. all
programs could be started and returned zero, and everything has been copied. Then these have been performed, in this order: the compilation, one copy for each further
target, the program that has been made (if asked for), and `clang-tidy` (if asked for); and all targets have been written. -/
theorem C82_compiler_partial (hr : programs.Returns) {env : Env} {opts : Members} {src target : String} {others args acts : List String} {cfg : Json}
    (hsrc : Kvs.lookup "source_file" opts = some (.str src)) (hh : ¬ IsHeaderName src) (hcfg : Kvs.lookup "compiler_cfg" opts = some cfg)
    (hacts : actions cfg = some acts) (hl : "run" ∈ acts → "link" ∈ acts) (ht : targetsOf opts = some (target :: others))
    (hargs : compileCommand env opts = some args) (h : Exec programs (compiler env opts) fs es st fs') :
    (st = 0 ↔ ∀ e ∈ es, e.Good) ∧
    (st = 0 → es.map Event.action = .run args :: others.map (.copy target) ++ after acts src target args) ∧
    (∃ init, args = init ++ ["-o", target]) ∧ (st = 0 → programs.Writes args target → ∀ t ∈ target :: others, t ∈ es.flatMap Event.wrote) := by
  suffices hmain : (st = 0 ↔ ∀ e ∈ es, e.Good) ∧
      (st = 0 → es.map Event.action = .run args :: others.map (.copy target) ++ after acts src target args) ∧
      (st = 0 → programs.Writes args target → ∀ t ∈ target :: others, t ∈ es.flatMap Event.wrote) from
    ⟨hmain.1, hmain.2.1, compileCommand_target hargs (firstTarget_eq ht), hmain.2.2⟩
  have e : compiler env opts = .run args fun rc => orFail rc fun rc => copyAll target (.exit (-1)) others (runTarget acts src target args rc) := by
    simp [compiler, hsrc, Json.asString, orFail, not_header hh, hargs, hcfg, hacts, ht]
  rw [e] at h
  rcases exec_run_or h with ⟨rc, fs₁, wrote, es', h1, rfl, h2⟩ | ⟨rfl, rfl⟩
  · rcases exec_copyAll (by decide) h2 with ⟨es'', fs₂, rfl, h3, _⟩ | ⟨h3, ⟨e, he, hg⟩, _⟩
    · obtain ⟨a1, a2⟩ := exec_runTarget hr (hr _ _ _ _ _ h1) hl h3
      by_cases h0 : rc = 0
      · obtain ⟨b1, b2⟩ := a2 h0
        refine ⟨?_, fun hs => ?_, fun hs hw t ht => ?_⟩
        · rw [b1]
          simp only [List.forall_mem_cons, List.forall_mem_append]
          exact ⟨fun h => ⟨h0, good_copied _ _, h⟩, fun h => h.2.2⟩
        · simp only [List.map_cons, List.map_append, List.map_map, b2 hs]
          rfl
        · simp only [List.flatMap_cons, List.flatMap_append, List.mem_append]
          rcases List.mem_cons.mp ht with rfl | ht
          · exact .inl (hw _ _ _ _ h1 h0)
          · exact .inr (.inl (List.mem_flatMap.mpr ⟨_, List.mem_map.mpr ⟨t, ht, rfl⟩, by simp [Event.wrote]⟩))
      · obtain ⟨b1, rfl⟩ := a1 h0
        refine ⟨⟨fun e => absurd e b1, fun hg => absurd (hg _ (List.mem_cons_self)) h0⟩, fun e => absurd e b1, fun e => absurd e b1⟩
    · exact ⟨⟨fun e => absurd e h3, fun hall => absurd (hall e (by simp [he])) hg⟩, fun e => absurd e h3, fun e => absurd e h3⟩
  · simp [Event.Good]

/-- **C82** (linker and archiver). The status is zero if and only if the command succeeded. Then the first target has been written. -/
theorem C82_linker_partial (hr : programs.Returns) {cc : String} {pkg : Pkg} {opts : Members} {args : List String} {target : String} {others : List String}
    (hargs : linkCommand cc pkg opts = some args) (ht : targetsOf opts = some (target :: others)) (h : Exec programs (linker cc pkg opts) fs es st fs') :
    (st = 0 ↔ ∀ e ∈ es, e.Good) ∧ es.map Event.action = [.run args] ∧ (∃ init, args = init ++ ["-o", target]) ∧ (st = 0 → programs.Writes args target → target ∈ es.flatMap Event.wrote) := by
  simp only [linker, hargs, orFail] at h
  obtain ⟨h1, h2, h3⟩ := exec_runOnly hr h
  refine ⟨h1, h2, linkCommand_target hargs (firstTarget_eq ht), fun h0 hw => ?_⟩
  obtain ⟨wrote, rfl, h4⟩ := h3 h0
  simp [Event.wrote, hw _ _ _ _ h4 rfl]

theorem C82_archiver_partial (hr : programs.Returns) {ar : String} {opts : Members} {args : List String} {target : String} {others : List String}
    (hargs : archiveCommand ar opts = some args) (ht : targetsOf opts = some (target :: others)) (h : Exec programs (archiver ar opts) fs es st fs') :
    (st = 0 ↔ ∀ e ∈ es, e.Good) ∧ es.map Event.action = [.run args] ∧ (∃ members, args = ar :: "rcs" :: target :: members) ∧ (st = 0 → programs.Writes args target → target ∈ es.flatMap Event.wrote) := by
  simp only [archiver, hargs, orFail] at h
  obtain ⟨h1, h2, h3⟩ := exec_runOnly hr h
  refine ⟨h1, h2, archiveCommand_target hargs (firstTarget_eq ht), fun h0 hw => ?_⟩
  obtain ⟨wrote, rfl, h4⟩ := h3 h0
  simp [Event.wrote, hw _ _ _ _ h4 rfl]

/-- **C82** (copies). The status is zero if and only if nothing went wrong. Then all targets have the content of the source, which has not been changed, and nothing else has been
changed. -/
theorem C82_copier {opts : Members} {src : String} {ts : List String} (hsrc : Kvs.lookup "source_file" opts = some (.str src)) (ht : targetsOf opts = some ts)
    (h : Exec programs (copier opts) fs es st fs') :
    (st = 0 ↔ ∀ e ∈ es, e.Good) ∧ (st = 0 → (∀ t ∈ ts, t ∈ es.flatMap Event.wrote ∧ ∃ c, fs src = some (.file c) ∧ fs' t = some (.file c)) ∧ ∀ p, p ∉ ts → fs' p = fs p) := by
  have e : copier opts = copyAll src (.exit 1) ts (.exit 0) := by simp [copier, hsrc, Json.asString, ht]
  rw [e] at h
  rcases exec_copyAll (by decide) h with ⟨es', fs₁, rfl, h1, h2, h3, h4, h5, h6⟩ | ⟨h1, ⟨e, he, hg⟩, _⟩
  · obtain ⟨rfl, rfl, rfl⟩ := exec_exit.mp h1
    refine ⟨⟨fun _ => by simpa using good_copied src ts, fun _ => rfl⟩, fun _ => ⟨fun t hm => ⟨?_, ?_⟩, h5⟩⟩
    · exact List.mem_flatMap.mpr ⟨.copied src t, by simp [hm], by simp [Event.wrote]⟩
    · obtain ⟨c, hc⟩ := h6 (List.ne_nil_of_mem hm)
      exact ⟨c, hc, (h4 t hm).trans hc⟩
  · exact ⟨⟨fun e => absurd e h1, fun hall => absurd (hall e he) hg⟩, fun e => absurd e h1⟩

theorem exec_makeAll {ts : List String} (h : Exec programs (makeAll ts) fs es st fs') :
    (st = 0 ↔ ∀ e ∈ es, e.Good) ∧ (∀ p n, fs p = some n → fs' p = some n) ∧
    (st = 0 → (∀ t ∈ ts, fs' (withoutDot t) = some .dir ∨ fs' (withoutDot t) = fs (withoutDot t) ∧ fs' (withoutDot t) ≠ none) ∧
      ∀ p, p ∉ ts.map withoutDot → fs' p = fs p) := by
  induction ts generalizing fs es with
  | nil =>
    obtain ⟨rfl, rfl, rfl⟩ := exec_exit.mp h
    simp [exitStatus]
  | cons t ts ih =>
    simp only [makeAll] at h
    cases h with
    | made h1 h2 =>
      simp only [reduceCtorEq, if_false] at h2
      obtain ⟨a1, a2, a3⟩ := ih h2
      have hput : ∀ p n, fs p = some n → fs.put (withoutDot t) .dir p = some n := by
        intro p n hp
        have : p ≠ withoutDot t := by rintro rfl; rw [h1] at hp; cases hp
        simp [Files.put, this, hp]
      refine ⟨by rw [a1]; simp [Event.Good], fun p n hp => a2 p n (hput p n hp), fun h0 => ?_⟩
      obtain ⟨b1, b2⟩ := a3 h0
      refine ⟨fun u hu => ?_, fun p hp => ?_⟩
      · rcases List.mem_cons.mp hu with rfl | hu
        · exact .inl (a2 _ _ (by simp [Files.put]))
        · rcases b1 u hu with h | ⟨h, h'⟩
          · exact .inl h
          · by_cases he : withoutDot u = withoutDot t
            · left; rw [he]; exact a2 _ _ (by simp [Files.put])
            · right; refine ⟨?_, h'⟩; rw [h]; simp [Files.put, he]
      · simp only [List.map_cons, List.mem_cons, not_or] at hp
        rw [b2 p hp.2]
        simp [Files.put, hp.1]
    | existed h1 h2 =>
      simp only [reduceCtorEq, if_false] at h2
      obtain ⟨a1, a2, a3⟩ := ih h2
      refine ⟨by rw [a1]; simp [Event.Good], a2, fun h0 => ?_⟩
      obtain ⟨b1, b2⟩ := a3 h0
      refine ⟨fun u hu => ?_, fun p hp => ?_⟩
      · rcases List.mem_cons.mp hu with rfl | hu
        · obtain ⟨n, hn⟩ := Option.ne_none_iff_exists'.mp h1
          right
          rw [a2 _ _ hn]
          simp [hn]
        · exact b1 u hu
      · simp only [List.map_cons, List.mem_cons, not_or] at hp
        exact b2 p hp.2
    | mkdirFailed h =>
      simp only [if_true] at h
      obtain ⟨rfl, rfl, rfl⟩ := exec_exit.mp h
      refine ⟨by simp [Event.Good, exitStatus], fun p n hp => hp, fun h0 => ?_⟩
      simp [exitStatus] at h0

/-- **C82** (directories). The status is zero if and only if nothing went wrong. If no target is the name of something that is not a directory, then all targets are directories afterwards, and
nothing else has been changed. A final `/.` of a name does not matter. -/
theorem C82_directory_partial {opts : Members} {ts : List String} (ht : targetsOf opts = some ts) (h : Exec programs (directoryMaker opts) fs es st fs') :
    (st = 0 ↔ ∀ e ∈ es, e.Good) ∧ (∀ p n, fs p = some n → fs' p = some n) ∧
    (st = 0 → (∀ t ∈ ts, ∀ d, Directory t d → fs' d = some .dir ∨ ∃ c, fs d = some (.file c)) ∧ ∀ p, (∀ t ∈ ts, ¬ Directory t p) → fs' p = fs p) := by
  simp only [directoryMaker, ht, orFail] at h
  obtain ⟨h1, h2, h3⟩ := exec_makeAll h
  refine ⟨h1, h2, fun h0 => ⟨fun t hm d hd => ?_, fun p hp => (h3 h0).2 p fun hm => ?_⟩⟩
  · rw [(directory_withoutDot _ _).mp hd]
    rcases (h3 h0).1 t hm with h | ⟨h, h'⟩
    · exact .inl h
    · obtain ⟨n, hn⟩ := Option.ne_none_iff_exists'.mp h'
      cases n with
      | dir => exact .inl hn
      | file c => exact .inr ⟨c, h ▸ hn⟩
  · obtain ⟨t, ht, rfl⟩ := List.mem_map.mp hm
    exact hp t ht ((directory_withoutDot _ _).mpr rfl)

end Maike.Recipes
