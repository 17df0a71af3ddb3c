import Verif.Build.Serial
import Verif.Build.Promises

/-!
# The recipes of maike, and what they read (C94)
-/

namespace Maike.Build

open Maike.Recipes
open Maike.Kvs (Json Members)

variable {P V : Type}

/-! ## Specification -/

/-- A program that is called with these arguments reads nothing but files in `known`, and when it returns zero, then what it has written to the target is determined by what it has read. -/
structure Effects.Determines {tools : Tools P} (eff : Effects P V tools) (known : P → Prop) (args : List String) (target : String) : Prop where
  makes : tools.Makes args target
  reads : ∀ q, eff.reads args q → known q
  unique : ∀ c c₁ c₂, eff.result args c 0 c₁ → eff.result args c 0 c₂ → c₁ (tools.name target) = c₂ (tools.name target)

/-- A program that is called with these arguments does not write files of the project, and reads nothing but files in `known`. -/
structure Effects.Looks {tools : Tools P} (eff : Effects P V tools) (known : P → Prop) (args : List String) : Prop where
  harmless : tools.Harmless args
  reads : ∀ q, eff.reads args q → known q

/-- What a recipe writes itself depends on nothing but files in `known`, and is determined by these. -/
structure Effects.Converts {tools : Tools P} (eff : Effects P V tools) (known : P → Prop) (target : String) : Prop where
  reads : ∀ q, eff.textReads target q → known q
  unique : ∀ c v₁ v₂, eff.text target c v₁ → eff.text target c v₂ → v₁ = v₂

/-- The recipe `script` with options `opts` is one of the recipes of maike, and what it and its programs do is determined by files in `known`. The recipe vcslog.py is not one of these, because it reads
the repository, and neither is generic.py, which succeeds even if its program does not. -/
inductive Faithful {tools : Tools P} (eff : Effects P V tools) (known : P → Prop) (opts : Members) : Script → Prop
  | compiler {env : Recipes.Env} {src target : String} {others : List String} : Kvs.lookup "source_file" opts = some (.str src) → ¬ IsHeaderName src →
      targetsOf opts = some (target :: others) → known (tools.name target) →
      (∀ args, compileCommand env opts = some args → eff.Determines known args target ∧ eff.Looks known [target] ∧
        eff.Looks known (["clang-tidy", src, "--", "-Wno-unknown-warning-option"] ++ args)) → Faithful eff known opts (compiler env opts)
  | linker {cc : String} {pkg : Pkg} {target : String} : (∀ args, linkCommand cc pkg opts = some args → eff.Determines known args target) → Faithful eff known opts (linker cc pkg opts)
  | archiver {ar : String} {target : String} : (∀ args, archiveCommand ar opts = some args → eff.Determines known args target) → Faithful eff known opts (archiver ar opts)
  | copier : (∀ src, Kvs.lookup "source_file" opts = some (.str src) → known (tools.name src)) → Faithful eff known opts (copier opts)
  | directoryMaker : Faithful eff known opts (directoryMaker opts)
  | sass : (∀ ts, targetsOf opts = some ts → ∀ t ∈ ts, eff.Converts known t) → Faithful eff known opts (sass opts)
  | docConverter {env : Recipes.Env} {target : String} : (∀ args, docCommand env opts = some args → eff.Determines known args target) → Faithful eff known opts (docConverter env opts)
  | markdown : (∀ ts, targetsOf opts = some ts → ∀ t ∈ ts, eff.Converts known t) →
      (∀ src, Kvs.lookup "source_file" opts = some (.str src) → eff.Looks known ["pandoc", "-f", "markdown", "-t", "html", "--section-divs", src]) → Faithful eff known opts (markdown opts)

/-! ## Proof -/

theorem Effects.Determines.mono {tools : Tools P} {eff : Effects P V tools} {A B : P → Prop} (hab : ∀ q, A q → B q) {args : List String} {target : String} (h : eff.Determines A args target) :
    eff.Determines B args target := ⟨h.makes, fun q hq => hab q (h.reads q hq), h.unique⟩

theorem Effects.Looks.mono {tools : Tools P} {eff : Effects P V tools} {A B : P → Prop} (hab : ∀ q, A q → B q) {args : List String} (h : eff.Looks A args) :
    eff.Looks B args := ⟨h.harmless, fun q hq => hab q (h.reads q hq)⟩

theorem Effects.Converts.mono {tools : Tools P} {eff : Effects P V tools} {A B : P → Prop} (hab : ∀ q, A q → B q) {target : String} (h : eff.Converts A target) :
    eff.Converts B target := ⟨fun q hq => hab q (h.reads q hq), h.unique⟩

theorem Faithful.mono {tools : Tools P} {eff : Effects P V tools} {A B : P → Prop} {opts : Members} {script : Script} (h : Faithful eff A opts script) (hab : ∀ q, A q → B q) :
    Faithful eff B opts script := by
  cases h with
  | compiler h1 h2 h3 h4 h5 => exact .compiler h1 h2 h3 (hab _ h4) fun args ha => ⟨(h5 args ha).1.mono hab, (h5 args ha).2.1.mono hab, (h5 args ha).2.2.mono hab⟩
  | linker h => exact .linker fun args ha => (h args ha).mono hab
  | archiver h => exact .archiver fun args ha => (h args ha).mono hab
  | copier h => exact .copier fun src hs => hab _ (h src hs)
  | directoryMaker => exact .directoryMaker
  | sass h => exact .sass fun ts hts t ht => (h ts hts t ht).mono hab
  | docConverter h => exact .docConverter fun args ha => (h args ha).mono hab
  | markdown h1 h2 => exact .markdown (fun ts hts t ht => (h1 ts hts t ht).mono hab) fun src hs => (h2 src hs).mono hab

variable {tools : Tools P} {eff : Effects P V tools} {inputs own : P → Prop}

theorem confined_exit {n : Int} : Confined eff inputs own (.exit n) := trivial

theorem confined_copyAll {src : String} (hsrc : inputs (tools.name src) ∨ own (tools.name src)) {fail next : Script} (hf : Confined eff inputs own fail) (hn : Confined eff inputs own next)
    {ts : List String} : Confined eff inputs own (copyAll src fail ts next) := by
  induction ts with
  | nil => exact hn
  | cons t ts ih =>
    refine ⟨hsrc, fun ok => ?_⟩
    cases ok
    · exact hf
    · exact ih

theorem confined_writeAll {fail next : Script} (hf : Confined eff inputs own fail) (hn : Confined eff inputs own next)
    {ts : List String} (hts : ∀ t ∈ ts, ∀ q, eff.textReads t q → inputs q ∨ own q) : Confined eff inputs own (writeAll fail ts next) := by
  induction ts with
  | nil => exact hn
  | cons t ts ih =>
    refine ⟨hts t (by simp), fun ok => ?_⟩
    cases ok
    · exact hf
    · exact ih fun t ht => hts t (by simp [ht])

theorem confined_makeAll {ts : List String} : Confined eff inputs own (makeAll ts) := by
  induction ts with
  | nil => exact trivial
  | cons t ts ih =>
    intro r
    dsimp only
    by_cases h : r = .failed
    · rw [if_pos h]; exact trivial
    · rw [if_neg h]; exact ih

theorem confined_runOnly {args : List String} (h : ∀ q, eff.reads args q → inputs q ∨ own q) : Confined eff inputs own (runOnly args) := by
  refine ⟨h, fun rc => ?_⟩
  cases rc <;> exact trivial

theorem confined_tidy {acts : List String} {src : String} {args : List String} {rc : Int}
    (h : ∀ q, eff.reads (["clang-tidy", src, "--", "-Wno-unknown-warning-option"] ++ args) q → inputs q ∨ own q) : Confined eff inputs own (tidy acts src args rc) := by
  unfold tidy
  split
  · refine ⟨h, fun rc => ?_⟩
    cases rc <;> exact trivial
  · exact trivial

theorem confined_runTarget {acts : List String} {src target : String} {args : List String} {rc : Int} (ht : ∀ q, eff.reads [target] q → inputs q ∨ own q)
    (h : ∀ q, eff.reads (["clang-tidy", src, "--", "-Wno-unknown-warning-option"] ++ args) q → inputs q ∨ own q) : Confined eff inputs own (runTarget acts src target args rc) := by
  unfold runTarget
  split
  · split
    · refine ⟨ht, fun rc => ?_⟩
      cases rc with
      | none => exact trivial
      | some rc => exact confined_tidy h
    · exact trivial
  · exact confined_tidy h

/-- **C94.** The recipes of maike read nothing but what their programs read, and the files that they copy. -/
theorem C94_confined {opts : Members} {script : Script} (h : Faithful eff (fun q => inputs q ∨ own q) opts script) : Confined eff inputs own script := by
  cases h with
  | @compiler env src target others hsrc hh ht hkn ha =>
    simp only [Recipes.compiler, hsrc, Option.bind_some, Json.asString, orFail, not_header hh, Bool.false_eq_true, if_false]
    cases hc : compileCommand env opts with
    | none => exact trivial
    | some args =>
      cases hacts : (Kvs.lookup "compiler_cfg" opts).bind actions with
      | none => exact trivial
      | some acts =>
        simp only [ht]
        obtain ⟨hm, hr, htd⟩ := ha args hc
        refine ⟨hm.reads, fun rc => ?_⟩
        cases rc with
        | none => exact trivial
        | some rc => exact confined_copyAll hkn confined_exit (confined_runTarget hr.reads htd.reads)
  | @linker cc pkg target ha =>
    simp only [Recipes.linker]
    cases hc : linkCommand cc pkg opts with
    | none => exact trivial
    | some args => exact confined_runOnly (ha args hc).reads
  | @archiver ar target ha =>
    simp only [Recipes.archiver]
    cases hc : archiveCommand ar opts with
    | none => exact trivial
    | some args => exact confined_runOnly (ha args hc).reads
  | copier ha =>
    simp only [Recipes.copier]
    split
    · rename_i src ts hs _
      refine confined_copyAll (ha src ?_) confined_exit confined_exit
      obtain ⟨v, h1, h2⟩ := Option.bind_eq_some_iff.mp hs
      cases v <;> simp_all [Json.asString]
    · exact trivial
  | directoryMaker =>
    simp only [Recipes.directoryMaker]
    cases targetsOf opts with
    | none => exact trivial
    | some ts => exact confined_makeAll
  | sass ha =>
    simp only [Recipes.sass]
    split
    · rename_i t ts src hts _
      intro ok
      cases ok with
      | false => exact trivial
      | true => exact confined_writeAll confined_exit confined_exit fun u hu => (ha _ hts u hu).reads
    · exact trivial
  | @docConverter env target ha =>
    simp only [Recipes.docConverter]
    cases hc : docCommand env opts with
    | none => exact trivial
    | some args =>
      intro ok
      cases ok with
      | false => exact trivial
      | true =>
        refine ⟨(ha args hc).reads, fun rc => ?_⟩
        cases rc with
        | none => exact trivial
        | some rc => intro ok; cases ok <;> exact trivial
  | markdown ha hl =>
    simp only [Recipes.markdown]
    split
    · rename_i t ts src hts hs
      refine ⟨(hl src ?_).reads, fun rc => ?_⟩
      · obtain ⟨v, h1, h2⟩ := Option.bind_eq_some_iff.mp hs
        cases v <;> simp_all [Json.asString]
      · cases rc with
        | none => exact trivial
        | some rc =>
          intro ok
          cases ok with
          | false => exact trivial
          | true =>
            refine ⟨(ha _ hts t (by simp)).reads, fun ok => ?_⟩
            cases ok <;> exact trivial
    · exact trivial

/-! ### What recipes make is determined -/

variable [DecidableEq P]

/-- A script that exits with a status other than zero does not make anything. -/
theorem not_makes_exit {n : Int} (hn : exitStatus n ≠ 0) {c c' : P → V} : ¬ MakesAlone eff (.exit n) c c' := by
  rintro ⟨m, h0, h1, _⟩
  exact hn (h1 ▸ h0)

theorem makes_exit {n : Int} {c c' : P → V} (h : MakesAlone eff (.exit n) c c') : c' = c ∧ exitStatus n = 0 := by
  obtain ⟨m, h0, h1, h2⟩ := h
  exact ⟨h2, h1 ▸ h0⟩

theorem makes_run {args : List String} {next : Option Int → Script} {c c' : P → V} (h : MakesAlone eff (.run args next) c c') :
    MakesAlone eff (next none) c c' ∨ ∃ rc c₁, (-64 ≤ rc ∧ rc ≤ 255) ∧ eff.result args c rc c₁ ∧ (∀ p, p ∉ tools.may args → c₁ p = c p) ∧ MakesAlone eff (next (some rc)) c₁ c' := by
  obtain ⟨m, h0, h | ⟨rc, c₁, h1, h2, h3, h4⟩⟩ := h
  · exact .inl ⟨m, h0, h⟩
  · exact .inr ⟨rc, c₁, h1, h2, h3, m, h0, h4⟩

/-- If everything that follows after success is determined, and nothing is made after a failure, then the result is determined. -/
theorem makes_copyAll {src : String} {n : Int} (hn : exitStatus n ≠ 0) {next : Script} {ts : List String} {c c' : P → V} (h : MakesAlone eff (copyAll src (.exit n) ts next) c c') :
    MakesAlone eff next (ts.foldl (fun c t => update c (tools.name t) (c (tools.name src))) c) c' := by
  induction ts generalizing c with
  | nil => exact h
  | cons t ts ih =>
    obtain ⟨m, h0, h | h | ⟨v, h⟩⟩ := h
    · exact ih ⟨m, h0, h⟩
    · exact absurd ⟨m, h0, h⟩ (not_makes_exit (eff := eff) hn)
    · exact absurd ⟨m, h0, h⟩ (not_makes_exit (eff := eff) hn)

theorem makes_writeAll {known : P → Prop} {n : Int} (hn : exitStatus n ≠ 0) {ts : List String} (ht : ∀ t ∈ ts, eff.Converts known t) {c c₁ c₂ : P → V}
    (h₁ : MakesAlone eff (writeAll (.exit n) ts (.exit 0)) c c₁) (h₂ : MakesAlone eff (writeAll (.exit n) ts (.exit 0)) c c₂) : c₁ = c₂ := by
  induction ts generalizing c with
  | nil => exact (makes_exit h₁).1.trans (makes_exit h₂).1.symm
  | cons t ts ih =>
    have hw : ∀ {c'}, MakesAlone eff (writeAll (.exit n) (t :: ts) (.exit 0)) c c' → (if tools.foreign t then MakesAlone eff (writeAll (.exit n) ts (.exit 0)) c c'
        else ∃ v, eff.text t c v ∧ MakesAlone eff (writeAll (.exit n) ts (.exit 0)) (update c (tools.name t) v) c') := by
      rintro c' ⟨m, h0, h | h | ⟨v, _, h⟩⟩
      · split at h
        · rename_i hf; rw [if_pos hf]; exact ⟨m, h0, h⟩
        · rename_i hf
          obtain ⟨v, h1, h2⟩ := h
          rw [if_neg hf]; exact ⟨v, h1, m, h0, h2⟩
      · exact absurd ⟨m, h0, h⟩ (not_makes_exit (eff := eff) hn)
      · exact absurd ⟨m, h0, h⟩ (not_makes_exit (eff := eff) hn)
    have g₁ := hw h₁
    have g₂ := hw h₂
    split at g₁
    · rename_i hf
      rw [if_pos hf] at g₂
      exact ih (fun u hu => ht u (by simp [hu])) g₁ g₂
    · rename_i hf
      rw [if_neg hf] at g₂
      obtain ⟨v₁, a1, a2⟩ := g₁
      obtain ⟨v₂, b1, b2⟩ := g₂
      have := (ht t (by simp)).unique c v₁ v₂ a1 b1
      subst this
      exact ih (fun u hu => ht u (by simp [hu])) a2 b2

theorem makes_makeAll {ts : List String} {c c' : P → V} (h : MakesAlone eff (makeAll ts) c c') : c' = c := by
  induction ts with
  | nil => exact (makes_exit h).1
  | cons t ts ih =>
    obtain ⟨m, h0, r, h⟩ := h
    dsimp only at h
    split at h
    · exact absurd ⟨m, h0, h⟩ (not_makes_exit (eff := eff) (by decide))
    · exact ih ⟨m, h0, h⟩

omit [DecidableEq P] in
theorem looks_same {known : P → Prop} {args : List String} (hl : eff.Looks known args) {c c₁ : P → V} (h : ∀ p, p ∉ tools.may args → c₁ p = c p) : c₁ = c :=
  funext fun p => h p (by rw [show tools.may args = [] from hl.harmless]; simp)

theorem makes_tidy {known : P → Prop} {acts : List String} {src : String} {args : List String} {rc : Int} (hrc : -64 ≤ rc ∧ rc ≤ 255)
    (hl : eff.Looks known (["clang-tidy", src, "--", "-Wno-unknown-warning-option"] ++ args)) {c c' : P → V} (h : MakesAlone eff (tidy acts src args rc) c c') : rc = 0 ∧ c' = c := by
  unfold tidy at h
  split at h
  · rename_i h0
    refine ⟨h0.2, ?_⟩
    rcases makes_run h with h | ⟨rc', c₁, _, _, h3, h4⟩
    · exact absurd h (not_makes_exit (by decide))
    · rw [(makes_exit h4).1]; exact looks_same hl h3
  · obtain ⟨h1, h2⟩ := makes_exit h
    exact ⟨(exitStatus_zero hrc).mp h2, h1⟩

theorem makes_runTarget {known : P → Prop} {acts : List String} {src target : String} {args : List String} {rc : Int} (hrc : -64 ≤ rc ∧ rc ≤ 255) (ht : eff.Looks known [target])
    (hl : eff.Looks known (["clang-tidy", src, "--", "-Wno-unknown-warning-option"] ++ args)) {c c' : P → V} (h : MakesAlone eff (runTarget acts src target args rc) c c') :
    rc = 0 ∧ c' = c := by
  unfold runTarget at h
  split at h
  · rename_i h0
    split at h
    · rcases makes_run h with h | ⟨rc', c₁, h1, _, h3, h4⟩
      · exact absurd h (not_makes_exit (by decide))
      · refine ⟨h0.2, ?_⟩
        rw [(makes_tidy h1 hl h4).2]; exact looks_same ht h3
    · exact absurd h (not_makes_exit (by decide))
  · exact makes_tidy hrc hl h

/-- What a program has made, when it has returned zero. -/
theorem determines_same {known : P → Prop} {args : List String} {target : String} (hd : eff.Determines known args target) {c c₁ c₂ : P → V} (h1 : eff.result args c 0 c₁)
    (h2 : eff.result args c 0 c₂) (g1 : ∀ p, p ∉ tools.may args → c₁ p = c p) (g2 : ∀ p, p ∉ tools.may args → c₂ p = c p) : c₁ = c₂ := funext fun p => by
  by_cases hp : p ∈ tools.may args
  · rw [hd.makes.2 p hp]; exact hd.unique c c₁ c₂ h1 h2
  · rw [g1 p hp, g2 p hp]

theorem makes_runOnly {args : List String} {c c' : P → V} (h : MakesAlone eff (runOnly args) c c') : eff.result args c 0 c' ∧ ∀ p, p ∉ tools.may args → c' p = c p := by
  rcases makes_run h with h | ⟨rc, c₁, h1, h2, h3, h4⟩
  · exact absurd h (not_makes_exit (by decide))
  · obtain ⟨h5, h6⟩ := makes_exit h4
    have := (exitStatus_zero h1).mp h6
    subst this
    rw [h5]; exact ⟨h2, h3⟩

theorem determined_runOnly {known : P → Prop} {args : List String} {target : String} (hd : eff.Determines known args target) {c c₁ c₂ : P → V} (h₁ : MakesAlone eff (runOnly args) c c₁)
    (h₂ : MakesAlone eff (runOnly args) c c₂) : c₁ = c₂ :=
  determines_same hd (makes_runOnly h₁).1 (makes_runOnly h₂).1 (makes_runOnly h₁).2 (makes_runOnly h₂).2

/-- When recipes/cxx_compiler.py has succeeded, the compiler has, and other targets are copies of the first one. -/
theorem makes_compiler {known : P → Prop} {env : Recipes.Env} {opts : Members} {src target : String} {others : List String} (hsrc : Kvs.lookup "source_file" opts = some (.str src))
    (hh : ¬ IsHeaderName src) (ht : targetsOf opts = some (target :: others))
    (ha : ∀ args, compileCommand env opts = some args → eff.Looks known [target] ∧ eff.Looks known (["clang-tidy", src, "--", "-Wno-unknown-warning-option"] ++ args))
    {c c' : P → V} (h : MakesAlone eff (compiler env opts) c c') :
    ∃ args d, compileCommand env opts = some args ∧ eff.result args c 0 d ∧ (∀ p, p ∉ tools.may args → d p = c p) ∧
      c' = others.foldl (fun c t => update c (tools.name t) (c (tools.name target))) d := by
  simp only [Recipes.compiler, hsrc, Option.bind_some, Json.asString, orFail, not_header hh, Bool.false_eq_true, if_false] at h
  cases hc : compileCommand env opts with
  | none => rw [hc] at h; exact absurd h (not_makes_exit (by decide))
  | some args =>
    rw [hc] at h
    cases hacts : (Kvs.lookup "compiler_cfg" opts).bind actions with
    | none => rw [hacts] at h; exact absurd h (not_makes_exit (by decide))
    | some acts =>
      rw [hacts] at h
      simp only [ht] at h
      obtain ⟨hr, htd⟩ := ha args hc
      rcases makes_run h with h | ⟨rc, d, h1, h2, h3, h4⟩
      · exact absurd h (not_makes_exit (by decide))
      · obtain ⟨h5, h6⟩ := makes_runTarget h1 hr htd (makes_copyAll (by decide) h4)
        subst h5
        exact ⟨args, d, rfl, h2, h3, h6⟩

/-- **C94.** What the recipes of maike make is determined by what is in the files before, if this holds for the programs that they start. -/
theorem C94_recipes {known : P → Prop} {opts : Members} {script : Script} (h : Faithful eff known opts script) {c c₁ c₂ : P → V}
    (h₁ : MakesAlone eff script c c₁) (h₂ : MakesAlone eff script c c₂) : c₁ = c₂ := by
  cases h with
  | @compiler env src target others hsrc hh ht hkn ha =>
    obtain ⟨args₁, d₁, e₁, a1, a2, rfl⟩ := makes_compiler hsrc hh ht (fun args h => (ha args h).2) h₁
    obtain ⟨args₂, d₂, e₂, b1, b2, rfl⟩ := makes_compiler hsrc hh ht (fun args h => (ha args h).2) h₂
    rw [e₁] at e₂
    cases e₂
    rw [determines_same (ha args₁ e₁).1 a1 b1 a2 b2]
  | @linker cc pkg target ha =>
    simp only [Recipes.linker] at h₁ h₂
    cases hc : linkCommand cc pkg opts with
    | none => rw [hc] at h₁; exact absurd h₁ (not_makes_exit (by decide))
    | some args => rw [hc] at h₁ h₂; exact determined_runOnly (ha args hc) h₁ h₂
  | @archiver ar target ha =>
    simp only [Recipes.archiver] at h₁ h₂
    cases hc : archiveCommand ar opts with
    | none => rw [hc] at h₁; exact absurd h₁ (not_makes_exit (by decide))
    | some args => rw [hc] at h₁ h₂; exact determined_runOnly (ha args hc) h₁ h₂
  | copier ha =>
    simp only [Recipes.copier] at h₁ h₂
    split at h₁
    · rename_i src ts hs hts
      rw [hs, hts] at h₂
      exact (makes_exit (makes_copyAll (by decide) h₁)).1.trans (makes_exit (makes_copyAll (by decide) h₂)).1.symm
    · exact absurd h₁ (not_makes_exit (by decide))
  | directoryMaker =>
    simp only [Recipes.directoryMaker] at h₁ h₂
    cases ht : targetsOf opts with
    | none => rw [ht] at h₁; exact absurd h₁ (not_makes_exit (by decide))
    | some ts => rw [ht] at h₁ h₂; exact (makes_makeAll h₁).trans (makes_makeAll h₂).symm
  | sass ha =>
    simp only [Recipes.sass] at h₁ h₂
    split at h₁
    · rename_i t ts src hts hs
      rw [hts, hs] at h₂
      have key : ∀ {c'}, MakesAlone eff (.attempt fun ok => if ok then writeAll (.exit 1) (t :: ts) (.exit 0) else .exit 1) c c' →
          MakesAlone eff (writeAll (.exit 1) (t :: ts) (.exit 0)) c c' := by
        rintro c' ⟨m, h0, ok, h⟩
        cases ok with
        | false => exact absurd ⟨m, h0, h⟩ (not_makes_exit (eff := eff) (by decide))
        | true => exact ⟨m, h0, h⟩
      exact makes_writeAll (by decide) (ha _ hts) (key h₁) (key h₂)
    · exact absurd h₁ (not_makes_exit (by decide))
  | @docConverter env target ha =>
    simp only [Recipes.docConverter] at h₁ h₂
    cases hc : docCommand env opts with
    | none => rw [hc] at h₁; exact absurd h₁ (not_makes_exit (by decide))
    | some args =>
      rw [hc] at h₁ h₂
      dsimp only at h₁ h₂
      have key : ∀ {c' : P → V} {next : Option Int → Script}, next none = .exit 1 → (∀ rc, next (some rc) = .attempt fun ok => if ok then .exit rc else .exit 1) →
          MakesAlone eff (.attempt fun ok => if ok then .run args next else .exit 1) c c' → eff.result args c 0 c' ∧ ∀ p, p ∉ tools.may args → c' p = c p := by
        rintro c' next hn1 hn2 ⟨m, h0, ok, h⟩
        cases ok with
        | false => exact absurd ⟨m, h0, h⟩ (not_makes_exit (eff := eff) (by decide))
        | true =>
          rcases makes_run ⟨m, h0, h⟩ with h | ⟨rc, d, h1, h2, h3, h4⟩
          · rw [hn1] at h; exact absurd h (not_makes_exit (by decide))
          · rw [hn2] at h4
            obtain ⟨m', k0, ok', h4⟩ := h4
            cases ok' with
            | false => exact absurd ⟨m', k0, h4⟩ (not_makes_exit (eff := eff) (by decide))
            | true =>
              obtain ⟨h5, h6⟩ := makes_exit (eff := eff) ⟨m', k0, h4⟩
              have := (exitStatus_zero h1).mp h6
              subst this
              rw [h5]; exact ⟨h2, h3⟩
      have k₁ := key rfl (fun _ => rfl) h₁
      have k₂ := key rfl (fun _ => rfl) h₂
      exact determines_same (ha args hc) k₁.1 k₂.1 k₁.2 k₂.2
  | markdown ha hl =>
    simp only [Recipes.markdown] at h₁ h₂
    split at h₁
    · rename_i t ts src hts hs
      rw [hts, hs] at h₂
      have hlk : eff.Looks known ["pandoc", "-f", "markdown", "-t", "html", "--section-divs", src] := hl src (by
        obtain ⟨v, h1, h2⟩ := Option.bind_eq_some_iff.mp hs
        cases v <;> simp_all [Json.asString])
      have key : ∀ {c' : P → V} {next : Option Int → Script}, next none = .exit 1 →
          (∀ rc, next (some rc) = .attempt fun ok => if ok then .write t fun ok => if ok then .exit 0 else .exit 1 else .exit 1) →
          MakesAlone eff (.run ["pandoc", "-f", "markdown", "-t", "html", "--section-divs", src] next) c c' → MakesAlone eff (writeAll (.exit 1) [t] (.exit 0)) c c' := by
        intro c' next hn1 hn2 h
        rcases makes_run h with h | ⟨rc, d, h1, h2, h3, h4⟩
        · rw [hn1] at h; exact absurd h (not_makes_exit (by decide))
        · rw [hn2, looks_same hlk h3] at h4
          obtain ⟨m, h0, ok, h4⟩ := h4
          cases ok with
          | false => exact absurd ⟨m, h0, h4⟩ (not_makes_exit (eff := eff) (by decide))
          | true => exact ⟨m, h0, h4⟩
      exact makes_writeAll (by decide) (fun u hu => ha _ hts u (by rw [List.mem_singleton.mp hu]; simp)) (key rfl (fun _ => rfl) h₁) (key rfl (fun _ => rfl) h₂)
    · exact absurd h₁ (not_makes_exit (by decide))

end Maike.Build
