import Verif.Build.Processes
import Verif.Recipes.Documents

/-!
# The recipes of maike keep their promise (C88)
-/

namespace Maike.Build

open Maike.Recipes
open Maike.Kvs (Json Members)

variable {P : Type}

/-! ## Specification -/

/-- A compiler, linker or archiver that is called with these arguments writes nothing but the file with the given name; it has done so when it returns zero. -/
def Tools.Makes (tools : Tools P) (args : List String) (target : String) : Prop :=
  tools.name target ∈ tools.must args ∧ ∀ p ∈ tools.may args, p = tools.name target

/-- A program that is called with these arguments does not write files of the project. -/
def Tools.Harmless (tools : Tools P) (args : List String) : Prop := tools.may args = []

/-- What is assumed about the programs that are started by recipes/cxx_compiler.py: the compiler, the program that has been made, and `clang-tidy`. -/
def Tools.Compiles (tools : Tools P) (args : List String) (src target : String) : Prop :=
  tools.Makes args target ∧ tools.Harmless [target] ∧ tools.Harmless (["clang-tidy", src, "--", "-Wno-unknown-warning-option"] ++ args)

/-- The recipe `script` with options `opts` is one of the recipes of maike, and is used in a way that it is made for: files that are compiled are not headers, the linker, the archiver, and the
recipes for documents, text and revision logs have one target, `make_directory.py` makes directories, and the others make files. The cache of `vcslog.py` is nothing that the build knows of.
The recipe generic.py is not one of them (see C82). -/
inductive Suitable (tools : Tools P) (kind : P → Bool) (opts : Members) : Script → Prop
  | compiler {env : Recipes.Env} {src target : String} {others : List String} : Kvs.lookup "source_file" opts = some (.str src) → ¬ IsHeaderName src →
      targetsOf opts = some (target :: others) → (∀ t ∈ target :: others, kind (tools.name t) = false) →
      (∀ args, compileCommand env opts = some args → tools.Compiles args src target) → Suitable tools kind opts (compiler env opts)
  | linker {cc : String} {pkg : Pkg} {target : String} : targetsOf opts = some [target] → kind (tools.name target) = false →
      (∀ args, linkCommand cc pkg opts = some args → tools.Makes args target) → Suitable tools kind opts (linker cc pkg opts)
  | archiver {ar : String} {target : String} : targetsOf opts = some [target] → kind (tools.name target) = false →
      (∀ args, archiveCommand ar opts = some args → tools.Makes args target) → Suitable tools kind opts (archiver ar opts)
  | copier {ts : List String} : targetsOf opts = some ts → (∀ t ∈ ts, kind (tools.name t) = false) → Suitable tools kind opts (copier opts)
  | directoryMaker {ts : List String} : targetsOf opts = some ts → (∀ t ∈ ts, kind (tools.name t) = true ∧ ∀ d, Directory t d → tools.name d = tools.name t ∧ tools.foreign d = false) →
      Suitable tools kind opts (directoryMaker opts)
  | sass {ts : List String} : targetsOf opts = some ts → (∀ t ∈ ts, kind (tools.name t) = false ∧ tools.foreign t = false) → Suitable tools kind opts (sass opts)
  | docConverter {env : Recipes.Env} {target : String} : targetsOf opts = some [target] → kind (tools.name target) = false →
      (∀ args, docCommand env opts = some args → tools.Makes args target) → Suitable tools kind opts (docConverter env opts)
  | markdown {target : String} : targetsOf opts = some [target] → kind (tools.name target) = false → tools.foreign target = false →
      (∀ src, tools.Harmless ["pandoc", "-f", "markdown", "-t", "html", "--section-divs", src]) → Suitable tools kind opts (markdown opts)
  | vcsLog {target : String} : targetsOf opts = some [target] → kind (tools.name target) = false → tools.foreign target = false →
      (∀ dir, (infoField opts "source_dir").bind Json.asString = some dir → tools.foreign (dir ++ "/__buildcache") = true ∧ tools.foreign (dir ++ "/__buildcache/vcslog.json") = true) →
      Suitable tools kind opts (vcsLog opts)

/-! ## Proof -/

variable {tools : Tools P} {kind : P → Bool} {targets : List P}

theorem promise_fail {n : Int} (hn : exitStatus n ≠ 0) (there : P → Prop) : Promise tools kind targets there (.exit n) := fun h => absurd h hn

theorem promise_runOnly {args : List String} {target : String} (hm : tools.Makes args target) (hk : kind (tools.name target) = false) (ht : targets = [tools.name target])
    (there : P → Prop) : Promise tools kind targets there (runOnly args) := by
  subst ht
  refine ⟨fun p hp => ?_, promise_fail (by decide) _, fun rc h1 h2 hz p hp => ?_⟩
  · rw [hm.2 p hp]; simp [hk]
  · have := (exitStatus_zero ⟨h1, h2⟩).mp hz
    rw [List.mem_singleton.mp hp]
    exact .inr ⟨this, hm.1⟩

theorem promise_copyAll {src : String} {n : Int} (hn : exitStatus n ≠ 0) {next : Script} {ts : List String} {there : P → Prop}
    (ht : ∀ t ∈ ts, tools.name t ∈ targets ∧ kind (tools.name t) = false)
    (hnext : Promise tools kind targets (fun p => there p ∨ ∃ t ∈ ts, p = tools.name t) next) : Promise tools kind targets there (copyAll src (.exit n) ts next) := by
  induction ts generalizing there with
  | nil => exact hnext.mono fun p hp => by simpa using hp
  | cons t ts ih =>
    refine ⟨ht t (by simp), ?_, promise_fail hn _⟩
    refine ih (fun u hu => ht u (by simp [hu])) (hnext.mono fun p hp => ?_)
    rcases hp with hp | ⟨u, hu, rfl⟩
    · exact .inl (.inl hp)
    · rcases List.mem_cons.mp hu with rfl | hu
      · exact .inl (.inr rfl)
      · exact .inr ⟨u, hu, rfl⟩

theorem promise_tidy {acts : List String} {src : String} {args : List String} {rc : Int} (hrc : -64 ≤ rc ∧ rc ≤ 255) {there : P → Prop}
    (hh : tools.Harmless (["clang-tidy", src, "--", "-Wno-unknown-warning-option"] ++ args)) (hall : rc = 0 → ∀ p ∈ targets, there p) :
    Promise tools kind targets there (tidy acts src args rc) := by
  unfold tidy
  split
  · rename_i h
    refine ⟨fun p hp => ?_, promise_fail (by decide) _, fun rc' h1 h2 hz p hp => .inl (hall h.2 p hp)⟩
    rw [hh] at hp; cases hp
  · exact fun hz => hall ((exitStatus_zero hrc).mp hz)

theorem promise_runTarget {acts : List String} {src target : String} {args : List String} {rc : Int} (hrc : -64 ≤ rc ∧ rc ≤ 255) {there : P → Prop}
    (ht : tools.Harmless [target]) (hh : tools.Harmless (["clang-tidy", src, "--", "-Wno-unknown-warning-option"] ++ args)) (hall : rc = 0 → ∀ p ∈ targets, there p) :
    Promise tools kind targets there (runTarget acts src target args rc) := by
  unfold runTarget
  split
  · rename_i h
    split
    · refine ⟨fun p hp => ?_, promise_fail (by decide) _, fun rc' h1 h2 => promise_tidy ⟨h1, h2⟩ hh fun _ p hp => .inl (hall h.2 p hp)⟩
      rw [ht] at hp; cases hp
    · exact promise_fail (by decide) _
  · exact promise_tidy hrc hh hall

theorem promise_makeAll {ts : List String} {there : P → Prop} (ht : ∀ t ∈ ts, tools.name t ∈ targets ∧ kind (tools.name t) = true ∧ tools.name (withoutDot t) = tools.name t ∧
      tools.foreign (withoutDot t) = false)
    (hall : ∀ p ∈ targets, there p ∨ ∃ t ∈ ts, p = tools.name t) : Promise tools kind targets there (makeAll ts) := by
  induction ts generalizing there with
  | nil => exact fun _ p hp => (hall p hp).elim id fun ⟨_, h, _⟩ => by cases h
  | cons t ts ih =>
    obtain ⟨h1, h2, h3, h4⟩ := ht t (by simp)
    have hrest : Promise tools kind targets (fun p => there p ∨ (tools.foreign (withoutDot t) = false ∧ p = tools.name (withoutDot t))) (makeAll ts) := by
      refine ih (fun u hu => ht u (by simp [hu])) fun p hp => ?_
      rcases hall p hp with h | ⟨u, hu, rfl⟩
      · exact .inl (.inl h)
      · rcases List.mem_cons.mp hu with rfl | hu
        · exact .inl (.inr ⟨h4, h3.symm⟩)
        · exact .inr ⟨u, hu, rfl⟩
    refine ⟨fun _ => by rw [h3]; exact ⟨h1, h2⟩, ?_, ?_, ?_⟩
    · simpa using hrest
    · simpa using hrest
    · simpa using promise_fail (by decide) _

theorem promise_writeAll {n : Int} (hn : exitStatus n ≠ 0) {next : Script} {ts : List String} {there : P → Prop}
    (ht : ∀ t ∈ ts, tools.name t ∈ targets ∧ kind (tools.name t) = false ∧ tools.foreign t = false)
    (hnext : Promise tools kind targets (fun p => there p ∨ ∃ t ∈ ts, p = tools.name t) next) : Promise tools kind targets there (writeAll (.exit n) ts next) := by
  induction ts generalizing there with
  | nil => exact hnext.mono fun p hp => by simpa using hp
  | cons t ts ih =>
    obtain ⟨h1, h2, h3⟩ := ht t (by simp)
    refine ⟨fun _ => ⟨h1, h2⟩, ?_, promise_fail hn _⟩
    refine ih (fun u hu => ht u (by simp [hu])) (hnext.mono fun p hp => ?_)
    rcases hp with hp | ⟨u, hu, rfl⟩
    · exact .inl (.inl hp)
    · rcases List.mem_cons.mp hu with rfl | hu
      · exact .inl (.inr ⟨h3, rfl⟩)
      · exact .inr ⟨u, hu, rfl⟩

/-- **C88.** The recipes of maike keep their promise, when used in a way that they are made for, and if compilers, linkers and archivers that return zero have written their output. -/
theorem C88_recipes_partial {opts : Members} {script : Script} (h : Suitable tools kind opts script) {ts : List String} (hts : targetsOf opts = some ts)
    (there : P → Prop) : Promise tools kind (ts.map tools.name) there script := by
  cases h with
  | @compiler env src target others hsrc hh ht hk ha =>
    obtain rfl := Option.some.inj (hts.symm.trans ht)
    simp only [Recipes.compiler, hsrc, Option.bind_some, Json.asString, orFail, not_header hh, Bool.false_eq_true, if_false]
    cases hc : compileCommand env opts with
    | none => exact promise_fail (by decide) _
    | some args =>
      cases hacts : (Kvs.lookup "compiler_cfg" opts).bind actions with
      | none => exact promise_fail (by decide) _
      | some acts =>
        simp only [ht]
        obtain ⟨hm, hr, htd⟩ := ha args hc
        refine ⟨fun p hp => ?_, promise_fail (by decide) _, fun rc h1 h2 => ?_⟩
        · rw [hm.2 p hp]; simp [hk]
        · refine promise_copyAll (by decide) (fun t h => ⟨List.mem_map.mpr ⟨t, by simp [h], rfl⟩, hk t (by simp [h])⟩) ?_
          refine promise_runTarget ⟨h1, h2⟩ hr htd fun h0 p hp => ?_
          obtain ⟨t, hmem, rfl⟩ := List.mem_map.mp hp
          rcases List.mem_cons.mp hmem with rfl | hmem
          · exact .inl (.inr ⟨h0, hm.1⟩)
          · exact .inr ⟨t, hmem, rfl⟩
  | @linker cc pkg target ht hk ha =>
    obtain rfl := Option.some.inj (hts.symm.trans ht)
    simp only [Recipes.linker]
    cases hc : linkCommand cc pkg opts with
    | none => exact promise_fail (by decide) _
    | some args => exact promise_runOnly (ha args hc) hk rfl _
  | @archiver ar target ht hk ha =>
    obtain rfl := Option.some.inj (hts.symm.trans ht)
    simp only [Recipes.archiver]
    cases hc : archiveCommand ar opts with
    | none => exact promise_fail (by decide) _
    | some args => exact promise_runOnly (ha args hc) hk rfl _
  | copier ht hk =>
    obtain rfl := Option.some.inj (hts.symm.trans ht)
    simp only [Recipes.copier]
    split
    · rename_i src ts' _ hts'
      obtain rfl := Option.some.inj (hts.symm.trans hts')
      refine promise_copyAll (by decide) (fun t h => ⟨List.mem_map.mpr ⟨t, h, rfl⟩, hk t h⟩) fun _ p hp => ?_
      obtain ⟨t, h, rfl⟩ := List.mem_map.mp hp
      exact .inr ⟨t, h, rfl⟩
    · exact promise_fail (by decide) _
  | directoryMaker ht hk =>
    obtain rfl := Option.some.inj (hts.symm.trans ht)
    simp only [Recipes.directoryMaker, hts, orFail]
    refine promise_makeAll (fun t h => ⟨List.mem_map.mpr ⟨t, h, rfl⟩, (hk t h).1, (hk t h).2 _ ((directory_withoutDot _ _).mpr rfl)⟩) fun p hp => ?_
    obtain ⟨t, h, rfl⟩ := List.mem_map.mp hp
    exact .inr ⟨t, h, rfl⟩
  | sass ht hk =>
    obtain rfl := Option.some.inj (hts.symm.trans ht)
    simp only [Recipes.sass]
    split
    · rename_i t ts' src hts' _
      obtain rfl := Option.some.inj (hts.symm.trans hts')
      refine ⟨promise_writeAll (by decide) (fun t h => ⟨List.mem_map.mpr ⟨t, h, rfl⟩, hk t h⟩) fun _ p hp => ?_, promise_fail (by decide) _⟩
      obtain ⟨t, h, rfl⟩ := List.mem_map.mp hp
      exact .inr ⟨t, h, rfl⟩
    · exact promise_fail (by decide) _
  | @docConverter env target ht hk ha =>
    obtain rfl := Option.some.inj (hts.symm.trans ht)
    simp only [Recipes.docConverter]
    cases hc : docCommand env opts with
    | none => exact promise_fail (by decide) _
    | some args =>
      have hm := ha args hc
      refine ⟨⟨fun p hp => ?_, promise_fail (by decide) _, fun rc h1 h2 => ⟨fun hz p hp => ?_, promise_fail (by decide) _⟩⟩, promise_fail (by decide) _⟩
      · rw [hm.2 p hp]; simp [hk]
      · rw [List.mem_singleton.mp hp]
        exact .inr ⟨(exitStatus_zero ⟨h1, h2⟩).mp hz, hm.1⟩
  | @markdown target ht hk hf hh =>
    obtain rfl := Option.some.inj (hts.symm.trans ht)
    simp only [Recipes.markdown]
    split
    · rename_i t ts' src hts' _
      obtain ⟨rfl, rfl⟩ := List.cons.inj (Option.some.inj (hts.symm.trans hts'))
      refine ⟨fun p hp => ?_, promise_fail (by decide) _, fun rc h1 h2 => ⟨⟨fun _ => ⟨by simp, hk⟩, fun hz p hp => ?_, promise_fail (by decide) _⟩, promise_fail (by decide) _⟩⟩
      · rw [hh src] at hp; cases hp
      · rw [List.mem_singleton.mp hp]
        exact .inr ⟨hf, rfl⟩
    · exact promise_fail (by decide) _
  | @vcsLog target ht hk hf hd =>
    obtain rfl := Option.some.inj (hts.symm.trans ht)
    simp only [Recipes.vcsLog, firstTarget_eq ht]
    cases hdir : (infoField opts "source_dir").bind Json.asString with
    | none => exact promise_fail (by decide) _
    | some dir =>
      obtain ⟨f1, f2⟩ := hd dir hdir
      dsimp only
      have hall : ∀ {there : P → Prop}, there (tools.name target) → ∀ p ∈ [target].map tools.name, there p := by
        intro there h p hp
        rw [List.mem_singleton.mp hp]
        exact h
      have hcache : ∀ {there : P → Prop}, there (tools.name target) → Promise tools kind ([target].map tools.name) there
          (.write (dir ++ "/__buildcache/vcslog.json") fun ok => if ok then .exit 0 else .exit (-1)) :=
        fun h => ⟨fun hf' => (by rw [f2] at hf'; cases hf'), fun _ => hall (.inl h), promise_fail (by decide) _⟩
      have hrest : ∀ {there : P → Prop}, Promise tools kind ([target].map tools.name) there (.write target fun ok =>
          if ok then .mkdir (dir ++ "/__buildcache") fun r =>
            if r = .failed then .exit (-1) else .write (dir ++ "/__buildcache/vcslog.json") fun ok => if ok then .exit 0 else .exit (-1)
          else .exit (-1)) :=
        ⟨fun _ => ⟨by simp, hk⟩, ⟨fun hf' => (by rw [f1] at hf'; cases hf'), hcache (.inl (.inr ⟨hf, rfl⟩)), hcache (.inl (.inr ⟨hf, rfl⟩)), promise_fail (by decide) _⟩,
          promise_fail (by decide) _⟩
      exact ⟨hrest, hrest, promise_fail (by decide) _⟩

end Maike.Build
