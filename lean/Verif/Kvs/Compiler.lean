import Verif.Kvs.Theorems
import Verif.Text.Enums

/-!
# Compilers

Model of core/db/compiler.hpp, core/db/compiler.cpp, `makeBuildCommand` in core/db/source_file_record.cpp, and the part of
`loadSourceFile` in core/source_tree_loader/source_file_load_ctxt.cpp that deals with compilers.

Paths are strings here. What a recipe does when it is executed is a parameter. Not modelled: how a value is written as text (done by jansson).
-/

namespace Maike.Kvs

open Maike.Db (Origin)

/-- `Compiler`, core/db/compiler.hpp:17-92. -/
structure Compiler where
  recipe : String := ""
  origin : Option Origin := none
  config : Members := []
  useGetTags : Bool := false

/-- `operator|`, core/db/compiler.cpp:12-25. `none` if an exception is thrown by the merge. -/
def Compiler.or (a b : Compiler) : Option Compiler :=
  match b.origin with
  | some o =>
    (merge a.config b.config).map fun config =>
      { recipe := if b.recipe ≠ "" then b.recipe else a.recipe, origin := some o, config, useGetTags := b.useGetTags }
  | none =>
    (merge a.config b.config).map fun config =>
      { recipe := if b.recipe ≠ "" then b.recipe else a.recipe, origin := a.origin, config, useGetTags := b.useGetTags }

/-! ### Access to values -/

/-- `JsonRefConst::as<char const*>`, core/key_value_store/json_handle.hpp:111-116. `none` if an exception is thrown. -/
def Json.asString : Json → Option String
  | .str s => some s
  | _ => none

/-- `JsonRefConst::as<json_int_t>`, core/key_value_store/json_handle.hpp:118-123. -/
def Json.asInt : Json → Option Int
  | .int i => some i
  | _ => none

/-- `as<CompoundRefConst>`, core/key_value_store/compound.hpp:80-83 and 228-231. -/
def Json.asObj : Json → Option Members
  | .obj ms => some ms
  | _ => none

/-- `as<ArrayRefConst>`, core/key_value_store/array.hpp:72-75. -/
def Json.asArr : Json → Option (List Json)
  | .arr vs => some vs
  | _ => none

/-- `CompoundRefConst::get`, core/key_value_store/compound.hpp:85-91. -/
def getReq {α : Type} (as : Json → Option α) (k : String) (ms : Members) : Option α :=
  (lookup k ms).bind as

/-- `CompoundRefConst::getIf`, core/key_value_store/compound.hpp:93-99. The outer `none` is an exception. -/
def getIf {α : Type} (as : Json → Option α) (k : String) (ms : Members) : Option (Option α) :=
  match lookup k ms with
  | none => some none
  | some v => (as v).map some

/-- `fromJson`, core/db/compiler.hpp:94-105. -/
def Compiler.fromJson (v : Json) : Option Compiler := do
  let obj ← v.asObj
  let recipe ← getIf Json.asString "recipe" obj
  let flag ← getIf Json.asInt "use_get_tags" obj
  let config ← getReq Json.asObj "config" obj
  return { recipe := recipe.getD "", config, useGetTags := match flag with | some i => i != 0 | none => false }

/-- `toJson`, core/db/compiler.hpp:107-114. -/
def Compiler.toJson (c : Compiler) : Json :=
  .obj (set "use_get_tags" (.int (if c.useGetTags then 1 else 0))
    (set "config" (.obj c.config) (set "recipe" (.str c.recipe) [])))

/-! ### How a compiler is used -/

/-- What `Compiler::resolveRecipe` uses. `none` if an exception is thrown. -/
structure Resolver where
  /-- `CommandDictionary::get`: the location of the recipe and its origin -/
  get : String → Option (String × Origin)
  /-- execution of a recipe with `configure`, core/db/compiler.cpp:59-84: the configuration that it prints, or the one that it gets if it
  prints nothing; see also `RecipeOutput.lean` -/
  configure : String → Members → Option Members := fun _ c => some c

/-- `Compiler::configRecipe`, core/db/compiler.cpp:55-85. -/
def Compiler.configRecipe (r : Resolver) (c : Compiler) : Option Compiler :=
  if c.recipe = "" then some c else (r.configure c.recipe c.config).map fun config => { c with config }

/-- `Compiler::resolveRecipe`, core/db/compiler.hpp:64-72. -/
def Compiler.resolve (r : Resolver) (c : Compiler) : Option Compiler :=
  (r.get c.recipe).bind fun res => { c with recipe := res.1, origin := some res.2 : Compiler }.configRecipe r

theorem Compiler.resolve_iff (r : Resolver) (c k : Compiler) :
    c.resolve r = some k ↔ ∃ res config, r.get c.recipe = some res ∧ k = { c with recipe := res.1, origin := some res.2, config } ∧
      (res.1 = "" → config = c.config) ∧ (res.1 ≠ "" → r.configure res.1 c.config = some config) := by
  simp only [Compiler.resolve, Compiler.configRecipe, Option.bind_eq_some_iff]
  constructor
  · rintro ⟨res, h1, h2⟩
    split at h2
    · rename_i he; injection h2 with h2; exact ⟨res, c.config, h1, h2.symm, fun _ => rfl, fun h => absurd he h⟩
    · rename_i he
      obtain ⟨cfg, h3, rfl⟩ := Option.map_eq_some_iff.mp h2
      exact ⟨res, cfg, h1, rfl, fun h => absurd h he, fun _ => h3⟩
  · rintro ⟨res, cfg, h1, rfl, h3, h4⟩
    refine ⟨res, h1, ?_⟩
    by_cases he : res.1 = ""
    · rw [if_pos he, h3 he]
    · rw [if_neg he, h4 he]; rfl

/-- `makeDependency`, core/db/compiler.hpp:118-122. -/
def Compiler.dependency (c : Compiler) : String × Origin := (c.recipe, c.origin.getD .system)

/-- The compiler parts of `loadSourceFile`, core/source_tree_loader/source_file_load_ctxt.cpp:208-226 and 236: `own` is the compiler
found in the tags, `default` the one of the loader (resolved already). The result is the compiler stored for the file and the
dependency on the recipe, if any. -/
def loadCompiler (r : Resolver) (own : Option Compiler) (default : Compiler) : Option (Compiler × List (String × Origin)) :=
  match own with
  | none => some ({}, if default.recipe ≠ "" then [default.dependency] else [])
  | some c => (c.resolve r).map fun c => (c, if c.recipe ≠ "" then [c.dependency] else [])

/-- `makeShellExecPath`, core/utils/fs.hpp:20-24. A path has a non-empty `parent_path` iff it contains a slash. -/
def shellExecPath (p : String) : String := if '/' ∈ p.toList then p else "./" ++ p

/-- What goes into the `compile` request: `Build::Info` (core/build/info.hpp:81-90) as a JSON value, and a dependency
(core/db/dependency.cpp:11-22). -/
structure DepJson where
  name : String
  origin : Origin
  properties : List (String × String) := []

/-- `toJson`, core/db/dependency.cpp:11-22. -/
def DepJson.toJson (d : DepJson) : Json :=
  .obj (d.properties.foldl (fun acc p => set p.1 (.str p.2) acc)
    (set "origin" (.str (Text.originToString d.origin)) (set "ref" (.str d.name) [])))

/-- The input of `makeBuildCommand`. -/
structure Request where
  default : Option Compiler
  own : Compiler
  path : String
  id : Nat
  info : Json
  format : Text.LogFormat
  targets : List String
  deps : List DepJson

/-- `makeBuildCommand`, core/db/source_file_record.cpp:33-74. The result is the executable and the argument of `compile`. -/
def makeBuildCommand (q : Request) : Option (String × Members) := do
  let compiler ← match q.default with
    | some d => d.or q.own
    | none => some q.own
  let opts := set "compiler_cfg" (.obj compiler.config) []
  let opts := set "source_file" (.str q.path) opts
  let opts := set "task_id" (.int q.id) opts
  let opts := set "build_info" q.info opts
  let opts := set "log_format" (.str (Text.logFormatToString q.format)) opts
  let opts := set "targets" (.arr (q.targets.map .str)) opts
  let opts := set "dependencies" (.arr (q.deps.map DepJson.toJson)) opts
  return (if compiler.recipe = "" then shellExecPath q.path else compiler.recipe, opts)

/-! ## Theorems -/

/-- **C34.** The combination fails iff the configurations have a conflict. Otherwise recipe and origin are those of the right operand
if it has one and those of the left operand otherwise, the configuration is the merged one (see C31), and the flag is that of the right
operand. -/
theorem C34_override (a b : Compiler) :
    (a.or b = none ↔ merge a.config b.config = none) ∧
    ∀ c, a.or b = some c →
      (b.recipe ≠ "" → c.recipe = b.recipe) ∧ (b.recipe = "" → c.recipe = a.recipe) ∧
      (∀ o, b.origin = some o → c.origin = some o) ∧ (b.origin = none → c.origin = a.origin) ∧
      merge a.config b.config = some c.config ∧
      c.useGetTags = b.useGetTags := by
  unfold Compiler.or
  cases hb : b.origin <;> simp only [Option.map_eq_none_iff, Option.map_eq_some_iff, true_and]
  all_goals
    rintro c ⟨m, hm, rfl⟩
    refine ⟨?_, ?_, ?_, ?_, hm, rfl⟩
    · intro h; simp [h]
    · intro h; simp [h]
    · simp
    · simp

theorem or_eq (a b : Compiler) : a.or b = (merge a.config b.config).map fun config =>
    { recipe := if b.recipe ≠ "" then b.recipe else a.recipe, origin := b.origin.or a.origin, config,
      useGetTags := b.useGetTags } := by
  unfold Compiler.or
  cases b.origin <;> rfl

/-- **C34** (grouping). Overriding twice gives the same result however it is grouped. -/
theorem C34_assoc (a b c : Compiler) (ha : WellFormed (.obj a.config)) (hb : WellFormed (.obj b.config))
    (hc : WellFormed (.obj c.config)) : (a.or b).bind (·.or c) = (b.or c).bind (a.or ·) := by
  have h := C33_assoc _ _ _ ha hb hc
  simp only [or_eq]
  cases hab : merge a.config b.config with
  | none =>
    rw [hab] at h
    cases hbc : merge b.config c.config with
    | none => simp
    | some m => rw [hbc] at h; simp at h; simp [← h]
  | some m =>
    rw [hab] at h
    cases hbc : merge b.config c.config with
    | none => rw [hbc] at h; simp at h; simp [h]
    | some m' =>
      rw [hbc] at h
      simp only [Option.bind_some] at h
      simp only [Option.map_some, Option.bind_some, h]
      congr 1
      funext m
      simp only [Compiler.mk.injEq, and_true]
      constructor
      · by_cases hc : c.recipe = "" <;> simp [hc]
      · cases c.origin <;> rfl

/-- A compiler that says nothing is a neutral right operand, except that it resets `use_get_tags`. -/
theorem C34_flag_reset (a : Compiler) : a.or {} = some { a with useGetTags := false } := by
  unfold Compiler.or
  simp [C33_empty_right]

/-- What is executed: the recipe of the file, or else that of its loader, or else the file itself. -/
theorem C34_recipe (q : Request) (exe : String) (opts : Members) (h : makeBuildCommand q = some (exe, opts)) :
    (q.own.recipe ≠ "" → exe = q.own.recipe) ∧
    (∀ d, q.own.recipe = "" → q.default = some d → d.recipe ≠ "" → exe = d.recipe) ∧
    (q.own.recipe = "" → (∀ d, q.default = some d → d.recipe = "") → exe = shellExecPath q.path) := by
  unfold makeBuildCommand at h
  cases hd : q.default with
  | none =>
    simp [hd] at h
    obtain ⟨rfl, -⟩ := h
    refine ⟨?_, ?_, ?_⟩
    · intro h; simp [h]
    · simp
    · intro h; simp [h]
  | some d =>
    simp only [hd] at h
    cases ho : d.or q.own with
    | none => simp [ho] at h
    | some c =>
      have hc := (C34_override d q.own).2 c ho
      simp [ho] at h
      obtain ⟨rfl, -⟩ := h
      refine ⟨?_, ?_, ?_⟩
      · intro h; rw [hc.1 h]; simp [h]
      · intro d' h e hne
        cases e
        rw [hc.2.1 h]; simp [hne]
      · intro h hall
        rw [hc.2.1 h, hall d rfl]; simp

/-- What the recipe is told. -/
theorem C34_request (q : Request) (exe : String) (opts : Members) (h : makeBuildCommand q = some (exe, opts)) :
    lookup "source_file" opts = some (.str q.path) ∧
    lookup "targets" opts = some (.arr (q.targets.map .str)) ∧
    (∃ ds, lookup "dependencies" opts = some (.arr ds) ∧ ds.length = q.deps.length ∧
      ∀ i (hi : i < q.deps.length), ds[i]? = some (q.deps[i]).toJson) ∧
    lookup "task_id" opts = some (.int q.id) ∧
    lookup "build_info" opts = some q.info ∧
    lookup "log_format" opts = some (.str (Text.logFormatToString q.format)) ∧
    ∃ cfg, lookup "compiler_cfg" opts = some (.obj cfg) ∧
      match q.default with
      | some d => merge d.config q.own.config = some cfg
      | none => cfg = q.own.config := by
  unfold makeBuildCommand at h
  cases hd : q.default with
  | none =>
    simp [hd] at h
    obtain ⟨-, rfl⟩ := h
    refine ⟨by simp [lookup_set], by simp [lookup_set], ⟨_, by simp [lookup_set] <;> rfl, by simp, ?_⟩, by simp [lookup_set],
      by simp [lookup_set], by simp [lookup_set], _, by simp [lookup_set] <;> rfl, rfl⟩
    intro i hi; simp [hi]
  | some d =>
    simp only [hd] at h
    cases ho : d.or q.own with
    | none => simp [ho] at h
    | some c =>
      simp [ho] at h
      obtain ⟨-, rfl⟩ := h
      refine ⟨by simp [lookup_set], by simp [lookup_set], ⟨_, by simp [lookup_set] <;> rfl, by simp, ?_⟩, by simp [lookup_set],
        by simp [lookup_set], by simp [lookup_set], _, by simp [lookup_set] <;> rfl, ?_⟩
      · intro i hi; simp [hi]
      · exact ((C34_override d q.own).2 c ho).2.2.2.2.1

/-- **C59** (part). If a file has no compiler of its own, or one with a recipe, then the recipe which is executed is among the
dependencies of the file, with the origin that was found for it when its name was resolved. -/
theorem C59_recipe_dependency_partial (r : Resolver) (own : Option Compiler) (default stored : Compiler) (ds : List (String × Origin))
    (h : loadCompiler r own default = some (stored, ds)) (hown : ∀ c, own = some c → c.recipe ≠ "")
    (hr : ∀ p q, r.get p = some q → p ≠ "" → q.1 ≠ "")
    (q : Request) (hq : q.default = some default) (hs : q.own = stored) (exe : String) (opts : Members)
    (hc : makeBuildCommand q = some (exe, opts)) (hexe : exe ≠ shellExecPath q.path) :
    ∃ o, ds = [(exe, o)] ∧ (∀ c, own = some c → r.get c.recipe = some (exe, o)) ∧
      (own = none → exe = default.recipe ∧ ∀ o', default.origin = some o' → o = o') := by
  have hx := C34_recipe q exe opts hc
  rw [hs, hq] at hx
  unfold loadCompiler at h
  cases own with
  | none =>
    simp at h
    obtain ⟨rfl, rfl⟩ := h
    by_cases hd : default.recipe = ""
    · exact absurd (hx.2.2 rfl (by intro d e; cases e; exact hd)) hexe
    · have := hx.2.1 default rfl rfl hd
      subst this
      refine ⟨_, by simp [hd]; rfl, by simp, fun _ => ⟨rfl, fun o' ho' => ?_⟩⟩
      rw [ho', Option.getD_some]
  | some c =>
    simp only [Option.map_eq_some_iff] at h
    obtain ⟨c', hc', h⟩ := h
    cases h
    obtain ⟨res, config, hres, rfl, _, _⟩ := (Compiler.resolve_iff _ _ _).mp hc'
    have hne := hr _ _ hres (hown c rfl)
    have := hx.1 hne
    subst this
    refine ⟨_, by simp [hne]; rfl, ?_, by simp⟩
    intro c' hc'
    cases hc'
    simp [hres]

/-- **C59** (exactly). If the recipe is not the file itself, and the dictionary leaves an empty name alone (C48), then the recipe which is executed is among the dependencies of the file
exactly if the file has no compiler of its own, or one with a recipe. -/
theorem C59_exact (r : Resolver) (own : Option Compiler) (default stored : Compiler) (ds : List (String × Origin))
    (h : loadCompiler r own default = some (stored, ds)) (hr : ∀ p q, r.get p = some q → (p = "" ↔ q.1 = ""))
    (q : Request) (hq : q.default = some default) (hs : q.own = stored) (exe : String) (opts : Members)
    (hc : makeBuildCommand q = some (exe, opts)) (hexe : exe ≠ shellExecPath q.path) :
    (∃ o, (exe, o) ∈ ds) ↔ ∀ c, own = some c → c.recipe ≠ "" := by
  constructor
  · rintro ⟨o, ho⟩ c rfl he
    simp only [loadCompiler, Option.map_eq_some_iff] at h
    obtain ⟨c', hc', h⟩ := h
    cases h
    obtain ⟨res, config, hres, rfl, _, _⟩ := (Compiler.resolve_iff _ _ _).mp hc'
    have := (hr _ _ hres).mp he
    simp [this] at ho
  · intro hown
    obtain ⟨o, e, _⟩ := C59_recipe_dependency_partial r own default stored ds h hown (fun p q hp hne e => hne ((hr p q hp).mpr e)) q hq hs exe opts hc hexe
    exact ⟨o, by rw [e]; exact List.mem_singleton.mpr rfl⟩

/-- **C59** does not hold in general: a file whose tags change only the configuration of the compiler is compiled with the recipe of its
loader, but does not depend on it. So it is not built again when that recipe changes. -/
theorem C59_false :
    ∃ (r : Resolver) (own default stored : Compiler) (ds : List (String × Origin)) (q : Request) (exe : String) (opts : Members),
      default.resolve r = some default ∧
      loadCompiler r (some own) default = some (stored, ds) ∧ q.default = some default ∧ q.own = stored ∧
      makeBuildCommand q = some (exe, opts) ∧ exe = default.recipe ∧ default.origin = some .project ∧ exe ≠ "" ∧ ds = [] := by
  refine ⟨{ get := fun p => some (p, .project) }, { config := [("cflags", .arr [])] }, { recipe := "cxx_compiler.py", origin := some .project },
    { config := [("cflags", .arr [])], origin := some .project }, [],
    { default := some { recipe := "cxx_compiler.py", origin := some .project },
      own := { config := [("cflags", .arr [])], origin := some .project },
      path := "a.cpp", id := 0, info := .null, format := .plainText, targets := ["a.o"], deps := [] }, "cxx_compiler.py", _, rfl, ?_,
    rfl, rfl, rfl, rfl, rfl, by decide, rfl⟩
  simp [loadCompiler, Compiler.resolve, Compiler.configRecipe]

/-- Reading back what `toJson` gives. The origin is not stored. -/
theorem compiler_roundTrip (c : Compiler) : Compiler.fromJson c.toJson = some { c with origin := none } := by
  obtain ⟨r, o, cfg, t⟩ := c
  cases t <;> simp [Compiler.fromJson, Compiler.toJson, Json.asObj, getIf, getReq, lookup_set, Json.asString, Json.asInt]

section Examples

def exampleDefault : Compiler :=
  { recipe := "cxx_compiler.py", origin := some .system, config := [("cflags", .arr [.str "-g"])], useGetTags := false }

def exampleOwn : Compiler := { config := [("cflags", .arr [.str "-O3"]), ("std", .str "c++17")], useGetTags := true }

example : exampleDefault.or exampleOwn = some
    { recipe := "cxx_compiler.py", origin := some .system,
      config := [("cflags", .arr [.str "-g", .str "-O3"]), ("std", .str "c++17")], useGetTags := true } := by
  simp [Compiler.or, exampleDefault, exampleOwn, merge, mergeInto, mergeItem, mergeValue, lookup, set]

def exampleRequest : Request where
  default := some exampleDefault
  own := exampleOwn
  path := "a.cpp"
  id := 3
  info := .null
  format := .ansiTerm
  targets := ["t/a.o"]
  deps := [{ name := "b.h", origin := .project }]

example : (makeBuildCommand exampleRequest).map Prod.fst = some "cxx_compiler.py" := by
  simp [makeBuildCommand, exampleRequest, Compiler.or, exampleDefault, exampleOwn, merge, mergeInto, mergeItem, mergeValue, lookup, set]

example : loadCompiler { get := fun p => some ("/usr/share/" ++ p, .system) } none exampleDefault =
    some ({}, [("cxx_compiler.py", .system)]) := by
  simp [loadCompiler, exampleDefault, Compiler.dependency]

end Examples

end Maike.Kvs
