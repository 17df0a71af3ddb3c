import Verif.Kvs.JsonTextUses

/-!
# Names that are not UTF-8 (C99)

Names of files are sequences of bytes. `Compound::set` and `Array::append` convert them by `json_string`, which returns a null pointer if the bytes are not UTF-8.
The functions `json_object_set_new` and `json_array_append_new` fail if they get a null pointer, and their results are ignored.
-/

namespace Maike.Kvs.Names

/-! ## Model -/

/-- The bytes of a name. -/
abbrev Bytes := List UInt8

/-- `JsonHandle::JsonHandle(char const*)`, core/key_value_store/json_handle.hpp:174-176. `none` stands for a null pointer. -/
def jsonString (b : Bytes) : Option Json := (String.fromUTF8? ⟨b.toArray⟩).map .str

/-- `Compound::set`, core/key_value_store/compound.hpp:146-158, if the value may be a null pointer. -/
def setIf (k : String) (v : Option Json) (ms : Members) : Members :=
  match v with
  | some v => set k v ms
  | none => ms

/-- `Array::append`, core/key_value_store/array.hpp:132-144, if the value may be a null pointer. -/
def appendIf (vs : List Json) (v : Option Json) : List Json :=
  match v with
  | some v => vs ++ [v]
  | none => vs

/-- A dependency, with the bytes of its name. The properties are read from JSON, so they are UTF-8. -/
structure RawDep where
  name : Bytes
  origin : Db.Origin
  properties : List (String × String) := []

/-- `toJson`, core/db/dependency.cpp:11-22. -/
def RawDep.toJson (d : RawDep) : Json :=
  .obj (d.properties.foldl (fun acc p => set p.1 (.str p.2) acc)
    (setIf "origin" (some (.str (Text.originToString d.origin))) (setIf "ref" (jsonString d.name) [])))

/-- The input of `makeBuildCommand`; as `Request`, but with the bytes of names. -/
structure RawRequest where
  default : Option Compiler
  own : Compiler
  path : Bytes
  id : Nat
  info : Json
  format : Text.LogFormat
  targets : List Bytes
  deps : List RawDep

/-- What `makeBuildCommand` passes to the recipe, core/db/source_file_record.cpp:40-64. `none` if the configurations cannot be merged. -/
def options (q : RawRequest) : Option Members := do
  let compiler ← match q.default with
    | some d => d.or q.own
    | none => some q.own
  let opts := setIf "compiler_cfg" (some (.obj compiler.config)) []
  let opts := setIf "source_file" (jsonString q.path) opts
  let opts := setIf "task_id" (some (.int q.id)) opts
  let opts := setIf "build_info" (some q.info) opts
  let opts := setIf "log_format" (some (.str (Text.logFormatToString q.format))) opts
  let opts := setIf "targets" (some (.arr (q.targets.foldl (fun vs t => appendIf vs (jsonString t)) []))) opts
  let opts := setIf "dependencies" (some (.arr (q.deps.foldl (fun vs d => appendIf vs (some d.toJson)) []))) opts
  return opts

/-! ## Specification -/

/-- The bytes are the encoding of a string. -/
def Encodes (b : Bytes) (s : String) : Prop := s.toUTF8.data.toList = b

/-- The bytes are the encoding of some string. -/
def IsText (b : Bytes) : Prop := ∃ s, Encodes b s

/-- The two requests are the same, and all names are text. -/
structure Same (q : RawRequest) (r : Request) : Prop where
  default : q.default = r.default
  own : q.own = r.own
  path : Encodes q.path r.path
  id : q.id = r.id
  info : q.info = r.info
  format : q.format = r.format
  targets : q.targets.length = r.targets.length ∧ ∀ x ∈ q.targets.zip r.targets, Encodes x.1 x.2
  deps : q.deps.length = r.deps.length ∧ ∀ x ∈ q.deps.zip r.deps, Encodes x.1.name x.2.name ∧ x.1.origin = x.2.origin ∧ x.1.properties = x.2.properties

/-! ## Lemmas -/

theorem fromUTF8_iff {b : Bytes} {s : String} : String.fromUTF8? ⟨b.toArray⟩ = some s ↔ Encodes b s := by
  unfold String.fromUTF8? Encodes
  constructor
  · intro h
    split at h
    · simp only [Option.some.injEq] at h
      subst h
      rfl
    · cases h
  · intro h
    have e : s.toUTF8 = ⟨b.toArray⟩ := by
      rw [← h]
    have hv : ByteArray.IsValidUTF8 ⟨b.toArray⟩ := by
      rw [← e]; exact s.isValidUTF8
    rw [dif_pos hv]
    congr 1
    apply String.toByteArray_inj.mp
    exact e.symm

theorem jsonString_some {b : Bytes} {s : String} (h : Encodes b s) : jsonString b = some (.str s) := by
  rw [jsonString, fromUTF8_iff.mpr h]; rfl

theorem jsonString_none {b : Bytes} (h : ¬ IsText b) : jsonString b = none := by
  rw [jsonString]
  cases e : String.fromUTF8? ⟨b.toArray⟩ with
  | none => rfl
  | some s => exact absurd ⟨s, fromUTF8_iff.mp e⟩ h

theorem jsonString_iff {b : Bytes} {v : Json} : jsonString b = some v ↔ ∃ s, Encodes b s ∧ v = .str s := by
  constructor
  · intro h
    simp only [jsonString, Option.map_eq_some_iff] at h
    obtain ⟨s, hs, rfl⟩ := h
    exact ⟨s, fromUTF8_iff.mp hs, rfl⟩
  · rintro ⟨s, hs, rfl⟩
    exact jsonString_some hs

theorem foldl_appendIf {α : Type} (g : α → Option Json) (l : List α) (acc : List Json) :
    l.foldl (fun vs t => appendIf vs (g t)) acc = acc ++ l.filterMap g := by
  induction l generalizing acc with
  | nil => simp
  | cons a l ih =>
    rw [List.foldl_cons, ih]
    cases h : g a <;> simp [appendIf, h]

theorem filterMap_strings {bs : List Bytes} {ss : List String} (hl : bs.length = ss.length) (h : ∀ x ∈ bs.zip ss, Encodes x.1 x.2) :
    bs.filterMap jsonString = ss.map .str := by
  induction bs generalizing ss with
  | nil =>
    cases ss with
    | nil => rfl
    | cons s ss => simp at hl
  | cons b bs ih =>
    cases ss with
    | nil => simp at hl
    | cons s ss =>
      rw [List.filterMap_cons_some (jsonString_some (h (b, s) (by simp))), ih (by simpa using hl) (fun x hx => h x (by simp [hx]))]
      rfl

theorem dep_eq {d : RawDep} {e : DepJson} (h : Encodes d.name e.name ∧ d.origin = e.origin ∧ d.properties = e.properties) : d.toJson = e.toJson := by
  rw [RawDep.toJson, DepJson.toJson, jsonString_some h.1, h.2.1, h.2.2]
  rfl

theorem deps_eq {ds : List RawDep} {es : List DepJson} (hl : ds.length = es.length)
    (h : ∀ x ∈ ds.zip es, Encodes x.1.name x.2.name ∧ x.1.origin = x.2.origin ∧ x.1.properties = x.2.properties) :
    ds.map RawDep.toJson = es.map DepJson.toJson := by
  induction ds generalizing es with
  | nil =>
    cases es with
    | nil => rfl
    | cons s ss => simp at hl
  | cons b bs ih =>
    cases es with
    | nil => simp at hl
    | cons s ss =>
      rw [List.map_cons, List.map_cons, ih (by simpa using hl) (fun x hx => h x (by simp [hx])), dep_eq (h (b, s) (by simp))]

theorem deps_all (ds : List RawDep) : ds.filterMap (fun d => some d.toJson) = ds.map RawDep.toJson := by
  induction ds with
  | nil => rfl
  | cons d ds ih => simp

theorem options_eq (q : RawRequest) : options q = (match q.default with
    | some d => d.or q.own
    | none => some q.own).map fun c : Compiler =>
      set "dependencies" (.arr (q.deps.map RawDep.toJson)) (set "targets" (.arr (q.targets.filterMap jsonString))
        (set "log_format" (.str (Text.logFormatToString q.format)) (set "build_info" q.info (set "task_id" (.int q.id)
          (setIf "source_file" (jsonString q.path) (set "compiler_cfg" (.obj c.config) [])))))) := by
  simp only [options, foldl_appendIf, List.nil_append, setIf, deps_all]
  cases q.default with
  | none => rfl
  | some d => simp only; cases d.or q.own <;> rfl

/-! ## Theorems -/

/-- **C99** (part). If all names are UTF-8, the recipe is told all of them: the request is the one of C34, C79 and C98. -/
theorem C99_text_partial {q : RawRequest} {r : Request} (h : Same q r) : options q = (makeBuildCommand r).map Prod.snd := by
  have h1 := filterMap_strings h.targets.1 h.targets.2
  have h2 := deps_eq h.deps.1 h.deps.2
  simp only [options_eq, makeBuildCommand, h1, h2, jsonString_some h.path, h.default, h.own, h.id, h.info, h.format, setIf]
  cases r.default with
  | none => rfl
  | some d => simp only; cases d.or r.own <;> rfl

/-- **C99** (what happens otherwise). The name of the file is missing if it is not UTF-8; of the targets, those are listed whose names are UTF-8; and of the
dependencies, all are listed, but those whose names are not UTF-8 are listed without a name. No error is reported. -/
theorem C99_otherwise {q : RawRequest} {opts : Members} (h : options q = some opts) :
    (¬ IsText q.path → lookup "source_file" opts = none) ∧
    (∃ vs, lookup "targets" opts = some (.arr vs) ∧ vs = q.targets.filterMap jsonString) ∧
    (lookup "dependencies" opts = some (.arr (q.deps.map RawDep.toJson))) ∧
    (∀ d ∈ q.deps, ¬ IsText d.name → ∀ ms, d.toJson = .obj ms → (∀ p ∈ d.properties, p.1 ≠ "ref") → lookup "ref" ms = none) ∧
    ((options q).isSome ↔ ∀ d, q.default = some d → (d.or q.own).isSome) := by
  have hdep : ∀ d ∈ q.deps, ¬ IsText d.name → ∀ ms, d.toJson = .obj ms → (∀ p ∈ d.properties, p.1 ≠ "ref") → lookup "ref" ms = none := by
    intro d _ ht ms e hp
    simp only [RawDep.toJson, jsonString_none ht, setIf, Json.obj.injEq] at e
    rw [← e]
    clear e
    have key : ∀ (l : List (String × String)) (acc : Members), (∀ p ∈ l, p.1 ≠ "ref") → lookup "ref" acc = none →
        lookup "ref" (l.foldl (fun acc p => set p.1 (.str p.2) acc) acc) = none := by
      intro l
      induction l with
      | nil => intro acc _ h; exact h
      | cons p l ih =>
        intro acc hp h
        rw [List.foldl_cons]
        refine ih _ (fun x hx => hp x (by simp [hx])) ?_
        rw [lookup_set, if_neg (hp p (by simp))]
        exact h
    exact key _ _ hp (by simp [set, lookup])
  have hsome : (options q).isSome ↔ ∀ d, q.default = some d → (d.or q.own).isSome := by
    rw [options_eq]
    cases q.default with
    | none => simp
    | some d => cases d.or q.own <;> simp
  refine ⟨?_, ?_, ?_, hdep, hsome⟩
  all_goals
    rw [options_eq, Option.map_eq_some_iff] at h
    obtain ⟨c, _, rfl⟩ := h
  · intro ht
    simp [jsonString_none ht, setIf, lookup_set, lookup]
  · refine ⟨_, ?_, rfl⟩
    simp [lookup_set]
  · simp [lookup_set]

/-! ## Examples -/

namespace Examples

/-- A file whose name has been written with Latin-1: `ü.cpp`, with the target `ü.o`, and a target whose name is text. -/
def latin1 : RawRequest where
  default := none
  own := { recipe := "cxx_compiler.py" }
  path := [0xfc, 46, 99, 112, 112]
  id := 1
  info := .obj []
  format := .plainText
  targets := [[0xfc, 46, 111], [97, 46, 111]]
  deps := [{ name := [0xfc, 46, 104], origin := .project }]

/-- **C99** is not true in general: the recipe is executed, but it is not told the name of the file, and only one of the two targets. -/
theorem C99_false : ∃ (q : RawRequest) (opts : Members), q.path ≠ [] ∧ q.targets.length = 2 ∧ options q = some opts ∧ lookup "source_file" opts = none ∧
    lookup "targets" opts = some (.arr [.str "a.o"]) := by
  have h : ∃ opts, options latin1 = some opts := by
    rw [options_eq]; exact ⟨_, rfl⟩
  obtain ⟨opts, h⟩ := h
  have hx := C99_otherwise h
  have hp : ¬ IsText latin1.path := by
    rintro ⟨s, hs⟩
    have h1 := fromUTF8_iff.mpr hs
    have h2 : String.fromUTF8? ⟨latin1.path.toArray⟩ = none := by decide +kernel
    rw [h2] at h1
    cases h1
  refine ⟨latin1, opts, by decide, rfl, h, hx.1 hp, ?_⟩
  obtain ⟨vs, h1, rfl⟩ := hx.2.1
  rw [h1]
  have e1 : String.fromUTF8? ⟨#[0xfc, 46, 111]⟩ = none := by decide +kernel
  have e2 : String.fromUTF8? ⟨#[97, 46, 111]⟩ = some "a.o" := by decide +kernel
  simp [latin1, jsonString, e1, e2]

/-- Names with characters outside ASCII are fine if they are UTF-8. -/
def utf8 : RawRequest := { latin1 with path := [0xc3, 0xbc, 46, 99, 112, 112], targets := [[0xc3, 0xbc, 46, 111]], deps := [] }

example : ∃ r : Request, Same utf8 r ∧ r.path = "ü.cpp" ∧ r.targets = ["ü.o"] := by
  refine ⟨⟨none, { recipe := "cxx_compiler.py" }, "ü.cpp", 1, .obj [], .plainText, ["ü.o"], []⟩, ?_, rfl, rfl⟩
  refine ⟨rfl, rfl, ?_, rfl, rfl, rfl, ⟨rfl, ?_⟩, ⟨rfl, ?_⟩⟩
  · exact fromUTF8_iff.mp (by decide +kernel)
  · intro x hx
    simp [utf8] at hx
    subst hx
    exact fromUTF8_iff.mp (by decide +kernel)
  · intro x hx
    simp [utf8] at hx

end Examples

end Maike.Kvs.Names
