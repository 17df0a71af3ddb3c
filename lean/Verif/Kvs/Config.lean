import Verif.Kvs.Compiler

/-!
# The configuration of maike

Model of core/bin/config.cpp, core/bin/config.hpp, core/source_tree_loader/config.cpp, core/source_tree_loader/input_filter.cpp and
core/source_file_info_loaders/config.cpp.

Regular expressions are represented by their source. `valid` says which of these can be compiled. `none` stands for an exception.
-/

namespace Maike.Kvs

open Maike.Text (ExtMode)

/-! ### Ordered maps with string keys -/

/-- `std::map::insert_or_assign`. The list is in ascending order. -/
def insertOrAssign {V : Type} (k : String) (v : V) : List (String × V) → List (String × V)
  | [] => [(k, v)]
  | (k', v') :: m =>
    if k < k' then (k, v) :: (k', v') :: m
    else if k' < k then (k', v') :: insertOrAssign k v m
    else (k', v) :: m

/-- `std::map::find`. -/
def find {V : Type} (k : String) : List (String × V) → Option V
  | [] => none
  | (k', v) :: m => if k' = k then some v else find k m

/-- Keys are strictly ascending: representation invariant of `std::map`. -/
def Ascending {V : Type} : List (String × V) → Prop
  | [] => True
  | (k, _) :: m => (∀ x ∈ m, k < x.1) ∧ Ascending m

/-- The loops that fill a map from an object, core/source_tree_loader/config.cpp:16-19 and
core/source_file_info_loaders/config.cpp:56-99. -/
def readMap {V : Type} (f : Json → Option V) (acc : List (String × V)) : Members → Option (List (String × V))
  | [] => some acc
  | (k, v) :: ms => (f v).bind fun w => readMap f (insertOrAssign k w acc) ms

/-- The loops that fill an object from a map, core/source_tree_loader/config.cpp:29-31 and
core/source_file_info_loaders/config.cpp:107-109. -/
def writeMap {V : Type} (g : V → Json) (m : List (String × V)) : Members :=
  m.foldl (fun acc kv => set kv.1 (g kv.2) acc) []

/-! ### The source tree loader -/

/-- `InputFilter(ArrayRefConst)` and `source`, core/source_tree_loader/input_filter.cpp:12-37. -/
def readFilter (valid : String → Bool) (vs : List Json) : Option (List String) := do
  let src ← vs.mapM Json.asString
  if src.all valid then some src else none

/-- `toJson(InputFilter)`, core/source_tree_loader/input_filter.cpp:46-51. -/
def writeFilter (src : List String) : Json := .arr (src.map .str)

/-- `SourceTreeLoader::Config`, core/source_tree_loader/config.hpp:14-74. -/
structure TreeConfig where
  filter : List String
  dirFilter : List String
  loaders : List (String × String)
  recursive : Bool

/-- `SourceTreeLoader::Config::Config(CompoundRefConst)`, core/source_tree_loader/config.cpp:10-20. -/
def TreeConfig.fromJson (valid : String → Bool) (v : Json) : Option TreeConfig := do
  let obj ← v.asObj
  let filter ← (getReq Json.asArr "input_filter" obj).bind (readFilter valid)
  let dirFilter ← (getReq Json.asArr "fullpath_input_filter" obj).bind (readFilter valid)
  let recursive ← getReq Json.asInt "recursive" obj
  let loaders ← (getReq Json.asObj "file_info_loaders" obj).bind (readMap Json.asString [])
  return { filter, dirFilter, loaders, recursive := recursive != 0 }

/-- `SourceTreeLoader::toJson`, core/source_tree_loader/config.cpp:22-39. -/
def TreeConfig.toJson (c : TreeConfig) : Json :=
  .obj (set "fullpath_input_filter" (writeFilter c.dirFilter) (set "input_filter" (writeFilter c.filter)
    (set "recursive" (.int (if c.recursive then 1 else 0)) (set "file_info_loaders" (.obj (writeMap .str c.loaders)) []))))

/-- `SourceTreeLoader::Config::Config()`, core/source_tree_loader/config.hpp:17-27, and `InputFilter::InputFilter()`,
core/source_tree_loader/input_filter.cpp:7-10. -/
def TreeConfig.default : TreeConfig where
  filter := ["^\\.", "^__"]
  dirFilter := ["^\\.", "^__"]
  loaders := [(".app.maikerule", "app"), (".cpp", "cxx"), (".hpp", "cxx"), (".lib.maikerule", "lib"), (".py", "extension"),
    (".sass", "sass2css"), (".test.cpp", "cxx_test")]
  recursive := false

/-! ### The loaders -/

/-- What `Loader` holds in `m_handle`, core/source_file_info_loaders/*/source_file_loader.hpp. -/
inductive LoaderKind where
  | app
  | cxx (generated : List String)
  | extension
  | maikerule
  | generic (ext : String) (mode : ExtMode)
  | lib
deriving DecidableEq

/-- `Loader`, core/source_file_info_loaders/loader.hpp:76-183. -/
structure Loader where
  kind : LoaderKind
  compiler : Compiler

/-- `name`, core/source_file_info_loaders/*/source_file_loader.hpp. -/
def LoaderKind.name : LoaderKind → String
  | .app => "app"
  | .cxx _ => "cxx_src_loader"
  | .extension => "extension"
  | .maikerule => "maikerule"
  | .generic _ _ => "generic"
  | .lib => "lib"

/-- `toJson` of the loaders: core/source_file_info_loaders/cxx/source_file_loader.hpp:78-86,
core/source_file_info_loaders/generic/source_file_loader.hpp:104-110, and an empty compound for the others. -/
def LoaderKind.toJson : LoaderKind → Json
  | .cxx gen => .obj (set "generated_includes" (writeFilter gen) [])
  | .generic ext mode =>
    .obj (set "filename_ext_replacement_mode" (.str (Text.extModeToString mode)) (set "target_filename_ext" (.str ext) []))
  | _ => .obj []

/-- `fromJson` of the C++ loader, core/source_file_info_loaders/cxx/source_file_loader.hpp:21-30 and 90-105. -/
def readCxx (valid : String → Bool) (v : Json) : Option LoaderKind := do
  let obj ← v.asObj
  match ← getIf Json.asArr "generated_includes" obj with
  | some vs => (readFilter valid vs).map .cxx
  | none => some (.cxx [])

/-- `fromJson` of the generic loader, core/source_file_info_loaders/generic/source_file_loader.hpp:91-102. -/
def readGeneric (v : Json) : Option LoaderKind := do
  let obj ← v.asObj
  let ext ← getReq Json.asString "target_filename_ext" obj
  let mode ← getIf (fun v => v.asString.bind Text.extModeFromString) "filename_ext_replacement_mode" obj
  return .generic ext (mode.getD .append)

/-- `toJson(Loader)`, core/source_file_info_loaders/loader.hpp:185-192. -/
def Loader.toJson (l : Loader) : Json :=
  .obj (set "config" l.kind.toJson (set "loader" (.str l.kind.name) (set "compiler" l.compiler.toJson [])))

/-- The body of the loop in `Config::Config(CompoundRefConst)`, core/source_file_info_loaders/config.cpp:46-51 and 57-98. -/
def Loader.fromJson (valid : String → Bool) (v : Json) : Option Loader := do
  let cfg ← v.asObj
  let loader ← getReq Json.asString "loader" cfg
  let compiler ← getReq Compiler.fromJson "compiler" cfg
  if loader = "app" then return ⟨.app, compiler⟩
  else if loader = "cxx_src_loader" then
    let kind ← getIf (readCxx valid) "config" cfg
    return ⟨kind.getD (.cxx [".*\\.gen\\.hpp$"]), compiler⟩
  else if loader = "extension" then return ⟨.extension, compiler⟩
  else if loader = "maikerule" then return ⟨.maikerule, compiler⟩
  else if loader = "generic" then
    let kind ← getIf readGeneric "config" cfg
    return ⟨kind.getD (.generic "" .append), compiler⟩
  else if loader = "lib" then return ⟨.lib, compiler⟩
  else none

/-- `SourceFileInfoLoaders::Config::Config()`, core/source_file_info_loaders/config.cpp:15-42, with the default compilers of
core/source_file_info_loaders/{app,cxx,extension,lib,generic}/source_file_loader.hpp. -/
def defaultLoaders : List (String × Loader) :=
  let cxx : Compiler := { recipe := "cxx_compiler.py",
                          config := [("iquote", .arr [.str "."]), ("cflags", .arr [.str "-g", .str "-Wall"])] }
  [("app", ⟨.app, { recipe := "cxx_linker.py", config := [("cflags", .arr [.str "-g"])] }⟩),
   ("cxx", ⟨.cxx [".*\\.gen\\.hpp$"], cxx⟩),
   ("cxx_test", ⟨.cxx [".*\\.gen\\.hpp$"], { cxx with config := set "actions" (.arr [.str "link", .str "run"]) cxx.config }⟩),
   ("extension", ⟨.extension, {}⟩),
   ("identity", ⟨.generic "" .append, { recipe := "copy_file.py" }⟩),
   ("lib", ⟨.lib, { recipe := "make_lib.py" }⟩),
   ("sass2css", ⟨.generic ".css" .replace, { recipe := "sass2css.py" }⟩)]

/-! ### The whole configuration -/

/-- `Config`, core/bin/config.hpp:14-65. -/
structure Config where
  tree : TreeConfig
  loaders : List (String × Loader)
  dirCompiler : Compiler

/-- `Config::Config()`, core/bin/config.hpp:17-19. -/
def Config.default : Config := ⟨.default, defaultLoaders, { recipe := "make_directory.py" }⟩

/-- `Config::Config(CompoundRefConst)`, core/bin/config.hpp:21-26. -/
def Config.fromMembers (valid : String → Bool) (obj : Members) : Option Config := do
  let tree ← getReq (TreeConfig.fromJson valid) "source_tree_loader" obj
  let loaders ← (getReq Json.asObj "source_file_info_loaders" obj).bind (readMap (Loader.fromJson valid) [])
  let dirCompiler ← getReq Compiler.fromJson "dir_compiler" obj
  return { tree, loaders, dirCompiler }

/-- `toJson(Config)`, core/bin/config.hpp:72-79. -/
def Config.toMembers (c : Config) : Members :=
  set "dir_compiler" c.dirCompiler.toJson (set "source_file_info_loaders" (.obj (writeMap Loader.toJson c.loaders))
    (set "source_tree_loader" c.tree.toJson []))

/-- `loadConfig`, core/bin/config.cpp:31-54. For each file there is its content, or `none` if an exception is thrown when it is read:
it cannot be opened, is not valid JSON, or is not an object. -/
def loadConfig (valid : String → Bool) (files : List (Option Members)) : Config :=
  let cfg := files.foldl (fun cfg file =>
    match file with
    | none => cfg
    | some ms => (mergeInto cfg ms).1) []
  match (getReq Json.asObj "maikeconfig" cfg).bind (Config.fromMembers valid) with
  | some c => c
  | none => .default

/-- `mapSourceFileInfoLoaders`, core/bin/config.cpp:9-29. -/
def mapLoaders (c : Config) : Option (List (String × Loader)) :=
  c.tree.loaders.foldlM (fun ret item => (find item.2 c.loaders).map fun l => insertOrAssign item.1 l ret) []

/-! ## Specification -/

/-- What is required of a configuration in order to survive a round trip: maps are sorted (as always in C++), and regular expressions
can be compiled (as they have been). -/
structure Config.Proper (valid : String → Bool) (c : Config) : Prop where
  names : Ascending c.tree.loaders
  loaders : Ascending c.loaders
  filter : ∀ s ∈ c.tree.filter, valid s
  dirFilter : ∀ s ∈ c.tree.dirFilter, valid s
  generated : ∀ x ∈ c.loaders, ∀ gen, x.2.kind = .cxx gen → ∀ s ∈ gen, valid s

/-- The configuration without the information where recipes have been found, which is no part of the configuration file. -/
def Config.forgetOrigins (c : Config) : Config :=
  { c with
    loaders := c.loaders.map fun x => (x.1, { x.2 with compiler := { x.2.compiler with origin := none } })
    dirCompiler := { c.dirCompiler with origin := none } }

/-! ## Lemmas -/

theorem insertOrAssign_last {V : Type} {k : String} {v : V} {m : List (String × V)} (h : ∀ x ∈ m, x.1 < k) :
    insertOrAssign k v m = m ++ [(k, v)] := by
  induction m with
  | nil => rfl
  | cons a m ih =>
    obtain ⟨k', v'⟩ := a
    have h1 : k' < k := h (k', v') (by simp)
    simp [insertOrAssign, String.lt_asymm h1, h1, ih (fun x hx => h x (by simp [hx]))]

theorem readMap_ascending {V : Type} {f : Json → Option V} {g : V → V} {r : V → Json} (m : List (String × V))
    (hf : ∀ x ∈ m, f (r x.2) = some (g x.2)) (acc : List (String × V)) (hm : Ascending m)
    (hacc : ∀ x ∈ acc, ∀ y ∈ m, x.1 < y.1) :
    readMap f acc (m.map fun x => (x.1, r x.2)) = some (acc ++ m.map fun x => (x.1, g x.2)) := by
  induction m generalizing acc with
  | nil => simp [readMap]
  | cons a m ih =>
    obtain ⟨k, v⟩ := a
    have h1 := hf (k, v) (by simp)
    simp only at h1
    simp only [List.map_cons, readMap, h1, Option.bind_some]
    rw [insertOrAssign_last (fun x hx => hacc x hx (k, v) (by simp)),
      ih (fun x hx => hf x (by simp [hx])) _ hm.2 ?_]
    · simp
    · intro x hx y hy
      simp only [List.mem_append, List.mem_singleton] at hx
      rcases hx with hx | rfl
      · exact hacc x hx y (by simp [hy])
      · exact hm.1 y hy

theorem set_last {k : String} {v : Json} {m : Members} (h : k ∉ keys m) : set k v m = m ++ [(k, v)] := by
  induction m with
  | nil => rfl
  | cons a m ih =>
    obtain ⟨k', v'⟩ := a
    simp [keys] at h
    have : k' ≠ k := fun e => h.1 e.symm
    simp [set, this]
    apply ih
    simp [keys]
    exact h.2

theorem writeMap_ascending {V : Type} (g : V → Json) {m : List (String × V)} (hm : Ascending m) :
    writeMap g m = m.map fun x => (x.1, g x.2) := by
  have : ∀ acc : Members, (∀ x ∈ acc, ∀ y ∈ m, x.1 < y.1) →
      m.foldl (fun acc kv => set kv.1 (g kv.2) acc) acc = acc ++ m.map fun x => (x.1, g x.2) := by
    induction m with
    | nil => simp
    | cons a m ih =>
      intro acc hacc
      simp only [List.foldl_cons, List.map_cons]
      rw [set_last, ih hm.2]
      · simp
      · intro x hx y hy
        simp only [List.mem_append, List.mem_singleton] at hx
        rcases hx with hx | rfl
        · exact hacc x hx y (by simp [hy])
        · exact hm.1 y hy
      · simp only [keys, List.mem_map, not_exists, not_and]
        intro x hx e
        have := hacc x hx a (by simp)
        rw [e] at this
        exact String.lt_irrefl _ this
  have := this [] (by simp)
  simpa [writeMap] using this

theorem readFilter_write {valid : String → Bool} {src : List String} (h : ∀ s ∈ src, valid s) :
    readFilter valid (src.map .str) = some src := by
  have : (src.map Json.str).mapM Json.asString = some src := by
    clear h
    induction src with
    | nil => rfl
    | cons s src ih => simp [List.mapM_cons, Json.asString, ih]
  unfold readFilter
  rw [this]
  simpa using h

theorem loader_roundTrip {valid : String → Bool} (l : Loader) (h : ∀ gen, l.kind = .cxx gen → ∀ s ∈ gen, valid s) :
    Loader.fromJson valid l.toJson = some { l with compiler := { l.compiler with origin := none } } := by
  obtain ⟨kind, c⟩ := l
  have hc : Compiler.fromJson c.toJson = _ := compiler_roundTrip c
  cases kind with
  | cxx gen =>
    have hg := readFilter_write (h gen rfl)
    simp [Loader.fromJson, Loader.toJson, Json.asObj, getReq, getIf, lookup_set, hc, LoaderKind.name, Json.asString,
      LoaderKind.toJson, readCxx, writeFilter, Json.asArr, hg]
  | generic ext mode =>
    simp [Loader.fromJson, Loader.toJson, Json.asObj, getReq, getIf, lookup_set, hc, LoaderKind.name, Json.asString,
      LoaderKind.toJson, readGeneric, Text.C30_extMode.roundTrip]
  | _ =>
    simp [Loader.fromJson, Loader.toJson, Json.asObj, getReq, lookup_set, hc, LoaderKind.name, Json.asString]

theorem tree_roundTrip {valid : String → Bool} (c : TreeConfig) (h1 : Ascending c.loaders) (h2 : ∀ s ∈ c.filter, valid s)
    (h3 : ∀ s ∈ c.dirFilter, valid s) : TreeConfig.fromJson valid c.toJson = some c := by
  obtain ⟨f, d, l, r⟩ := c
  have hl : readMap Json.asString [] (writeMap .str l) = some l := by
    rw [writeMap_ascending _ h1]
    have := readMap_ascending (f := Json.asString) (g := id) (r := .str) l (fun x _ => rfl) [] h1 (by simp)
    simpa using this
  cases r <;> simp [TreeConfig.fromJson, TreeConfig.toJson, Json.asObj, getReq, lookup_set, writeFilter, Json.asArr,
    readFilter_write h2, readFilter_write h3, Json.asInt, hl]

theorem find_insertOrAssign {V : Type} (k k' : String) (v : V) (m : List (String × V)) (hm : Ascending m) :
    find k (insertOrAssign k' v m) = if k' = k then some v else find k m := by
  induction m with
  | nil => simp [insertOrAssign, find]
  | cons a m ih =>
    obtain ⟨k0, v0⟩ := a
    simp only [insertOrAssign]
    split
    · simp [find]
    · split
      · simp only [find, ih hm.2]
        split
        · rename_i h1 h2 h3
          subst h3
          have : k' ≠ k0 := fun e => by subst e; exact String.lt_irrefl _ h2
          simp [this]
        · rfl
      · rename_i h1 h2
        have : k' = k0 := String.le_antisymm (String.not_lt.mp h2) (String.not_lt.mp h1)
        subst this
        simp only [find]
        split <;> rfl

theorem insertOrAssign_mem {V : Type} {k : String} {v : V} {m : List (String × V)} {x : String × V}
    (h : x ∈ insertOrAssign k v m) : x.1 = k ∨ ∃ y ∈ m, y.1 = x.1 := by
  induction m with
  | nil => simp [insertOrAssign] at h; exact .inl (by rw [h])
  | cons a m ih =>
    simp only [insertOrAssign] at h
    split at h
    · simp only [List.mem_cons] at h
      rcases h with rfl | rfl | h
      · exact .inl rfl
      · exact .inr ⟨_, by simp, rfl⟩
      · exact .inr ⟨x, by simp [h], rfl⟩
    · split at h
      · simp only [List.mem_cons] at h
        rcases h with rfl | h
        · exact .inr ⟨_, by simp, rfl⟩
        · rcases ih h with h | ⟨y, hy, e⟩
          · exact .inl h
          · exact .inr ⟨y, by simp [hy], e⟩
      · simp only [List.mem_cons] at h
        rcases h with rfl | h
        · exact .inr ⟨a, by simp, rfl⟩
        · exact .inr ⟨x, by simp [h], rfl⟩

theorem insertOrAssign_ascending {V : Type} {k : String} {v : V} {m : List (String × V)} (hm : Ascending m) :
    Ascending (insertOrAssign k v m) := by
  induction m with
  | nil => simp [insertOrAssign, Ascending]
  | cons a m ih =>
    obtain ⟨k0, v0⟩ := a
    simp only [insertOrAssign]
    split
    · rename_i h
      refine ⟨?_, hm⟩
      intro x hx
      simp only [List.mem_cons] at hx
      rcases hx with rfl | hx
      · exact h
      · exact String.lt_trans h (hm.1 x hx)
    · split
      · rename_i h
        refine ⟨?_, ih hm.2⟩
        intro x hx
        rcases insertOrAssign_mem hx with e | ⟨y, hy, e⟩
        · rw [e]; exact h
        · rw [← e]; exact hm.1 y hy
      · exact hm

/-! ## Theorems -/

/-- **C60.** Loading a configuration that has been written by `--configdump` gives that configuration back. -/
theorem C60_roundTrip (valid : String → Bool) (c : Config) (h : c.Proper valid) :
    Config.fromMembers valid c.toMembers = some c.forgetOrigins := by
  obtain ⟨tree, loaders, dc⟩ := c
  have hl : readMap (Loader.fromJson valid) [] (writeMap Loader.toJson loaders) =
      some (loaders.map fun x => (x.1, { x.2 with compiler := { x.2.compiler with origin := none } })) := by
    rw [writeMap_ascending _ h.loaders]
    have := readMap_ascending (f := Loader.fromJson valid)
      (g := fun l => { l with compiler := { l.compiler with origin := none } }) (r := Loader.toJson) loaders
      (fun x hx => loader_roundTrip x.2 (h.generated x hx)) [] h.loaders (by simp)
    simpa using this
  simp [Config.fromMembers, Config.toMembers, getReq, lookup_set, Json.asObj, compiler_roundTrip, hl,
    tree_roundTrip tree h.names h.filter h.dirFilter, Config.forgetOrigins]

/-- **C60**, through `loadConfig`: a dump that is given as the only configuration file leads to the same configuration. -/
theorem C60_load (valid : String → Bool) (c : Config) (h : c.Proper valid) :
    loadConfig valid [some [("maikeconfig", .obj c.toMembers)]] = c.forgetOrigins := by
  simp [loadConfig, mergeInto, lookup, set, getReq, Json.asObj, C60_roundTrip valid c h]

/-- **C54.** Files which cannot be read make no difference. -/
theorem C54_skip (valid : String → Bool) (files : List (Option Members)) :
    loadConfig valid files = loadConfig valid (files.filter Option.isSome) := by
  have : ∀ acc : Members, files.foldl (fun cfg file => match file with | none => cfg | some ms => (mergeInto cfg ms).1) acc =
      (files.filter Option.isSome).foldl (fun cfg file => match file with | none => cfg | some ms => (mergeInto cfg ms).1) acc := by
    induction files with
    | nil => intro acc; rfl
    | cons f files ih =>
      intro acc
      cases f with
      | none => simp [ih]
      | some ms => simp [ih]
  unfold loadConfig
  rw [this]

/-- **C54.** If the readable files have no conflict, then the result is the configuration found in the merged files if it is usable, and
the default configuration otherwise. -/
theorem C54_merged (valid : String → Bool) (files : List (Option Members)) (m : Members)
    (h : (files.filterMap id).foldlM merge [] = some m) :
    (∀ ms c, lookup "maikeconfig" m = some (.obj ms) → Config.fromMembers valid ms = some c → loadConfig valid files = c) ∧
    ((∀ ms c, lookup "maikeconfig" m = some (.obj ms) → Config.fromMembers valid ms ≠ some c) →
      loadConfig valid files = .default) := by
  have hf : ∀ (acc : Members), (files.filterMap id).foldlM merge acc = some m →
      files.foldl (fun cfg file => match file with | none => cfg | some ms => (mergeInto cfg ms).1) acc = m := by
    clear h
    induction files with
    | nil => intro acc h; simpa using h
    | cons f files ih =>
      intro acc h
      cases f with
      | none => simp at h ⊢; exact ih acc h
      | some ms =>
        simp only [List.filterMap_cons, id, List.foldlM_cons] at h
        obtain ⟨acc', h1, h2⟩ := Option.bind_eq_some_iff.mp h
        simp only [List.foldl_cons]
        have : (mergeInto acc ms).1 = acc' := by
          unfold merge at h1
          split at h1
          · rename_i e; rw [e]; exact Option.some.inj h1
          · cases h1
        rw [this]
        exact ih acc' h2
  have hm := hf [] h
  unfold loadConfig
  rw [hm]
  constructor
  · intro ms c h1 h2
    simp [getReq, h1, Json.asObj, h2]
  · intro hn
    simp only
    split
    · rename_i c hc
      simp only [getReq, Option.bind_eq_some_iff] at hc
      obtain ⟨ms, ⟨v, hv, hms⟩, hc⟩ := hc
      cases v <;> simp [Json.asObj] at hms
      subst hms
      exact absurd hc (hn _ _ hv)
    · rfl

/-- A file that is in conflict with the ones before is not skipped as a whole: what precedes the conflict is in effect. -/
theorem C54_conflict : ∃ a b : Members, merge a b = none ∧ lookup "x" a = none ∧ lookup "x" (mergeInto a b).1 = lookup "x" b ∧
    lookup "x" b ≠ none := by
  refine ⟨[("y", .null)], [("x", .null), ("y", .int 1)], ?_, rfl, ?_, ?_⟩
  · simp [merge, mergeInto, lookup, set, mergeItem, mergeValue, Json.type]
  · simp [mergeInto, lookup, set, mergeItem, mergeValue, Json.type]
  · simp [lookup]

theorem find_eq_none {V : Type} {k : String} {m : List (String × V)} (h : ∀ x ∈ m, x.1 ≠ k) : find k m = none := by
  induction m with
  | nil => rfl
  | cons a m ih =>
    simp only [find, h a (by simp), if_false]
    exact ih fun x hx => h x (by simp [hx])

theorem mapLoaders_aux (c : Config) (names : List (String × String)) (hn : Ascending names) (acc : List (String × Loader))
    (ha : Ascending acc) (hlt : ∀ x ∈ acc, ∀ y ∈ names, x.1 < y.1) :
    match names.foldlM (fun ret item => (find item.2 c.loaders).map fun l => insertOrAssign item.1 l ret) acc with
    | none => ∃ x ∈ names, find x.2 c.loaders = none
    | some ret => (∀ x ∈ names, (find x.2 c.loaders).isSome) ∧
        ∀ k, find k ret = ((find k names).bind fun n => find n c.loaders).or (find k acc) := by
  induction names generalizing acc with
  | nil => simp [find]
  | cons a names ih =>
    obtain ⟨k0, n0⟩ := a
    simp only [List.foldlM_cons]
    cases hf : find n0 c.loaders with
    | none => simp [hf]
    | some l =>
      simp only [Option.map_some, Option.bind_eq_bind, Option.bind_some]
      have hlast := insertOrAssign_last (k := k0) (v := l) (fun x hx => hlt x hx (k0, n0) (List.mem_cons_self ..))
      have := ih hn.2 (insertOrAssign k0 l acc) (insertOrAssign_ascending ha) (by
        intro x hx y hy
        rw [hlast] at hx
        simp only [List.mem_append, List.mem_singleton] at hx
        rcases hx with hx | rfl
        · exact hlt x hx y (by simp [hy])
        · exact hn.1 y hy)
      split at this
      · obtain ⟨x, hx, h⟩ := this
        exact ⟨x, by simp [hx], h⟩
      · refine ⟨?_, ?_⟩
        · intro x hx
          simp only [List.mem_cons] at hx
          rcases hx with rfl | hx
          · simp [hf]
          · exact this.1 x hx
        · intro k
          rw [this.2 k, find_insertOrAssign _ _ _ _ ha]
          simp only [find]
          by_cases hk : k0 = k
          · subst hk
            have : find k0 names = none := find_eq_none fun y hy e => String.lt_irrefl k0 (by
              have := hn.1 y hy
              rw [e] at this
              exact this)
            simp [this, hf]
          · simp [hk]

/-- **C61.** Each extension is mapped to the loader configured under the name given for it; if there is no such loader, an error is
reported. -/
theorem C61_loaders (c : Config) (hn : Ascending c.tree.loaders) :
    match mapLoaders c with
    | none => ∃ x ∈ c.tree.loaders, find x.2 c.loaders = none
    | some ret => (∀ x ∈ c.tree.loaders, (find x.2 c.loaders).isSome) ∧
        ∀ ext, find ext ret = (find ext c.tree.loaders).bind fun n => find n c.loaders := by
  have := mapLoaders_aux c c.tree.loaders hn [] trivial (by simp)
  unfold mapLoaders
  split at this
  · exact this
  · exact ⟨this.1, fun k => by rw [this.2 k]; simp [find]⟩

section Examples

theorem default_proper : Config.default.Proper (fun _ => true) where
  names := by
    simp [Ascending, Config.default, TreeConfig.default]
  loaders := by
    simp [Ascending, Config.default, defaultLoaders]
  filter := by simp
  dirFilter := by simp
  generated := by simp

/-- The default configuration is usable. -/
example : (mapLoaders .default).isSome := by decide +kernel

example : loadConfig (fun _ => true) [none, some [("maikeconfig", .obj Config.default.toMembers)], none] =
    Config.default.forgetOrigins := by
  rw [C54_skip]
  exact C60_load _ _ default_proper

example : loadConfig (fun _ => true) [none, some [("maikeconfig", .int 1)]] = .default := by
  simp [loadConfig, mergeInto, lookup, set, getReq, Json.asObj]

end Examples

end Maike.Kvs
