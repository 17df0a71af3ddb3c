import Verif.Kvs.JsonText
import Verif.Kvs.Config

/-!
# What recipes and the user get as text (C98)

The requests of C34 and the dump of C60, as texts.
-/

namespace Maike.Kvs.JsonText

/-! ## Specification -/

/-- The same compiler, apart from the order of members in the configuration. -/
structure SameCompiler (a b : Compiler) : Prop where
  recipe : a.recipe = b.recipe
  origin : a.origin = b.origin
  config : SameMembers a.config b.config
  useGetTags : a.useGetTags = b.useGetTags

/-- The same loaders, apart from the order of members in the configurations of compilers. -/
inductive SameLoaders : List (String × Loader) → List (String × Loader) → Prop where
  | nil : SameLoaders [] []
  | cons {k : String} {a b : Loader} {l m : List (String × Loader)} (hk : a.kind = b.kind) (hc : SameCompiler a.compiler b.compiler) (h : SameLoaders l m) :
      SameLoaders ((k, a) :: l) ((k, b) :: m)

/-- The same configuration, apart from the order of members in the configurations of compilers. -/
structure SameConfig (a b : Config) : Prop where
  tree : a.tree = b.tree
  loaders : SameLoaders a.loaders b.loaders
  dirCompiler : SameCompiler a.dirCompiler b.dirCompiler

/-! ## Lemmas -/

theorem set_nodup {k : String} {v : Json} {ms : Members} (h : (keys ms).Nodup) : (keys (set k v ms)).Nodup := by
  have key : ∀ ms : Members, ∀ x, x ∈ keys (set k v ms) ↔ x = k ∨ x ∈ keys ms := by
    intro ms
    induction ms with
    | nil => simp [set, keys]
    | cons m ms ih =>
      obtain ⟨k', v'⟩ := m
      intro x
      simp only [set]
      split
      · rename_i e; subst e; simp [keys]
      · have := ih x
        simp only [keys, List.map_cons, List.mem_cons] at this ⊢
        rw [this]
        constructor
        · rintro (h | h | h)
          · exact .inr (.inl h)
          · exact .inl h
          · exact .inr (.inr h)
        · rintro (h | h | h)
          · exact .inr (.inl h)
          · exact .inl h
          · exact .inr (.inr h)
  induction ms with
  | nil => simp [set, keys]
  | cons m ms ih =>
    obtain ⟨k', v'⟩ := m
    simp only [keys, List.map_cons, List.nodup_cons] at h
    simp only [set]
    split
    · rename_i e; subst e
      simp only [keys, List.map_cons, List.nodup_cons]
      exact h
    · rename_i e
      have h1 := ih h.2
      have h2 := key ms k'
      simp only [keys, List.map_cons, List.nodup_cons] at h1 h2 ⊢
      refine ⟨?_, h1⟩
      rw [h2]
      rintro (e' | e')
      · exact e e'
      · exact h.1 e'

theorem lookup_sorted {ms : Members} (h : (keys ms).Nodup) (k : String) : lookup k (byKey (sortMembers ms)) = (lookup k ms).map sortKeys := by
  have h1 : ∀ ms : Members, lookup k (sortMembers ms) = (lookup k ms).map sortKeys := by
    intro ms
    induction ms with
    | nil => rw [sortMembers]; rfl
    | cons m ms ih =>
      obtain ⟨k', v⟩ := m
      rw [sortMembers, sortMember]
      simp only [lookup]
      split
      · rfl
      · exact ih
  have h2 : (keys (sortMembers ms)).Nodup := (sortMembers_keys ms).nodup_iff.mp h
  have h3 : (keys (byKey (sortMembers ms))).Nodup := (((byKey_perm _).map _).nodup_iff).mpr h2
  rw [← h1]
  cases e : lookup k (sortMembers ms) with
  | none =>
    rw [lookup_eq_none] at e ⊢
    intro hm
    exact e (((byKey_perm _).map Prod.fst).mem_iff.mp hm)
  | some v => exact lookup_of_mem h3 ((byKey_perm _).mem_iff.mpr (lookup_mem e))

theorem sortElems_eq (vs : List Json) : sortElems vs = vs.map sortKeys := by
  induction vs with
  | nil => rw [sortElems]; rfl
  | cons v vs ih => rw [sortElems, ih]; rfl

theorem sortMembers_eq (ms : Members) : sortMembers ms = ms.map fun m => (m.1, sortKeys m.2) := by
  induction ms with
  | nil => rw [sortMembers]; rfl
  | cons m ms ih => obtain ⟨k, v⟩ := m; rw [sortMembers, ih, sortMember]; rfl

theorem sortKeys_str (s : String) : sortKeys (.str s) = .str s := by rw [sortKeys]

theorem sortKeys_int (i : Int) : sortKeys (.int i) = .int i := by rw [sortKeys]

theorem sortKeys_obj (ms : Members) : sortKeys (.obj ms) = .obj (byKey (sortMembers ms)) := by rw [sortKeys]

theorem sortKeys_arr (vs : List Json) : sortKeys (.arr vs) = .arr (vs.map sortKeys) := by rw [sortKeys, sortElems_eq]

theorem sortKeys_strings (l : List String) : (l.map Json.str).map sortKeys = l.map .str := by
  rw [List.map_map]
  apply List.map_congr_left
  intro s _
  exact sortKeys_str s

theorem byKey_of_sorted {ms : Members} (h : ms.Pairwise fun a b => a.1 ≤ b.1) : byKey ms = ms := by
  induction ms with
  | nil => rfl
  | cons m ms ih =>
    obtain ⟨h1, h2⟩ := List.pairwise_cons.mp h
    rw [byKey, ih h2]
    cases ms with
    | nil => rfl
    | cons n ms => rw [insertKey, if_pos (h1 n (by simp))]

theorem ascending_pairwise {V : Type} {m : List (String × V)} (h : Ascending m) : m.Pairwise fun a b => a.1 ≤ b.1 := by
  induction m with
  | nil => exact .nil
  | cons a m ih => exact List.pairwise_cons.mpr ⟨fun x hx => String.not_lt.mp (String.lt_asymm (h.1 x hx)), ih h.2⟩

theorem sortKeys_writeMap {V : Type} (g : V → Json) {m : List (String × V)} (hm : Ascending m) :
    sortKeys (.obj (writeMap g m)) = .obj (m.map fun x => (x.1, sortKeys (g x.2))) := by
  rw [sortKeys_obj, writeMap_ascending _ hm, sortMembers_eq, List.map_map]
  congr 1
  refine byKey_of_sorted ?_
  rw [List.pairwise_map]
  exact (ascending_pairwise hm)

theorem sortMembers_nil : byKey (sortMembers []) = [] := by rw [sortMembers]; rfl

/-- The compiler with sorted configuration. -/
def sortedCompiler (c : Compiler) : Compiler := { c with origin := none, config := byKey (sortMembers c.config) }

theorem same_sortedCompiler (c : Compiler) : SameCompiler (sortedCompiler c) { c with origin := none } where
  recipe := rfl
  origin := rfl
  config := .trans (.of_perm (byKey_perm _)) (same_sortMembers _).symm
  useGetTags := rfl

theorem compiler_text (c : Compiler) : Compiler.fromJson (sortKeys c.toJson) = some (sortedCompiler c) := by
  have hn : ∀ a b c : Json, (keys (set "use_get_tags" a (set "config" b (set "recipe" c [])))).Nodup :=
    fun a b c => set_nodup (set_nodup (set_nodup (by simp [keys])))
  obtain ⟨r, o, cfg, g⟩ := c
  cases g <;> simp [Compiler.toJson, Compiler.fromJson, sortKeys_obj, Json.asObj, getIf, getReq, lookup_sorted (hn _ _ _), lookup_set, sortKeys_str, sortKeys_int,
    Json.asString, Json.asInt, sortedCompiler]

theorem loader_text {valid : String → Bool} (l : Loader) (h : ∀ gen, l.kind = .cxx gen → ∀ s ∈ gen, valid s) :
    Loader.fromJson valid (sortKeys l.toJson) = some { l with compiler := sortedCompiler l.compiler } := by
  obtain ⟨kind, c⟩ := l
  have hn : ∀ a b c : Json, (keys (set "config" a (set "loader" b (set "compiler" c [])))).Nodup := fun a b c => set_nodup (set_nodup (set_nodup (by simp [keys])))
  have hc := compiler_text c
  cases kind with
  | cxx gen =>
    have hg := readFilter_write (h gen rfl)
    have hn2 : ∀ a : Json, (keys (set "generated_includes" a [])).Nodup := fun a => set_nodup (by simp [keys])
    simp [Loader.fromJson, Loader.toJson, sortKeys_obj, Json.asObj, getReq, getIf, lookup_sorted (hn _ _ _), lookup_set, hc, LoaderKind.name, Json.asString, sortKeys_str,
      LoaderKind.toJson, readCxx, writeFilter, Json.asArr, hg, lookup_sorted (hn2 _), sortKeys_arr, -List.map_map, sortKeys_strings]
  | generic ext mode =>
    have hn2 : ∀ a b : Json, (keys (set "filename_ext_replacement_mode" a (set "target_filename_ext" b []))).Nodup := fun a b => set_nodup (set_nodup (by simp [keys]))
    simp [Loader.fromJson, Loader.toJson, sortKeys_obj, Json.asObj, getReq, getIf, lookup_sorted (hn _ _ _), lookup_set, hc, LoaderKind.name, Json.asString, sortKeys_str,
      LoaderKind.toJson, readGeneric, Text.C30_extMode.roundTrip, lookup_sorted (hn2 _ _)]
  | _ =>
    simp [Loader.fromJson, Loader.toJson, sortKeys_obj, Json.asObj, getReq, lookup_sorted (hn _ _ _), lookup_set, hc, LoaderKind.name, Json.asString, sortKeys_str]

theorem tree_text {valid : String → Bool} (c : TreeConfig) (h1 : Ascending c.loaders) (h2 : ∀ s ∈ c.filter, valid s)
    (h3 : ∀ s ∈ c.dirFilter, valid s) : TreeConfig.fromJson valid (sortKeys c.toJson) = some c := by
  obtain ⟨f, d, l, r⟩ := c
  have hl : readMap Json.asString [] (l.map fun x => (x.1, sortKeys (.str x.2))) = some l := by
    have := readMap_ascending (f := Json.asString) (g := id) (r := fun s => sortKeys (.str s)) l (fun x _ => by rw [sortKeys_str]; rfl) [] h1 (by simp)
    simpa using this
  have hn : ∀ a b c d : Json, (keys (set "fullpath_input_filter" a (set "input_filter" b (set "recursive" c (set "file_info_loaders" d []))))).Nodup :=
    fun a b c d => set_nodup (set_nodup (set_nodup (set_nodup (by simp [keys]))))
  have hw := sortKeys_writeMap Json.str h1
  rw [TreeConfig.toJson, sortKeys_obj]
  cases r <;> simp [TreeConfig.fromJson, Json.asObj, getReq, lookup_sorted (hn _ _ _ _), lookup_set, writeFilter, Json.asArr,
    sortKeys_arr, -List.map_map, sortKeys_strings, readFilter_write h2, readFilter_write h3, Json.asInt, hl, hw, sortKeys_int]

/-- The configuration that is read from a dump. -/
def sortedConfig (c : Config) : Config :=
  ⟨c.tree, c.loaders.map fun x => (x.1, { x.2 with compiler := sortedCompiler x.2.compiler }), sortedCompiler c.dirCompiler⟩

theorem same_sortedConfig (c : Config) : SameConfig (sortedConfig c) c.forgetOrigins where
  tree := rfl
  loaders := by
    simp only [sortedConfig, Config.forgetOrigins]
    induction c.loaders with
    | nil => exact .nil
    | cons x l ih => exact .cons rfl (same_sortedCompiler _) ih
  dirCompiler := same_sortedCompiler _

theorem config_text (valid : String → Bool) (c : Config) (h : c.Proper valid) :
    ∃ ms, sortKeys (.obj c.toMembers) = .obj ms ∧ Config.fromMembers valid ms = some (sortedConfig c) := by
  refine ⟨_, sortKeys_obj _, ?_⟩
  obtain ⟨tree, loaders, dc⟩ := c
  have hl : readMap (Loader.fromJson valid) [] (loaders.map fun x => (x.1, sortKeys (Loader.toJson x.2))) =
      some (loaders.map fun x => (x.1, { x.2 with compiler := sortedCompiler x.2.compiler })) := by
    have := readMap_ascending (f := Loader.fromJson valid)
      (g := fun l => { l with compiler := sortedCompiler l.compiler }) (r := fun l => sortKeys (Loader.toJson l)) loaders
      (fun x hx => loader_text x.2 (h.generated x hx)) [] h.loaders (by simp)
    simpa using this
  have hn : ∀ a b c : Json, (keys (set "dir_compiler" a (set "source_file_info_loaders" b (set "source_tree_loader" c [])))).Nodup :=
    fun a b c => set_nodup (set_nodup (set_nodup (by simp [keys])))
  have hw := sortKeys_writeMap Loader.toJson h.loaders
  simp [Config.fromMembers, Config.toMembers, getReq, lookup_sorted (hn _ _ _), lookup_set, Json.asObj, compiler_text, hl, hw,
    tree_text tree h.names h.filter h.dirFilter, sortedConfig]

/-! ## Theorems -/

/-- **C98.** Members of an object are found under the same keys, with the same values. -/
theorem C98_lookup {f : Reals} (hf : f.Ok) {pretty : Bool} {ms : Members} (hn : (keys ms).Nodup) {w : Json} (h : Reads f (store f pretty (.obj ms)) w) :
    ∃ ns, w = .obj ns ∧ ∀ k, SameOption (lookup k ms) (lookup k ns) := by
  have := C98_only hf h
  cases this with
  | refl => exact ⟨ms, rfl, fun k => .refl _⟩
  | obj h' => exact ⟨_, rfl, fun k => h'.lookup hn k⟩

theorem same_str {s : String} {v : Json} (h : Same (.str s) v) : v = .str s := by cases h; rfl

theorem same_int {i : Int} {v : Json} (h : Same (.int i) v) : v = .int i := by cases h; rfl

theorem SameElems.refl (vs : List Json) : SameElems vs vs := by
  induction vs with
  | nil => exact .nil
  | cons v vs ih => exact .cons (.refl v) ih

theorem same_arr {vs : List Json} {v : Json} (h : Same (.arr vs) v) : ∃ ws, v = .arr ws ∧ SameElems vs ws := by
  cases h with
  | refl => exact ⟨_, rfl, .refl _⟩
  | arr h => exact ⟨_, rfl, h⟩

theorem same_obj {ms : Members} {v : Json} (h : Same (.obj ms) v) : ∃ ns, v = .obj ns ∧ SameMembers ms ns := by
  cases h with
  | refl => exact ⟨_, rfl, .refl _⟩
  | obj h => exact ⟨_, rfl, h⟩

theorem same_strings {l : List String} {ws : List Json} (h : SameElems (l.map .str) ws) : ws = l.map .str := by
  induction l generalizing ws with
  | nil => cases h; rfl
  | cons s l ih =>
    cases h with
    | cons h hs => rw [same_str h, ih hs]; rfl

theorem sameOption_some {v : Json} {o : Option Json} (h : SameOption (some v) o) : ∃ w, o = some w ∧ Same v w := by
  cases h with
  | some h => exact ⟨_, rfl, h⟩

theorem command_nodup {q : Request} {exe : String} {opts : Members} (h : makeBuildCommand q = some (exe, opts)) : (keys opts).Nodup := by
  unfold makeBuildCommand at h
  simp only [Option.bind_eq_bind, Option.pure_def] at h
  have : ∃ c : Compiler, opts = set "dependencies" (.arr (q.deps.map DepJson.toJson)) (set "targets" (.arr (q.targets.map .str))
      (set "log_format" (.str (Text.logFormatToString q.format)) (set "build_info" q.info (set "task_id" (.int q.id)
        (set "source_file" (.str q.path) (set "compiler_cfg" (.obj c.config) [])))))) := by
    split at h
    all_goals
      obtain ⟨c, _, h⟩ := Option.bind_eq_some_iff.mp h
      simp only [Option.some.injEq, Prod.mk.injEq] at h
      exact ⟨c, h.2.symm⟩
  obtain ⟨c, rfl⟩ := this
  exact set_nodup (set_nodup (set_nodup (set_nodup (set_nodup (set_nodup (set_nodup (by simp [keys])))))))

/-- **C98.** What a recipe gets as argument of `compile` is read as an object in which it finds the name of the file, the names of its targets, its dependencies
in their order, the task, what is known about this build, the format of messages, and the configuration of the compiler. -/
theorem C98_command {f : Reals} (hf : f.Ok) {q : Request} {exe : String} {opts : Members} (h : makeBuildCommand q = some (exe, opts)) {w : Json}
    (hw : Reads f (store f false (.obj opts)) w) :
    ∃ ns, w = .obj ns ∧
      lookup "source_file" ns = some (.str q.path) ∧
      lookup "targets" ns = some (.arr (q.targets.map .str)) ∧
      (∃ ds, lookup "dependencies" ns = some (.arr ds) ∧ SameElems (q.deps.map DepJson.toJson) ds) ∧
      lookup "task_id" ns = some (.int q.id) ∧
      (∃ info, lookup "build_info" ns = some info ∧ Same q.info info) ∧
      lookup "log_format" ns = some (.str (Text.logFormatToString q.format)) ∧
      ∃ cfg cfg', lookup "compiler_cfg" ns = some (.obj cfg') ∧ SameMembers cfg cfg' ∧
        match q.default with
        | some d => merge d.config q.own.config = some cfg
        | none => cfg = q.own.config := by
  obtain ⟨ns, rfl, hl⟩ := C98_lookup hf (command_nodup h) hw
  obtain ⟨h1, h2, ⟨ds, h3, h3l, h3e⟩, h4, h5, h6, cfg, h7, h8⟩ := C34_request q exe opts h
  refine ⟨ns, rfl, ?_, ?_, ?_, ?_, ?_, ?_, ?_⟩
  · have := hl "source_file"
    rw [h1] at this
    obtain ⟨w, e, hs⟩ := sameOption_some this
    rw [e, same_str hs]
  · have := hl "targets"
    rw [h2] at this
    obtain ⟨w, e, hs⟩ := sameOption_some this
    obtain ⟨ws, rfl, hs'⟩ := same_arr hs
    rw [e, same_strings hs']
  · have := hl "dependencies"
    rw [h3] at this
    obtain ⟨w, e, hs⟩ := sameOption_some this
    obtain ⟨ws, rfl, hs'⟩ := same_arr hs
    refine ⟨ws, e, ?_⟩
    have : ds = q.deps.map DepJson.toJson := by
      apply List.ext_getElem
      · simp [h3l]
      · intro i hi1 hi2
        have := h3e i (by simpa using hi2)
        rw [List.getElem?_eq_getElem hi1] at this
        simp only [Option.some.injEq] at this
        simp [this]
    rw [← this]; exact hs'
  · have := hl "task_id"
    rw [h4] at this
    obtain ⟨w, e, hs⟩ := sameOption_some this
    rw [e, same_int hs]
  · have := hl "build_info"
    rw [h5] at this
    exact sameOption_some this
  · have := hl "log_format"
    rw [h6] at this
    obtain ⟨w, e, hs⟩ := sameOption_some this
    rw [e, same_str hs]
  · have := hl "compiler_cfg"
    rw [h7] at this
    obtain ⟨w, e, hs⟩ := sameOption_some this
    obtain ⟨cfg', rfl, hs'⟩ := same_obj hs
    exact ⟨cfg, cfg', e, hs', h8⟩

/-- **C98.** What `--configdump` writes (core/bin/maike.cpp:250-253), given as the only configuration file, leads to the same configuration. -/
theorem C98_configdump {f : Reals} (hf : f.Ok) (valid : String → Bool) (c : Config) (h : c.Proper valid) {w : Json}
    (hw : Reads f (store f true (.obj [("maikeconfig", .obj c.toMembers)])) w) :
    ∃ ms, w = .obj ms ∧ SameConfig (loadConfig valid [some ms]) c.forgetOrigins := by
  have e := hw.unique (reads_store hf true _)
  obtain ⟨ms, h1, h2⟩ := config_text valid c h
  refine ⟨[("maikeconfig", .obj ms)], ?_, ?_⟩
  · rw [e, sortKeys_obj, sortMembers, sortMembers, sortMember, h1]; rfl
  · have : loadConfig valid [some [("maikeconfig", .obj ms)]] = sortedConfig c := by
      simp [loadConfig, mergeInto, lookup, set, getReq, Json.asObj, h2]
    rw [this]
    exact same_sortedConfig c

/-! ## Examples -/

namespace Examples

/-- There is a reading of the dump of the default configuration. -/
example : ∃ ms, Reads reals (store reals true (.obj [("maikeconfig", .obj Config.default.toMembers)])) (.obj ms) ∧
    SameConfig (loadConfig (fun _ => true) [some ms]) Config.default.forgetOrigins := by
  obtain ⟨w, hw, _⟩ := C98_reads reals_ok true (.obj [("maikeconfig", .obj Config.default.toMembers)])
  obtain ⟨ms, rfl, h⟩ := C98_configdump reals_ok _ _ default_proper hw
  exact ⟨ms, hw, h⟩

/-- A request. -/
def request : Request where
  default := some { recipe := "cxx_compiler.py", config := [("cflags", .arr [.str "-g"])] }
  own := { config := [("cflags", .arr [.str "-O3"])] }
  path := "main.cpp"
  id := 3
  info := .obj [("build_id", .str "1"), ("a", .null)]
  format := .plainText
  targets := ["main.o"]
  deps := [{ name := "foo.hpp", origin := .project, properties := [("rel", "include")] }]

example : ∃ ns, Reads reals (store reals false (.obj ((makeBuildCommand request).get!).2)) (.obj ns) ∧
    lookup "targets" ns = some (.arr [.str "main.o"]) := by
  have h : ∃ exe opts, makeBuildCommand request = some (exe, opts) := by
    simp [makeBuildCommand, request, Compiler.or, merge, mergeInto, mergeItem, mergeValue, lookup, set]
  obtain ⟨exe, opts, h⟩ := h
  rw [h]
  obtain ⟨w, hw, _⟩ := C98_reads reals_ok false (.obj opts)
  obtain ⟨ns, rfl, _, h2, _⟩ := C98_command reals_ok h hw
  exact ⟨ns, hw, h2⟩

end Examples

end Maike.Kvs.JsonText
