import Verif.Kvs.JsonDecode

/-!
# Configurations that have been loaded can be dumped and loaded again (C60, C100)

`C60_roundTrip` has an assumption about the configuration. Whatever the configuration files are, it is met by what `loadConfig` returns.
-/

namespace Maike.Kvs

/-! ## Lemmas -/

theorem mem_insertOrAssign {V : Type} {k : String} {w : V} {m : List (String × V)} {x : String × V} (h : x ∈ insertOrAssign k w m) :
    x = (k, w) ∨ x ∈ m := by
  induction m with
  | nil => simp only [insertOrAssign, List.mem_singleton] at h; exact .inl h
  | cons a m ih =>
    obtain ⟨k0, v0⟩ := a
    simp only [insertOrAssign] at h
    split at h
    · rcases List.mem_cons.mp h with h | h
      · exact .inl h
      · exact .inr h
    · split at h
      · rcases List.mem_cons.mp h with rfl | h
        · exact .inr (by simp)
        · rcases ih h with h | h
          · exact .inl h
          · exact .inr (by simp [h])
      · rename_i h1 h2
        have e : k = k0 := String.le_antisymm (String.not_lt.mp h2) (String.not_lt.mp h1)
        subst e
        rcases List.mem_cons.mp h with h | h
        · exact .inl h
        · exact .inr (by simp [h])

theorem readMap_ok {V : Type} {f : Json → Option V} {P : V → Prop} (hf : ∀ v w, f v = some w → P w) {ms : Members} {acc r : List (String × V)}
    (ha : Ascending acc) (hp : ∀ x ∈ acc, P x.2) (h : readMap f acc ms = some r) : Ascending r ∧ ∀ x ∈ r, P x.2 := by
  induction ms generalizing acc with
  | nil =>
    simp only [readMap, Option.some.injEq] at h
    subst h; exact ⟨ha, hp⟩
  | cons m ms ih =>
    obtain ⟨k, v⟩ := m
    simp only [readMap, Option.bind_eq_some_iff] at h
    obtain ⟨w, hw, h⟩ := h
    refine ih (insertOrAssign_ascending ha) ?_ h
    intro x hx
    rcases mem_insertOrAssign hx with rfl | hx
    · exact hf _ _ hw
    · exact hp x hx

theorem readFilter_valid {valid : String → Bool} {vs : List Json} {src : List String} (h : readFilter valid vs = some src) : ∀ s ∈ src, valid s := by
  simp only [readFilter, Option.bind_eq_bind, Option.bind_eq_some_iff] at h
  obtain ⟨src', _, h⟩ := h
  split at h
  · rename_i hv
    simp only [Option.some.injEq] at h
    subst h
    simpa using hv
  · simp at h

theorem compiler_fromJson_origin {v : Json} {c : Compiler} (h : Compiler.fromJson v = some c) : c.origin = none := by
  simp only [Compiler.fromJson, Option.bind_eq_bind, Option.bind_eq_some_iff, Option.pure_def, Option.some.injEq] at h
  obtain ⟨_, _, _, _, _, _, _, _, rfl⟩ := h
  rfl

/-- What is required of a loader. -/
def Loader.Proper (valid : String → Bool) (l : Loader) : Prop := (∀ gen, l.kind = .cxx gen → ∀ s ∈ gen, valid s) ∧ l.compiler.origin = none

theorem readCxx_valid {valid : String → Bool} {v : Json} {k : LoaderKind} (h : readCxx valid v = some k) : ∀ gen, k = .cxx gen → ∀ s ∈ gen, valid s := by
  simp only [readCxx, Option.bind_eq_bind, Option.bind_eq_some_iff] at h
  obtain ⟨obj, _, g, _, h⟩ := h
  intro gen e
  subst e
  cases g with
  | none =>
    simp only [Option.some.injEq, LoaderKind.cxx.injEq] at h
    subst h; simp
  | some vs =>
    simp only [Option.map_eq_some_iff, LoaderKind.cxx.injEq] at h
    obtain ⟨src, hs, rfl⟩ := h
    exact readFilter_valid hs

theorem readGeneric_kind {v : Json} {k : LoaderKind} (h : readGeneric v = some k) : ∀ gen, k ≠ .cxx gen := by
  simp only [readGeneric, Option.bind_eq_bind, Option.bind_eq_some_iff, Option.pure_def, Option.some.injEq] at h
  obtain ⟨_, _, _, _, _, _, rfl⟩ := h
  simp

theorem getIf_some {α : Type} {as : Json → Option α} {k : String} {ms : Members} {a : α} (h : getIf as k ms = some (some a)) :
    ∃ v, lookup k ms = some v ∧ as v = some a := by
  unfold getIf at h
  cases e : lookup k ms with
  | none => simp [e] at h
  | some v =>
    simp only [e, Option.map_eq_some_iff, Option.some.injEq] at h
    obtain ⟨b, hb, rfl⟩ := h
    exact ⟨v, rfl, hb⟩

theorem loader_fromJson_proper {valid : String → Bool} (hg : valid ".*\\.gen\\.hpp$" = true) {v : Json} {l : Loader} (h : Loader.fromJson valid v = some l) :
    l.Proper valid := by
  simp only [Loader.fromJson, Option.bind_eq_bind, Option.bind_eq_some_iff, Option.pure_def] at h
  obtain ⟨cfg, _, name, _, comp, hc, h⟩ := h
  have ho : comp.origin = none := by
    simp only [getReq, Option.bind_eq_some_iff] at hc
    obtain ⟨_, _, hc⟩ := hc
    exact compiler_fromJson_origin hc
  split at h
  · simp only [Option.some.injEq] at h; subst h; exact ⟨by simp, ho⟩
  split at h
  · simp only [Option.bind_eq_some_iff, Option.some.injEq] at h
    obtain ⟨k, hk, rfl⟩ := h
    refine ⟨?_, ho⟩
    cases k with
    | none =>
      intro gen e
      simp only [Option.getD_none, LoaderKind.cxx.injEq] at e
      subst e
      simpa using hg
    | some k =>
      obtain ⟨_, _, hk⟩ := getIf_some hk
      exact readCxx_valid hk
  split at h
  · simp only [Option.some.injEq] at h; subst h; exact ⟨by simp, ho⟩
  split at h
  · simp only [Option.some.injEq] at h; subst h; exact ⟨by simp, ho⟩
  split at h
  · simp only [Option.bind_eq_some_iff, Option.some.injEq] at h
    obtain ⟨k, hk, rfl⟩ := h
    refine ⟨?_, ho⟩
    cases k with
    | none => simp
    | some k =>
      obtain ⟨_, _, hk⟩ := getIf_some hk
      intro gen e
      exact absurd e (readGeneric_kind hk gen)
  split at h
  · simp only [Option.some.injEq] at h; subst h; exact ⟨by simp, ho⟩
  · simp at h

theorem tree_fromJson_proper {valid : String → Bool} {v : Json} {t : TreeConfig} (h : TreeConfig.fromJson valid v = some t) :
    Ascending t.loaders ∧ (∀ s ∈ t.filter, valid s) ∧ ∀ s ∈ t.dirFilter, valid s := by
  simp only [TreeConfig.fromJson, Option.bind_eq_bind, Option.bind_eq_some_iff, Option.pure_def, Option.some.injEq] at h
  obtain ⟨obj, _, f, ⟨_, _, hf⟩, d, ⟨_, _, hd⟩, r, _, l, ⟨_, _, hl⟩, rfl⟩ := h
  exact ⟨(readMap_ok (P := fun _ => True) (fun _ _ _ => trivial) (by simp [Ascending]) (by simp) hl).1, readFilter_valid hf, readFilter_valid hd⟩

theorem config_fromMembers_proper {valid : String → Bool} (hg : valid ".*\\.gen\\.hpp$" = true) {ms : Members} {c : Config} (h : Config.fromMembers valid ms = some c) :
    c.Proper valid ∧ c.forgetOrigins = c := by
  simp only [Config.fromMembers, getReq, Option.bind_eq_bind, Option.bind_eq_some_iff, Option.pure_def, Option.some.injEq] at h
  obtain ⟨t, ⟨_, _, ht⟩, l, ⟨_, _, hl⟩, dc, ⟨_, _, hdc⟩, rfl⟩ := h
  obtain ⟨h1, h2, h3⟩ := tree_fromJson_proper ht
  obtain ⟨h4, h5⟩ := readMap_ok (P := Loader.Proper valid) (fun _ _ => loader_fromJson_proper hg) (by simp [Ascending]) (by simp) hl
  refine ⟨⟨h1, h4, h2, h3, fun x hx => (h5 x hx).1⟩, ?_⟩
  have ho := compiler_fromJson_origin hdc
  have hm : l.map (fun x => (x.1, ({ x.2 with compiler := { x.2.compiler with origin := none } } : Loader))) = l := by
    conv => rhs; rw [← List.map_id l]
    apply List.map_congr_left
    intro x hx
    have := (h5 x hx).2
    obtain ⟨k, kind, r, o, cfg, u⟩ := x
    simp only at this
    subst this; rfl
  obtain ⟨r, o, cfg, u⟩ := dc
  simp only at ho
  subst ho
  simp [Config.forgetOrigins, hm]

/-- The patterns in the default configuration can be compiled. -/
def DefaultsValid (valid : String → Bool) : Prop := valid "^\\." = true ∧ valid "^__" = true ∧ valid ".*\\.gen\\.hpp$" = true

theorem default_proper' {valid : String → Bool} (hv : DefaultsValid valid) : Config.default.Proper valid ∧ Config.default.forgetOrigins = .default := by
  refine ⟨⟨default_proper.names, default_proper.loaders, ?_, ?_, ?_⟩, rfl⟩
  · simp [Config.default, TreeConfig.default, hv.1, hv.2.1]
  · simp [Config.default, TreeConfig.default, hv.1, hv.2.1]
  · intro x hx gen e
    simp only [Config.default, defaultLoaders, List.mem_cons, List.not_mem_nil, or_false] at hx
    rcases hx with rfl | rfl | rfl | rfl | rfl | rfl | rfl <;> simp at e <;> subst e <;> simp [hv.2.2]

/-! ### Limits of the decoder -/

namespace JsonText

theorem Fits.nil {d : Nat} : Fits (d + 1) (.obj []) := .obj (by simp) (by simp) (by simp)

theorem Fits.set {d : Nat} {ms : Members} (h : Fits (d + 1) (.obj ms)) {k : String} (hk : Char.ofNat 0 ∉ k.toList) {v : Json} (hv : Fits d v) :
    Fits (d + 1) (.obj (Kvs.set k v ms)) := by
  cases h with
  | obj hn hks h =>
    have key : ∀ m ∈ Kvs.set k v ms, m = (k, v) ∨ m ∈ ms := by
      clear hn hks h
      induction ms with
      | nil => intro m hm; exact .inl (by simpa [Kvs.set] using hm)
      | cons a ms ih =>
        obtain ⟨k', v'⟩ := a
        intro m hm
        simp only [Kvs.set] at hm
        split at hm
        · rcases List.mem_cons.mp hm with h | h
          · exact .inl h
          · exact .inr (by simp [h])
        · rcases List.mem_cons.mp hm with h | h
          · exact .inr (by simp [h])
          · rcases ih m h with h | h
            · exact .inl h
            · exact .inr (by simp [h])
    refine .obj (set_nodup hn) ?_ ?_
    · intro m hm
      rcases key m hm with rfl | hm
      · exact hk
      · exact hks m hm
    · intro m hm
      rcases key m hm with rfl | hm
      · exact hv
      · exact h m hm

theorem Fits.lookup {d : Nat} {ms : Members} (h : Fits (d + 1) (.obj ms)) {k : String} {v : Json} (hl : Kvs.lookup k ms = some v) :
    Fits d v ∧ Char.ofNat 0 ∉ k.toList := by
  cases h with
  | obj hn hk h => exact ⟨h _ (lookup_mem hl), hk _ (lookup_mem hl)⟩

mutual

theorem mergeValue_fits {d : Nat} {x z : Json} (hx : Fits d x) : ∀ {y : Json}, Fits d y → mergeValue x y = some z → Fits d z
  | .arr ys, hy, h => by
    cases x with
    | arr xs =>
      simp only [mergeValue, Option.some.injEq] at h
      subst h
      cases hx with | arr hx =>
      cases hy with | arr hy =>
      refine .arr fun v hv => ?_
      rcases List.mem_append.mp hv with hv | hv
      · exact hx v hv
      · exact hy v hv
    | _ => simp [mergeValue] at h
  | .obj ys, hy, h => by
    cases x with
    | obj xs =>
      simp only [mergeValue] at h
      obtain ⟨e, rfl⟩ := hx.pos
      cases hy with | obj hn hk hy =>
      have := mergeInto_fits hx hk hy
      split at h
      · rename_i m hm
        rw [hm] at this
        simp only [Option.some.injEq] at h
        subst h
        exact this
      · simp at h
    | _ => simp [mergeValue] at h
  | .null, hy, h => by
    simp only [mergeValue] at h
    split at h
    · simp only [Option.some.injEq] at h; subst h; exact hy
    · simp at h
  | .bool b, hy, h => by
    simp only [mergeValue] at h
    split at h
    · simp only [Option.some.injEq] at h; subst h; exact hy
    · simp at h
  | .int b, hy, h => by
    simp only [mergeValue] at h
    split at h
    · simp only [Option.some.injEq] at h; subst h; exact hy
    · simp at h
  | .real b, hy, h => by
    simp only [mergeValue] at h
    split at h
    · simp only [Option.some.injEq] at h; subst h; exact hy
    · simp at h
  | .str b, hy, h => by
    simp only [mergeValue] at h
    split at h
    · simp only [Option.some.injEq] at h; subst h; exact hy
    · simp at h

theorem mergeItem_fits {d : Nat} {x z : Json} (hx : Fits d x) : ∀ {m : String × Json}, Fits d m.2 → mergeItem x m = some z → Fits d z
  | (_, v), hy, h => by
    rw [mergeItem] at h
    exact mergeValue_fits hx (y := v) hy h

theorem mergeInto_fits {d : Nat} {a : Members} (ha : Fits (d + 1) (.obj a)) :
    ∀ {ms : Members}, (∀ m ∈ ms, Char.ofNat 0 ∉ m.1.toList) → (∀ m ∈ ms, Fits d m.2) → Fits (d + 1) (.obj (mergeInto a ms).1)
  | [], _, _ => by rw [mergeInto]; exact ha
  | kv :: ms, hk, hm => by
    have hk1 := hk kv (by simp)
    have hm1 := hm kv (by simp)
    rw [mergeInto]
    split
    · exact mergeInto_fits (ha.set hk1 hm1) (fun m h => hk m (by simp [h])) (fun m h => hm m (by simp [h]))
    · rename_i x hx
      split
      · exact ha
      · rename_i y hy
        exact mergeInto_fits (ha.set hk1 (mergeItem_fits (ha.lookup hx).1 hm1 hy)) (fun m h => hk m (by simp [h])) (fun m h => hm m (by simp [h]))

end

theorem asObj_fits {d : Nat} {v : Json} {ms : Members} (h : Fits d v) (e : v.asObj = some ms) : Fits d (.obj ms) := by
  cases v <;> simp only [Json.asObj, Option.some.injEq, reduceCtorEq] at e
  subst e; exact h

theorem getReq_fits {α : Type} {as : Json → Option α} {d : Nat} {ms : Members} {k : String} {a : α} (h : Fits (d + 1) (.obj ms)) (e : getReq as k ms = some a) :
    ∃ v, Fits d v ∧ as v = some a := by
  simp only [getReq, Option.bind_eq_some_iff] at e
  obtain ⟨v, hl, e⟩ := e
  exact ⟨v, (h.lookup hl).1, e⟩

theorem asString_fits {d : Nat} {v : Json} {s : String} (h : Fits d v) (e : v.asString = some s) : Char.ofNat 0 ∉ s.toList := by
  cases v <;> simp only [Json.asString, Option.some.injEq, reduceCtorEq] at e
  subst e
  cases h with | str h => exact h

theorem flag_fits {d : Nat} (b : Bool) : Fits (d + 1) (.int (if b then 1 else 0)) := by
  cases b <;> exact .int (by decide)

theorem compiler_fits {d : Nat} {v : Json} {c : Compiler} (h : Fits (d + 2) v) (e : Compiler.fromJson v = some c) : Fits (d + 2) c.toJson := by
  simp only [Compiler.fromJson, Option.bind_eq_bind, Option.bind_eq_some_iff, Option.pure_def, Option.some.injEq] at e
  obtain ⟨obj, ho, r, hr, u, _, cfg, hc, rfl⟩ := e
  have h := asObj_fits h ho
  obtain ⟨_, hv, hc⟩ := getReq_fits h hc
  refine ((Fits.nil.set (by decide) (.str ?_)).set (by decide) (asObj_fits hv hc)).set (by decide) (flag_fits _)
  cases r with
  | none => simp
  | some r =>
    obtain ⟨v, hl, e⟩ := getIf_some hr
    exact asString_fits (h.lookup hl).1 e

theorem mapM_asString_fits {d : Nat} {vs : List Json} {src : List String} (h : ∀ v ∈ vs, Fits d v) (e : vs.mapM Json.asString = some src) :
    ∀ s ∈ src, Char.ofNat 0 ∉ s.toList := by
  induction vs generalizing src with
  | nil => simp at e; subst e; simp
  | cons v vs ih =>
    simp only [List.mapM_cons, Option.bind_eq_bind, Option.bind_eq_some_iff, Option.pure_def, Option.some.injEq] at e
    obtain ⟨s, hs, ss, hss, rfl⟩ := e
    intro t ht
    rcases List.mem_cons.mp ht with rfl | ht
    · exact asString_fits (h v (by simp)) hs
    · exact ih (fun v hv => h v (by simp [hv])) hss t ht

theorem asArr_fits {d : Nat} {v : Json} {vs : List Json} (h : Fits (d + 1) v) (e : v.asArr = some vs) : ∀ v ∈ vs, Fits d v := by
  cases v <;> simp only [Json.asArr, Option.some.injEq, reduceCtorEq] at e
  subst e
  cases h with | arr h => exact h

theorem writeFilter_fits {d : Nat} {src : List String} (h : ∀ s ∈ src, Char.ofNat 0 ∉ s.toList) : Fits (d + 2) (writeFilter src) := by
  refine .arr ?_
  intro v hv
  obtain ⟨s, hs, rfl⟩ := List.mem_map.mp hv
  exact .str (h s hs)

theorem readFilter_fits {valid : String → Bool} {d : Nat} {vs : List Json} {src : List String} (h : ∀ v ∈ vs, Fits d v) (e : readFilter valid vs = some src) :
    ∀ s ∈ src, Char.ofNat 0 ∉ s.toList := by
  simp only [readFilter, Option.bind_eq_bind, Option.bind_eq_some_iff] at e
  obtain ⟨src', h', e⟩ := e
  split at e
  · simp only [Option.some.injEq] at e
    subst e
    exact mapM_asString_fits h h'
  · simp at e

theorem readMap_fits {V : Type} {f : Json → Option V} {g : V → Json} {d : Nat} (hf : ∀ v w, Fits d v → f v = some w → Fits d (g w)) {ms : Members} {acc r : List (String × V)}
    (hk : ∀ m ∈ ms, Char.ofNat 0 ∉ m.1.toList) (hm : ∀ m ∈ ms, Fits d m.2)
    (ha : ∀ x ∈ acc, Char.ofNat 0 ∉ x.1.toList ∧ Fits d (g x.2)) (h : readMap f acc ms = some r) : ∀ x ∈ r, Char.ofNat 0 ∉ x.1.toList ∧ Fits d (g x.2) := by
  induction ms generalizing acc with
  | nil =>
    simp only [readMap, Option.some.injEq] at h
    subst h; exact ha
  | cons m ms ih =>
    obtain ⟨k, v⟩ := m
    simp only [readMap, Option.bind_eq_some_iff] at h
    obtain ⟨w, hw, h⟩ := h
    refine ih (fun m h => hk m (by simp [h])) (fun m h => hm m (by simp [h])) ?_ h
    intro x hx
    rcases mem_insertOrAssign hx with rfl | hx
    · exact ⟨hk (k, v) (by simp), hf v w (hm (k, v) (by simp)) hw⟩
    · exact ha x hx

theorem writeMap_fits {V : Type} {g : V → Json} {d : Nat} {m : List (String × V)} (h : ∀ x ∈ m, Char.ofNat 0 ∉ x.1.toList ∧ Fits d (g x.2)) :
    Fits (d + 1) (.obj (writeMap g m)) := by
  have : ∀ acc : Members, Fits (d + 1) (.obj acc) → Fits (d + 1) (.obj (m.foldl (fun acc kv => Kvs.set kv.1 (g kv.2) acc) acc)) := by
    induction m with
    | nil => intro acc h; exact h
    | cons x m ih =>
      intro acc ha
      have hx := h x (by simp)
      exact ih (fun y hy => h y (by simp [hy])) _ (ha.set hx.1 hx.2)
  exact this [] .nil

theorem obj_fits {d : Nat} {ms : Members} (h : Fits (d + 1) (.obj ms)) : (∀ m ∈ ms, Char.ofNat 0 ∉ m.1.toList) ∧ ∀ m ∈ ms, Fits d m.2 := by
  cases h with | obj _ h1 h2 => exact ⟨h1, h2⟩

/-- The kind of a loader fits. -/
theorem kind_fits {d : Nat} {k : LoaderKind} (h1 : ∀ gen, k = .cxx gen → ∀ s ∈ gen, Char.ofNat 0 ∉ s.toList) (h2 : ∀ ext mode, k = .generic ext mode → Char.ofNat 0 ∉ ext.toList) :
    Fits (d + 3) k.toJson := by
  cases k with
  | cxx gen => exact Fits.nil.set (by decide) (writeFilter_fits (h1 gen rfl))
  | generic ext mode =>
    refine (Fits.nil.set (by decide) (.str (h2 ext mode rfl))).set (by decide) (.str ?_)
    cases mode <;> decide
  | _ => exact .nil

theorem loader_toJson_fits {d : Nat} {l : Loader} (h1 : ∀ gen, l.kind = .cxx gen → ∀ s ∈ gen, Char.ofNat 0 ∉ s.toList)
    (h2 : ∀ ext mode, l.kind = .generic ext mode → Char.ofNat 0 ∉ ext.toList) (h3 : Fits (d + 3) l.compiler.toJson) : Fits (d + 4) l.toJson := by
  refine ((Fits.nil.set (by decide) h3).set (by decide) (.str ?_)).set (by decide) (kind_fits h1 h2)
  cases l.kind <;> simp only [LoaderKind.name] <;> decide

theorem loader_fits {valid : String → Bool} {d : Nat} {v : Json} {l : Loader} (h : Fits (d + 4) v) (e : Loader.fromJson valid v = some l) : Fits (d + 4) l.toJson := by
  simp only [Loader.fromJson, Option.bind_eq_bind, Option.bind_eq_some_iff, Option.pure_def] at e
  obtain ⟨cfg, ho, name, _, comp, hc, e⟩ := e
  have h := asObj_fits h ho
  obtain ⟨_, hv, hc⟩ := getReq_fits h hc
  have hc := compiler_fits hv hc
  split at e
  · simp only [Option.some.injEq] at e; subst e; exact loader_toJson_fits (by simp) (by simp) hc
  split at e
  · simp only [Option.bind_eq_some_iff, Option.some.injEq] at e
    obtain ⟨k, hk, rfl⟩ := e
    cases k with
    | none =>
      refine loader_toJson_fits ?_ (by simp) hc
      intro gen e
      simp only [Option.getD_none, LoaderKind.cxx.injEq] at e
      subst e; decide
    | some k =>
      obtain ⟨v, hl, hk⟩ := getIf_some hk
      have hv := (h.lookup hl).1
      simp only [readCxx, Option.bind_eq_bind, Option.bind_eq_some_iff] at hk
      obtain ⟨obj, ho, g, hg, hk⟩ := hk
      have hv := asObj_fits hv ho
      cases g with
      | none =>
        simp only [Option.some.injEq] at hk
        subst hk
        refine loader_toJson_fits ?_ (by simp) hc
        intro gen e
        simp only [Option.getD_some, LoaderKind.cxx.injEq] at e
        subst e; simp
      | some vs =>
        simp only [Option.map_eq_some_iff] at hk
        obtain ⟨src, hs, rfl⟩ := hk
        refine loader_toJson_fits ?_ (by simp) hc
        intro gen e
        simp only [Option.getD_some, LoaderKind.cxx.injEq] at e
        subst e
        obtain ⟨_, hl, ha⟩ := getIf_some hg
        exact readFilter_fits (asArr_fits (hv.lookup hl).1 ha) hs
  split at e
  · simp only [Option.some.injEq] at e; subst e; exact loader_toJson_fits (by simp) (by simp) hc
  split at e
  · simp only [Option.some.injEq] at e; subst e; exact loader_toJson_fits (by simp) (by simp) hc
  split at e
  · simp only [Option.bind_eq_some_iff, Option.some.injEq] at e
    obtain ⟨k, hk, rfl⟩ := e
    cases k with
    | none =>
      refine loader_toJson_fits (by simp) ?_ hc
      intro ext mode e
      simp only [Option.getD_none, LoaderKind.generic.injEq] at e
      rw [← e.1]; decide
    | some k =>
      obtain ⟨v, hl, hk⟩ := getIf_some hk
      have hv := (h.lookup hl).1
      simp only [readGeneric, Option.bind_eq_bind, Option.bind_eq_some_iff, Option.pure_def, Option.some.injEq] at hk
      obtain ⟨obj, ho, ext, he, _, _, rfl⟩ := hk
      have hv := asObj_fits hv ho
      obtain ⟨_, hv, he⟩ := getReq_fits hv he
      refine loader_toJson_fits (by simp) ?_ hc
      intro ext' mode e
      simp only [Option.getD_some, LoaderKind.generic.injEq] at e
      rw [← e.1]
      exact asString_fits hv he
  split at e
  · simp only [Option.some.injEq] at e; subst e; exact loader_toJson_fits (by simp) (by simp) hc
  · simp at e

theorem tree_fits {valid : String → Bool} {d : Nat} {v : Json} {t : TreeConfig} (h : Fits (d + 3) v) (e : TreeConfig.fromJson valid v = some t) : Fits (d + 3) t.toJson := by
  simp only [TreeConfig.fromJson, Option.bind_eq_bind, Option.bind_eq_some_iff, Option.pure_def, Option.some.injEq] at e
  obtain ⟨obj, ho, f, ⟨_, ef, hf⟩, dd, ⟨_, ed, hd⟩, r, _, l, ⟨_, el, hl⟩, rfl⟩ := e
  have h := asObj_fits h ho
  obtain ⟨_, h1, ef⟩ := getReq_fits h ef
  obtain ⟨_, h2, ed⟩ := getReq_fits h ed
  obtain ⟨_, h3, el⟩ := getReq_fits h el
  have h3 := obj_fits (asObj_fits h3 el)
  refine (((Fits.nil.set (by decide) (writeMap_fits ?_)).set (by decide) (flag_fits _)).set (by decide) (writeFilter_fits (readFilter_fits (asArr_fits h1 ef) hf))).set
    (by decide) (writeFilter_fits (readFilter_fits (asArr_fits h2 ed) hd))
  exact readMap_fits (fun v w hv e => .str (asString_fits hv e)) h3.1 h3.2 (by simp) hl

theorem config_fits {valid : String → Bool} {d : Nat} {ms : Members} {c : Config} (h : Fits (d + 6) (.obj ms)) (e : Config.fromMembers valid ms = some c) :
    Fits (d + 6) (.obj c.toMembers) := by
  simp only [Config.fromMembers, Option.bind_eq_bind, Option.bind_eq_some_iff, Option.pure_def, Option.some.injEq] at e
  obtain ⟨t, et, l, ⟨_, el, hl⟩, dc, ed, rfl⟩ := e
  obtain ⟨_, h1, et⟩ := getReq_fits h et
  obtain ⟨_, h2, el⟩ := getReq_fits h el
  obtain ⟨_, h3, ed⟩ := getReq_fits h ed
  have h2 := obj_fits (asObj_fits h2 el)
  refine ((Fits.nil.set (by decide) (tree_fits h1 et)).set (by decide) (writeMap_fits ?_)).set (by decide) (compiler_fits h3 ed)
  exact readMap_fits (fun v w hv e => loader_fits hv e) h2.1 h2.2 (by simp) hl

theorem default_fits {d : Nat} : Fits (d + 7) (.obj Config.default.toMembers) := by
  refine ((Fits.nil.set (by decide) ?_).set (by decide) (writeMap_fits ?_)).set (by decide) ?_
  · refine (((Fits.nil.set (by decide) (writeMap_fits ?_)).set (by decide) (flag_fits _)).set (by decide) (writeFilter_fits (by decide))).set (by decide) (writeFilter_fits (by decide))
    intro x hx
    have : ∀ x ∈ TreeConfig.default.loaders, Char.ofNat 0 ∉ x.1.toList ∧ Char.ofNat 0 ∉ x.2.toList := by decide
    exact ⟨(this x hx).1, .str (this x hx).2⟩
  · have hs : ∀ {e : Nat} {r : String} {u : Bool} {ms : Members}, Char.ofNat 0 ∉ r.toList → Fits (e + 1) (.obj ms) →
        Fits (e + 2) (Compiler.toJson { recipe := r, config := ms, useGetTags := u }) := fun hr hm =>
      ((Fits.nil.set (by decide) (.str hr)).set (by decide) hm).set (by decide) (flag_fits _)
    have ha : ∀ {e : Nat} {ss : List String}, (∀ s ∈ ss, Char.ofNat 0 ∉ s.toList) → Fits (e + 2) (.arr (ss.map .str)) := writeFilter_fits
    have hc : ∀ {e : Nat}, Fits (e + 3) (.obj [("iquote", .arr [.str "."]), ("cflags", .arr [.str "-g", .str "-Wall"])]) := by
      intro e
      exact (Fits.nil.set (k := "iquote") (by decide) (ha (ss := ["."]) (by decide))).set (k := "cflags") (by decide) (ha (ss := ["-g", "-Wall"]) (by decide))
    intro x hx
    simp only [Config.default, defaultLoaders, List.mem_cons, List.not_mem_nil, or_false] at hx
    rcases hx with rfl | rfl | rfl | rfl | rfl | rfl | rfl
    · exact ⟨by decide, loader_toJson_fits (by simp) (by simp)
        (hs (by decide) (Fits.nil.set (k := "cflags") (by decide) (ha (ss := ["-g"]) (by decide))))⟩
    · refine ⟨by decide, loader_toJson_fits ?_ (by simp) (hs (by decide) hc)⟩
      intro gen e; cases e; decide
    · refine ⟨by decide, loader_toJson_fits ?_ (by simp) (hs (by decide) (hc.set (k := "actions") (by decide) (ha (ss := ["link", "run"]) (by decide))))⟩
      intro gen e; cases e; decide
    · exact ⟨by decide, loader_toJson_fits (by simp) (by simp) (hs (by decide) .nil)⟩
    · refine ⟨by decide, loader_toJson_fits (by simp) ?_ (hs (by decide) .nil)⟩
      intro gen m e; cases e; decide
    · exact ⟨by decide, loader_toJson_fits (by simp) (by simp) (hs (by decide) .nil)⟩
    · refine ⟨by decide, loader_toJson_fits (by simp) ?_ (hs (by decide) .nil)⟩
      intro gen m e; cases e; decide
  · exact ((Fits.nil.set (by decide) (.str (by decide))).set (by decide) .nil).set (by decide) (flag_fits _)

theorem loadConfig_fits {valid : String → Bool} {d : Nat} {files : List (Option Members)} (h : ∀ ms, some ms ∈ files → Fits (d + 8) (.obj ms)) :
    Fits (d + 8) (.obj [("maikeconfig", .obj (loadConfig valid files).toMembers)]) := by
  have hm : ∀ acc : Members, Fits (d + 8) (.obj acc) → Fits (d + 8) (.obj (files.foldl (fun cfg file =>
      match file with
      | none => cfg
      | some ms => (mergeInto cfg ms).1) acc)) := by
    induction files with
    | nil => intro acc ha; exact ha
    | cons f files ih =>
      intro acc ha
      refine ih (fun ms hms => h ms (by simp [hms])) _ ?_
      cases f with
      | none => exact ha
      | some ms =>
        have := obj_fits (h ms (by simp))
        exact mergeInto_fits ha this.1 this.2
  have hm := hm [] .nil
  refine Fits.set (ms := []) .nil (by decide) ?_
  simp only [loadConfig]
  split
  · rename_i e
    simp only [Option.bind_eq_some_iff] at e
    obtain ⟨ms, el, e⟩ := e
    obtain ⟨v, hv, eo⟩ := getReq_fits hm el
    exact config_fits (asObj_fits hv eo) e
  · exact default_fits

end JsonText

/-! ## Theorems -/

/-- **C60.** Whatever the configuration files are, the configuration can be dumped and loaded again. -/
theorem C60_loaded {valid : String → Bool} (hv : DefaultsValid valid) (files : List (Option Members)) :
    (loadConfig valid files).Proper valid ∧ (loadConfig valid files).forgetOrigins = loadConfig valid files := by
  simp only [loadConfig]
  split
  · rename_i h
    simp only [Option.bind_eq_some_iff] at h
    obtain ⟨_, _, h⟩ := h
    exact config_fromMembers_proper hv.2.2 h
  · exact default_proper' hv

/-- **C60.** Dumping the configuration and using the dump as the only configuration file makes no difference. -/
theorem C60_again {valid : String → Bool} (hv : DefaultsValid valid) (files : List (Option Members)) :
    loadConfig valid [some [("maikeconfig", .obj (loadConfig valid files).toMembers)]] = loadConfig valid files := by
  rw [C60_load valid _ (C60_loaded hv files).1, (C60_loaded hv files).2]

end Maike.Kvs
