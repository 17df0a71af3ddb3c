import Verif.Kvs.Spec

namespace Maike.Kvs

/-! ## Members -/

theorem lookup_set (k k' : String) (v : Json) (ms : Members) :
    lookup k' (set k v ms) = if k = k' then some v else lookup k' ms := by
  induction ms with
  | nil => simp [set, lookup]
  | cons m ms ih =>
    obtain ⟨k0, v0⟩ := m
    by_cases h : k0 = k
    · subst h
      by_cases h' : k0 = k' <;> simp [set, lookup, h']
    · by_cases h' : k0 = k'
      · subst h'
        simp [set, lookup, h, Ne.symm h]
      · simp [set, lookup, h, h', ih]

def keys (ms : Members) : List String := ms.map Prod.fst

theorem lookup_eq_none {k : String} {ms : Members} : lookup k ms = none ↔ k ∉ keys ms := by
  induction ms with
  | nil => simp [lookup, keys]
  | cons m ms ih =>
    obtain ⟨k0, v0⟩ := m
    by_cases h : k0 = k
    · simp [lookup, keys, h]
    · simp only [lookup, h, ↓reduceIte, ih]
      have h' : k ≠ k0 := fun e => h e.symm
      simp [keys, h']

theorem lookup_mem {k : String} {ms : Members} {v : Json} (h : lookup k ms = some v) : (k, v) ∈ ms := by
  induction ms with
  | nil => simp [lookup] at h
  | cons m ms ih =>
    obtain ⟨k0, v0⟩ := m
    by_cases hk : k0 = k
    · simp only [lookup, hk, ↓reduceIte, Option.some.injEq] at h
      simp [hk, h]
    · simp only [lookup, hk, ↓reduceIte] at h
      exact List.mem_cons_of_mem _ (ih h)

theorem lookup_of_mem {k : String} {ms : Members} {v : Json} (hn : (keys ms).Nodup) (h : (k, v) ∈ ms) :
    lookup k ms = some v := by
  induction ms with
  | nil => cases h
  | cons m ms ih =>
    obtain ⟨k0, v0⟩ := m
    simp only [keys, List.map_cons, List.nodup_cons] at hn
    rcases List.mem_cons.mp h with h | h
    · injection h with h1 h2
      simp [lookup, h1, h2]
    · have : k0 ≠ k := by
        rintro rfl
        exact hn.1 (List.mem_map.mpr ⟨_, h, rfl⟩)
      simp only [lookup, this, ↓reduceIte]
      exact ih hn.2 h

theorem keys_set (k : String) (v : Json) (ms : Members) :
    keys (set k v ms) = if k ∈ keys ms then keys ms else keys ms ++ [k] := by
  induction ms with
  | nil => simp [set, keys]
  | cons m ms ih =>
    obtain ⟨k0, v0⟩ := m
    by_cases h : k0 = k
    · subst h; simp [set, keys]
    · have h' : k ≠ k0 := fun e => h e.symm
      simp only [set, h, ↓reduceIte]
      by_cases hm : k ∈ keys ms
      · simp only [keys, List.map_cons] at *
        simp [ih, hm, h']
      · simp only [keys, List.map_cons] at *
        simp [ih, hm, h']

/-- Members are determined by the order of the keys and the values. -/
theorem members_ext {a b : Members} (hn : (keys a).Nodup) (hk : keys a = keys b)
    (hl : ∀ k, lookup k a = lookup k b) : a = b := by
  induction a generalizing b with
  | nil =>
    cases b with
    | nil => rfl
    | cons m b => simp [keys] at hk
  | cons m a ih =>
    cases b with
    | nil => simp [keys] at hk
    | cons m' b =>
      obtain ⟨k, v⟩ := m
      obtain ⟨k', v'⟩ := m'
      simp only [keys, List.map_cons, List.cons.injEq] at hk
      obtain ⟨rfl, hk⟩ := hk
      have h0 := hl k
      simp only [lookup, ↓reduceIte, Option.some.injEq] at h0
      subst h0
      simp only [keys, List.map_cons, List.nodup_cons] at hn
      congr 1
      apply ih hn.2 hk
      intro k2
      by_cases h2 : k = k2
      · subst h2
        have ha : lookup k a = none := lookup_eq_none.mpr hn.1
        have hb : lookup k b = none := lookup_eq_none.mpr (by rw [keys, ← hk]; exact hn.1)
        rw [ha, hb]
      · have := hl k2
        simpa [lookup, h2] using this

/-! ## Merging members -/

/-- What is found for a key after a merge, or `none` if the merge fails. -/
def combine (x y : Option Json) : Option (Option Json) :=
  match x, y with
  | none, y => some y
  | x, none => some x
  | some x, some y => (mergeValue x y).map some

@[simp] theorem combine_none_left (y : Option Json) : combine none y = some y := rfl
@[simp] theorem combine_none_right (x : Option Json) : combine x none = some x := by cases x <;> rfl
@[simp] theorem combine_some (x y : Json) : combine (some x) (some y) = (mergeValue x y).map some := rfl

theorem merge_nil (a : Members) : merge a [] = some a := by simp [merge, mergeInto]

theorem merge_cons (a : Members) (k : String) (v : Json) (ms : Members) :
    merge a ((k, v) :: ms) =
      match lookup k a with
      | none => merge (set k v a) ms
      | some x => match mergeValue x v with
        | none => none
        | some y => merge (set k y a) ms := by
  simp only [merge, mergeInto, mergeItem]
  cases lookup k a with
  | none => rfl
  | some x =>
    simp only
    cases mergeValue x v with
    | none => rfl
    | some y => rfl

theorem mergeValue_obj (a b : Members) : mergeValue (.obj a) (.obj b) = (merge a b).map .obj := by
  simp only [mergeValue, merge]
  cases h : mergeInto a b with
  | mk m ok => cases ok <;> simp

theorem merge_lookup {a b m : Members} (hn : (keys b).Nodup) (h : merge a b = some m) (k : String) :
    combine (lookup k a) (lookup k b) = some (lookup k m) := by
  induction b generalizing a with
  | nil =>
    rw [merge_nil] at h; cases h
    simp [lookup]
  | cons kv b ih =>
    obtain ⟨k0, v⟩ := kv
    rw [merge_cons] at h
    simp only [keys, List.map_cons, List.nodup_cons] at hn
    cases ha : lookup k0 a with
    | none =>
      rw [ha] at h
      simp only at h
      have := ih hn.2 h
      rw [lookup_set] at this
      by_cases hk : k0 = k
      · subst hk
        have hb : lookup k0 b = none := lookup_eq_none.mpr hn.1
        simp only [↓reduceIte, hb, combine_none_right] at this
        simp [lookup, ha, ← this]
      · simpa [lookup, hk] using this
    | some x =>
      rw [ha] at h
      simp only at h
      cases hx : mergeValue x v with
      | none => simp [hx] at h
      | some y =>
        simp only [hx] at h
        have := ih hn.2 h
        rw [lookup_set] at this
        by_cases hk : k0 = k
        · subst hk
          have hb : lookup k0 b = none := lookup_eq_none.mpr hn.1
          simp only [↓reduceIte, hb, combine_none_right] at this
          simp [lookup, ha, hx, ← this]
        · simpa [lookup, hk] using this

theorem merge_some_iff {a b : Members} (hn : (keys b).Nodup) :
    (merge a b).isSome ↔ ∀ k, (combine (lookup k a) (lookup k b)).isSome := by
  constructor
  · intro h k
    obtain ⟨m, hm⟩ := Option.isSome_iff_exists.mp h
    rw [merge_lookup hn hm]; rfl
  · intro h
    induction b generalizing a with
    | nil => simp [merge_nil]
    | cons kv b ih =>
      obtain ⟨k0, v⟩ := kv
      simp only [keys, List.map_cons, List.nodup_cons] at hn
      have hb : lookup k0 b = none := lookup_eq_none.mpr hn.1
      rw [merge_cons]
      have rest : ∀ w, ∀ k, (combine (lookup k (set k0 w a)) (lookup k b)).isSome := by
        intro w k
        rw [lookup_set]
        by_cases hk : k0 = k
        · subst hk; simp [hb]
        · have := h k
          simpa [lookup, hk] using this
      cases ha : lookup k0 a with
      | none => exact ih hn.2 (rest v)
      | some x =>
        have h0 := h k0
        simp only [lookup, ↓reduceIte, ha, combine_some] at h0
        cases hx : mergeValue x v with
        | none => simp [hx] at h0
        | some y =>
          simp only [hx]
          exact ih hn.2 (rest y)

theorem merge_keys {a b m : Members} (hn : (keys b).Nodup) (h : merge a b = some m) :
    keys m = keys a ++ (keys b).filter (· ∉ keys a) := by
  induction b generalizing a with
  | nil => rw [merge_nil] at h; cases h; simp [keys]
  | cons kv b ih =>
    obtain ⟨k0, v⟩ := kv
    simp only [keys, List.map_cons, List.nodup_cons] at hn
    rw [merge_cons] at h
    have cons_keys : keys ((k0, v) :: b) = k0 :: keys b := rfl
    cases ha : lookup k0 a with
    | none =>
      rw [ha] at h
      have h' := ih hn.2 h
      have hk0 : k0 ∉ keys a := lookup_eq_none.mp ha
      rw [h', keys_set, cons_keys]
      simp only [hk0, ↓reduceIte, List.mem_append, List.mem_singleton, not_or, List.filter_cons, not_false_eq_true,
        decide_true, List.append_assoc, List.singleton_append]
      congr 2
      apply List.filter_congr
      intro x hx
      have : x ≠ k0 := by rintro rfl; exact hn.1 hx
      simp [this]
    | some x =>
      have hk0 : k0 ∈ keys a := by
        rw [← Decidable.not_not (p := k0 ∈ keys a), ← lookup_eq_none, ha]; simp
      rw [ha] at h
      simp only at h
      cases hx : mergeValue x v with
      | none => simp [hx] at h
      | some y =>
        simp only [hx] at h
        have h' := ih hn.2 h
        rw [h', keys_set, cons_keys]
        simp [hk0]

theorem merge_nodup {a b m : Members} (ha : (keys a).Nodup) (hb : (keys b).Nodup) (h : merge a b = some m) :
    (keys m).Nodup := by
  rw [merge_keys hb h]
  refine List.nodup_append.mpr ⟨ha, hb.filter _, ?_⟩
  intro x hx y hy
  rintro rfl
  simp at hy
  exact hy.2 hx

/-! ## Values -/

theorem mergeValue_scalar {y : Json} (hy : y.isScalar) (x : Json) :
    mergeValue x y = if x.type = y.type then some y else none := by
  cases y <;> first | exact absurd hy id | rfl

theorem mergeValue_type {x y z : Json} (h : mergeValue x y = some z) : x.type = y.type ∧ z.type = y.type := by
  cases y with
  | arr ys => cases x <;> simp [mergeValue] at h; subst h; exact ⟨rfl, rfl⟩
  | obj ys =>
    cases x with
    | obj xs =>
      rw [mergeValue_obj] at h
      obtain ⟨m, _, rfl⟩ := Option.map_eq_some_iff.mp h
      exact ⟨rfl, rfl⟩
    | _ => simp [mergeValue] at h
  | _ =>
    rw [mergeValue_scalar (by trivial)] at h
    split at h
    · rename_i ht; cases h; exact ⟨ht, rfl⟩
    · cases h

theorem type_obj {x : Json} (h : x.type = .compound) : ∃ ms, x = .obj ms := by
  cases x with
  | bool b => cases b <;> simp [Json.type] at h
  | obj ms => exact ⟨ms, rfl⟩
  | _ => simp [Json.type] at h

theorem type_arr {x : Json} (h : x.type = .array) : ∃ xs, x = .arr xs := by
  cases x with
  | bool b => cases b <;> simp [Json.type] at h
  | arr xs => exact ⟨xs, rfl⟩
  | _ => simp [Json.type] at h

theorem WellFormed.nodup {ms : Members} (h : WellFormed (.obj ms)) : (keys ms).Nodup := by
  cases h with
  | obj nodup _ => exact nodup

theorem WellFormed.member {ms : Members} (h : WellFormed (.obj ms)) {k : String} {v : Json} (hl : lookup k ms = some v) :
    WellFormed v := by
  cases h with
  | obj _ hm => exact hm _ (lookup_mem hl)

theorem sizeOf_lookup {ms : Members} {k : String} {v : Json} (h : lookup k ms = some v) :
    sizeOf v < sizeOf (Json.obj ms) := by
  have hm := lookup_mem h
  have h1 := List.sizeOf_lt_of_mem hm
  have h2 : sizeOf (k, v) = 1 + sizeOf k + sizeOf v := rfl
  have h3 : sizeOf (Json.obj ms) = 1 + sizeOf ms := by simp
  omega

theorem mergeValue_wf {x y z : Json} (hx : WellFormed x) (hy : WellFormed y) (h : mergeValue x y = some z) : WellFormed z := by
  cases y with
  | arr ys =>
    cases x with
    | arr xs =>
      simp [mergeValue] at h
      subst h
      cases hx with | arr hx =>
      cases hy with | arr hy =>
      refine .arr fun v hv => ?_
      rcases List.mem_append.mp hv with hv | hv
      · exact hx v hv
      · exact hy v hv
    | _ => simp [mergeValue] at h
  | obj ys =>
    cases x with
    | obj xs =>
      rw [mergeValue_obj] at h
      obtain ⟨m, hm, rfl⟩ := Option.map_eq_some_iff.mp h
      refine .obj (merge_nodup hx.nodup hy.nodup hm) ?_
      rintro ⟨k, v⟩ hkv
      have hv : lookup k m = some v := lookup_of_mem (merge_nodup hx.nodup hy.nodup hm) hkv
      have hc := merge_lookup hy.nodup hm k
      rw [hv] at hc
      cases hxk : lookup k xs with
      | none =>
        rw [hxk] at hc
        simp at hc
        exact hy.member hc
      | some x' =>
        cases hyk : lookup k ys with
        | none =>
          rw [hxk, hyk] at hc
          simp at hc
          subst hc
          exact hx.member hxk
        | some y' =>
          rw [hxk, hyk] at hc
          simp at hc
          have := sizeOf_lookup hyk
          exact mergeValue_wf (hx.member hxk) (hy.member hyk) hc
    | _ => simp [mergeValue] at h
  | _ =>
    rw [mergeValue_scalar (by trivial)] at h
    split at h
    · cases h; exact hy
    · cases h
termination_by sizeOf y

end Maike.Kvs
