import Verif.Kvs.Lemmas

/-!
# Properties of merged configurations
-/

namespace Maike.Kvs

theorem get_cons_of_not_obj {x : Json} (h : x.type ≠ .compound) (k : String) (p : List String) : get (k :: p) x = none := by
  cases x with
  | obj ms => exact absurd rfl h
  | _ => rfl

theorem obj_cases {a b m : Json} (h : mergeValue a b = some m) :
    (∃ as bs ms, a = .obj as ∧ b = .obj bs ∧ m = .obj ms ∧ merge as bs = some ms) ∨
    (a.type ≠ .compound ∧ b.type ≠ .compound ∧ m.type ≠ .compound) := by
  obtain ⟨h1, h2⟩ := mergeValue_type h
  by_cases hb : b.type = .compound
  · left
    obtain ⟨bs, rfl⟩ := type_obj hb
    obtain ⟨as, rfl⟩ := type_obj (h1.trans hb)
    rw [mergeValue_obj] at h
    obtain ⟨ms, hm, rfl⟩ := Option.map_eq_some_iff.mp h
    exact ⟨as, bs, ms, rfl, rfl, rfl, hm⟩
  · right
    rw [h1, h2]
    exact ⟨hb, hb, hb⟩

theorem get_only_right {a b m : Json} (hb : WellFormed b) (h : mergeValue a b = some m) (p : List String)
    (hp : get p a = none) : get p m = get p b := by
  induction p generalizing a b m with
  | nil => simp [get] at hp
  | cons k p ih =>
    rcases obj_cases h with ⟨as, bs, ms, rfl, rfl, rfl, hm⟩ | ⟨h1, h2, h3⟩
    · have hc := merge_lookup hb.nodup hm k
      simp only [get] at hp ⊢
      cases ha : lookup k as with
      | none =>
        rw [ha] at hc
        simp at hc
        rw [hc]
      | some x =>
        rw [ha] at hc hp
        simp only [Option.bind_some] at hp
        cases hbk : lookup k bs with
        | none =>
          rw [hbk] at hc
          simp at hc
          simp [← hc, hp]
        | some y =>
          rw [hbk] at hc
          simp only [combine_some, Option.map_eq_some_iff] at hc
          obtain ⟨z, hz, hz'⟩ := hc
          rw [← hz']
          exact ih (hb.member hbk) hz hp
    · rw [get_cons_of_not_obj h2, get_cons_of_not_obj h3]

theorem get_only_left {a b m : Json} (hb : WellFormed b) (h : mergeValue a b = some m) (p : List String)
    (hp : get p b = none) : get p m = get p a := by
  induction p generalizing a b m with
  | nil => simp [get] at hp
  | cons k p ih =>
    rcases obj_cases h with ⟨as, bs, ms, rfl, rfl, rfl, hm⟩ | ⟨h1, h2, h3⟩
    · have hc := merge_lookup hb.nodup hm k
      simp only [get] at hp ⊢
      cases hbk : lookup k bs with
      | none =>
        rw [hbk] at hc
        simp at hc
        rw [hc]
      | some y =>
        rw [hbk] at hc hp
        simp only [Option.bind_some] at hp
        cases ha : lookup k as with
        | none =>
          rw [ha] at hc
          simp at hc
          simp [← hc, hp]
        | some x =>
          rw [ha] at hc
          simp only [combine_some, Option.map_eq_some_iff] at hc
          obtain ⟨z, hz, hz'⟩ := hc
          rw [← hz']
          exact ih (hb.member hbk) hz hp
    · rw [get_cons_of_not_obj h1, get_cons_of_not_obj h3]

theorem get_both {a b m : Json} (hb : WellFormed b) (h : mergeValue a b = some m) (p : List String) {x y : Json}
    (hx : get p a = some x) (hy : get p b = some y) : ∃ z, get p m = some z ∧ mergeValue x y = some z := by
  induction p generalizing a b m with
  | nil =>
    simp only [get, Option.some.injEq] at hx hy
    subst hx hy
    exact ⟨m, rfl, h⟩
  | cons k p ih =>
    rcases obj_cases h with ⟨as, bs, ms, rfl, rfl, rfl, hm⟩ | ⟨h1, h2, h3⟩
    · have hc := merge_lookup hb.nodup hm k
      simp only [get] at hx hy ⊢
      obtain ⟨x', hx', hx⟩ := Option.bind_eq_some_iff.mp hx
      obtain ⟨y', hy', hy⟩ := Option.bind_eq_some_iff.mp hy
      rw [hx', hy'] at hc
      simp only [combine_some, Option.map_eq_some_iff] at hc
      obtain ⟨z, hz, hz'⟩ := hc
      rw [← hz']
      exact ih (hb.member hy') hz hx hy
    · rw [get_cons_of_not_obj h1] at hx; cases hx

theorem merge_obj {a b m : Members} (h : merge a b = some m) : mergeValue (.obj a) (.obj b) = some (.obj m) := by
  rw [mergeValue_obj, h]; rfl

/-! ## Theorems -/

/-- **C31.** If merging `b` into `a` gives `m`, then for each path of keys: if it is missing on one side, the value is that of the
other side (which may be missing, too). If there are values on both sides then the result is an object if these are objects, the
concatenation if these are arrays, and otherwise the value in `b`. -/
theorem C31_merge (a b m : Members) (hb : WellFormed (.obj b)) (h : merge a b = some m) (p : List String) :
    (get p (.obj a) = none → get p (.obj m) = get p (.obj b)) ∧
    (get p (.obj b) = none → get p (.obj m) = get p (.obj a)) ∧
    (∀ x y, get p (.obj a) = some x → get p (.obj b) = some y →
      (∃ xs ys zs, x = .obj xs ∧ y = .obj ys ∧ get p (.obj m) = some (.obj zs)) ∨
      (∃ xs ys, x = .arr xs ∧ y = .arr ys ∧ get p (.obj m) = some (.arr (xs ++ ys))) ∨
      (x.isScalar ∧ y.isScalar ∧ get p (.obj m) = some y)) := by
  have hm := merge_obj h
  refine ⟨get_only_right hb hm p, get_only_left hb hm p, ?_⟩
  intro x y hx hy
  obtain ⟨z, hz, hxy⟩ := get_both hb hm p hx hy
  rw [hz]
  have ht := mergeValue_type hxy
  cases y with
  | obj ys =>
    obtain ⟨xs, rfl⟩ := type_obj ht.1
    obtain ⟨zs, rfl⟩ := type_obj ht.2
    exact .inl ⟨xs, ys, zs, rfl, rfl, rfl⟩
  | arr ys =>
    obtain ⟨xs, rfl⟩ := type_arr ht.1
    simp [mergeValue] at hxy
    subst hxy
    exact .inr (.inl ⟨xs, ys, rfl, rfl, rfl⟩)
  | _ =>
    right; right
    rw [mergeValue_scalar (by trivial)] at hxy
    split at hxy
    · cases hxy
      refine ⟨?_, by trivial, rfl⟩
      rename_i ht'
      cases x <;> first | trivial | (simp [Json.type] at ht'; done) | skip
      all_goals (rename_i b _; cases b <;> simp [Json.type] at ht')
    · cases hxy

/-- Merging gives a well-formed value again. -/
theorem C31_wellFormed (a b m : Members) (ha : WellFormed (.obj a)) (hb : WellFormed (.obj b)) (h : merge a b = some m) :
    WellFormed (.obj m) := mergeValue_wf ha hb (merge_obj h)

theorem conflict_of_none {a b : Json} (hb : WellFormed b) (h : mergeValue a b = none) :
    ∃ p x y, get p a = some x ∧ get p b = some y ∧ x.type ≠ y.type := by
  by_cases ht : a.type = b.type
  · cases b with
    | arr ys =>
      obtain ⟨xs, rfl⟩ := type_arr ht
      simp [mergeValue] at h
    | obj ys =>
      obtain ⟨xs, rfl⟩ := type_obj ht
      rw [mergeValue_obj, Option.map_eq_none_iff] at h
      have : ¬ ∀ k, (combine (lookup k xs) (lookup k ys)).isSome := by
        intro hx
        have := (merge_some_iff hb.nodup).mpr hx
        rw [h] at this; cases this
      simp only [Classical.not_forall] at this
      obtain ⟨k, hk⟩ := this
      cases hxk : lookup k xs with
      | none => simp [hxk] at hk
      | some x =>
        cases hyk : lookup k ys with
        | none => simp [hyk] at hk
        | some y =>
          rw [hxk, hyk] at hk
          simp at hk
          have := sizeOf_lookup hyk
          obtain ⟨p, x', y', h1, h2, h3⟩ := conflict_of_none (hb.member hyk) hk
          exact ⟨k :: p, x', y', by simp [get, hxk, h1], by simp [get, hyk, h2], h3⟩
    | _ =>
      rw [mergeValue_scalar (by trivial), if_pos ht] at h
      cases h
  · exact ⟨[], a, b, rfl, rfl, ht⟩
termination_by sizeOf b

/-- **C32.** Merging fails if and only if there is a path of keys which leads to values of different types. -/
theorem C32_conflict (a b : Members) (hb : WellFormed (.obj b)) :
    merge a b = none ↔ ∃ p x y, get p (.obj a) = some x ∧ get p (.obj b) = some y ∧ x.type ≠ y.type := by
  constructor
  · intro h
    exact conflict_of_none hb (by rw [mergeValue_obj, h]; rfl)
  · rintro ⟨p, x, y, hx, hy, hne⟩
    cases h : merge a b with
    | none => rfl
    | some m =>
      obtain ⟨z, _, hz⟩ := get_both hb (merge_obj h) p hx hy
      exact absurd (mergeValue_type hz).1 hne

/-! ### Associativity -/

/-- Associativity for the values of one key, if it holds for values. -/
theorem combine_assoc {x y z : Option Json}
    (h : ∀ x' y' z', x = some x' → y = some y' → z = some z' →
      (mergeValue x' y').bind (mergeValue · z') = (mergeValue y' z').bind (mergeValue x' ·)) :
    (combine x y).bind (combine · z) = (combine y z).bind (combine x ·) := by
  cases x with
  | none => simp
  | some x =>
    cases y with
    | none => simp
    | some y =>
      cases z with
      | none => simp
      | some z =>
        have h' := h x y z rfl rfl rfl
        simp only [combine_some]
        cases hxy : mergeValue x y with
        | none =>
          rw [hxy] at h'
          cases hyz : mergeValue y z with
          | none => rfl
          | some w =>
            rw [hyz] at h'
            simp only [Option.bind_none, Option.bind_some] at h'
            simp [← h']
        | some v =>
          rw [hxy] at h'
          cases hyz : mergeValue y z with
          | none =>
            rw [hyz] at h'
            simp only [Option.bind_none, Option.bind_some] at h'
            simp [h']
          | some w =>
            rw [hyz] at h'
            simp only [Option.bind_some] at h'
            simp [h']

theorem merge_assoc_of {a b c : Members} (ha : (keys a).Nodup) (hb : (keys b).Nodup) (hc : (keys c).Nodup)
    (h : ∀ k x y z, lookup k a = some x → lookup k b = some y → lookup k c = some z →
      (mergeValue x y).bind (mergeValue · z) = (mergeValue y z).bind (mergeValue x ·)) :
    (merge a b).bind (merge · c) = (merge b c).bind (merge a ·) := by
  have hcomb : ∀ k, (combine (lookup k a) (lookup k b)).bind (combine · (lookup k c)) =
      (combine (lookup k b) (lookup k c)).bind (combine (lookup k a) ·) :=
    fun k => combine_assoc (fun x y z => h k x y z)
  -- success on either side, key by key
  have hl : ((merge a b).bind (merge · c)).isSome ↔
      ∀ k, ((combine (lookup k a) (lookup k b)).bind (combine · (lookup k c))).isSome := by
    cases hab : merge a b with
    | none =>
      have : ¬ ∀ k, (combine (lookup k a) (lookup k b)).isSome := by
        rw [← merge_some_iff hb, hab]; simp
      simp only [Classical.not_forall] at this
      obtain ⟨k, hk⟩ := this
      simp only [Option.bind_none, Option.isSome_none, Bool.false_eq_true, false_iff, Classical.not_forall]
      refine ⟨k, ?_⟩
      cases hx : combine (lookup k a) (lookup k b) with
      | none => simp
      | some v => simp [hx] at hk
    | some m =>
      simp only [Option.bind_some]
      rw [merge_some_iff hc]
      apply forall_congr'
      intro k
      rw [merge_lookup hb hab k]; rfl
  have hr : ((merge b c).bind (merge a ·)).isSome ↔
      ∀ k, ((combine (lookup k b) (lookup k c)).bind (combine (lookup k a) ·)).isSome := by
    cases hbc : merge b c with
    | none =>
      have : ¬ ∀ k, (combine (lookup k b) (lookup k c)).isSome := by
        rw [← merge_some_iff hc, hbc]; simp
      simp only [Classical.not_forall] at this
      obtain ⟨k, hk⟩ := this
      simp only [Option.bind_none, Option.isSome_none, Bool.false_eq_true, false_iff, Classical.not_forall]
      refine ⟨k, ?_⟩
      cases hx : combine (lookup k b) (lookup k c) with
      | none => simp
      | some v => simp [hx] at hk
    | some m =>
      simp only [Option.bind_some]
      rw [merge_some_iff (merge_nodup hb hc hbc)]
      apply forall_congr'
      intro k
      rw [merge_lookup hc hbc k]; rfl
  have hiff : ((merge a b).bind (merge · c)).isSome ↔ ((merge b c).bind (merge a ·)).isSome := by
    rw [hl, hr]
    apply forall_congr'
    intro k
    rw [hcomb k]
  cases h1 : (merge a b).bind (merge · c) with
  | none =>
    cases h2 : (merge b c).bind (merge a ·) with
    | none => rfl
    | some m => rw [h1, h2] at hiff; simp at hiff
  | some m1 =>
    cases h2 : (merge b c).bind (merge a ·) with
    | none => rw [h1, h2] at hiff; simp at hiff
    | some m2 =>
      obtain ⟨ab, hab, h1⟩ := Option.bind_eq_some_iff.mp h1
      obtain ⟨bc, hbc, h2⟩ := Option.bind_eq_some_iff.mp h2
      have nab := merge_nodup ha hb hab
      have nbc := merge_nodup hb hc hbc
      congr 1
      apply members_ext (merge_nodup nab hc h1)
      · rw [merge_keys hc h1, merge_keys nbc h2, merge_keys hb hab, merge_keys hc hbc, List.append_assoc,
          List.filter_append]
        congr 2
        rw [List.filter_filter]
        apply List.filter_congr
        intro k _
        simp only [List.mem_append, List.mem_filter, decide_eq_true_eq]
        by_cases hka : k ∈ keys a <;> by_cases hkb : k ∈ keys b <;> simp [hka, hkb]
      · intro k
        have e1 := merge_lookup hb hab k
        have e2 := merge_lookup hc h1 k
        have e3 := merge_lookup hc hbc k
        have e4 := merge_lookup nbc h2 k
        have := hcomb k
        rw [e1, e3] at this
        simp only [Option.bind_some] at this
        rw [e2, e4] at this
        exact Option.some.inj this

theorem mergeValue_assoc {x y z : Json} (hx : WellFormed x) (hy : WellFormed y) (hz : WellFormed z) :
    (mergeValue x y).bind (mergeValue · z) = (mergeValue y z).bind (mergeValue x ·) := by
  by_cases h1 : x.type = y.type
  · by_cases h2 : y.type = z.type
    · cases z with
      | arr zs =>
        obtain ⟨ys, rfl⟩ := type_arr h2
        obtain ⟨xs, rfl⟩ := type_arr (h1.trans h2)
        simp [mergeValue]
      | obj zs =>
        obtain ⟨ys, rfl⟩ := type_obj h2
        obtain ⟨xs, rfl⟩ := type_obj (h1.trans h2)
        have := merge_assoc_of hx.nodup hy.nodup hz.nodup (fun k x' y' z' ha hb hc => by
          have := sizeOf_lookup hc
          exact mergeValue_assoc (hx.member ha) (hy.member hb) (hz.member hc))
        simp only [mergeValue_obj]
        cases hxy : merge xs ys with
        | none =>
          rw [hxy] at this
          cases hyz : merge ys zs with
          | none => rfl
          | some w =>
            rw [hyz] at this
            simp only [Option.bind_none, Option.bind_some] at this
            simp [mergeValue_obj, ← this]
        | some v =>
          rw [hxy] at this
          cases hyz : merge ys zs with
          | none =>
            rw [hyz] at this
            simp only [Option.bind_none, Option.bind_some] at this
            simp [mergeValue_obj, this]
          | some w =>
            rw [hyz] at this
            simp only [Option.bind_some] at this
            simp [mergeValue_obj, this]
      | _ =>
        have hs : y.isScalar := by
          cases y <;> first | trivial | (simp [Json.type] at h2; done) | skip
          all_goals (rename_i b _; cases b <;> simp [Json.type] at h2)
        rw [mergeValue_scalar hs, if_pos h1, mergeValue_scalar (by trivial), if_pos h2]
        simp only [Option.bind_some]
        rw [mergeValue_scalar (by trivial), mergeValue_scalar (by trivial), if_pos h2, if_pos (h1.trans h2)]
    · have h3 : mergeValue y z = none := by
        cases h : mergeValue y z with
        | none => rfl
        | some w => exact absurd (mergeValue_type h).1 h2
      rw [h3]
      cases hxy : mergeValue x y with
      | none => rfl
      | some w =>
        cases h : mergeValue w z with
        | none => simp [h]
        | some w' => exact absurd ((mergeValue_type hxy).2.symm.trans (mergeValue_type h).1) h2
  · have h3 : mergeValue x y = none := by
      cases h : mergeValue x y with
      | none => rfl
      | some w => exact absurd (mergeValue_type h).1 h1
    rw [h3]
    cases hyz : mergeValue y z with
    | none => rfl
    | some w =>
      cases h : mergeValue x w with
      | none => simp [h]
      | some w' =>
        have e1 := mergeValue_type hyz
        have e2 := mergeValue_type h
        exact absurd (e2.1.trans (e1.2.trans e1.1.symm)) h1
termination_by sizeOf z

/-- **C33.** Configurations can be grouped freely: both ways give the same result, in the same order, or both fail. -/
theorem C33_assoc (a b c : Members) (ha : WellFormed (.obj a)) (hb : WellFormed (.obj b)) (hc : WellFormed (.obj c)) :
    (merge a b).bind (merge · c) = (merge b c).bind (merge a ·) :=
  merge_assoc_of ha.nodup hb.nodup hc.nodup fun _ _ _ _ h1 h2 h3 =>
    mergeValue_assoc (ha.member h1) (hb.member h2) (hc.member h3)

/-- **C33** (neutral element). -/
theorem C33_empty_right (a : Members) : merge a [] = some a := merge_nil a

theorem C33_empty_left (a : Members) (ha : WellFormed (.obj a)) : merge [] a = some a := by
  have hs : (merge [] a).isSome := by
    rw [merge_some_iff ha.nodup]
    intro k
    simp [lookup]
  obtain ⟨m, hm⟩ := Option.isSome_iff_exists.mp hs
  rw [hm]
  have hk := merge_keys ha.nodup hm
  have h1 : keys m = keys a := by rw [hk]; simp [keys]
  congr 1
  apply members_ext (by rw [h1]; exact ha.nodup) h1
  intro k
  have := merge_lookup ha.nodup hm k
  simp [lookup] at this
  exact this.symm

/-- Merging is not idempotent: arrays are duplicated. -/
theorem C33_not_idempotent : ∃ a m, WellFormed (.obj a) ∧ merge a a = some m ∧ get ["x"] (.obj m) ≠ get ["x"] (.obj a) := by
  refine ⟨[("x", .arr [.int 1])], [("x", .arr [.int 1, .int 1])], ?_, rfl, ?_⟩
  · refine .obj (by simp) ?_
    intro kv hkv
    simp at hkv
    subst hkv
    refine .arr ?_
    intro v hv; simp at hv; subst hv; exact .int 1
  · simp [get, lookup]

/-- A flag cannot be changed from true to false by a later configuration file: the merge fails. -/
theorem C32_flag (k : String) : merge [(k, .bool true)] [(k, .bool false)] = none := by
  simp [merge, mergeInto, mergeItem, lookup, mergeValue, Json.type]

section Examples

/-- A configuration with a nested compound, an array and scalars. -/
def exampleA : Members :=
  [("loader", .obj [("name", .str "cxx"), ("level", .int 1)]), ("filter", .arr [.str "a"]), ("only_a", .null)]

def exampleB : Members :=
  [("filter", .arr [.str "b"]), ("only_b", .bool true), ("loader", .obj [("level", .int 2), ("x", .null)])]

example : WellFormed (.obj exampleB) := by
  refine .obj (by simp [exampleB]) ?_
  intro kv hkv
  simp only [exampleB, List.mem_cons, List.not_mem_nil, or_false] at hkv
  rcases hkv with rfl | rfl | rfl
  · refine .arr ?_
    intro v hv; simp at hv; subst hv; exact .str _
  · exact .bool _
  · refine .obj (by simp) ?_
    intro kv hkv
    simp only [List.mem_cons, List.not_mem_nil, or_false] at hkv
    rcases hkv with rfl | rfl
    · exact .int _
    · exact .null

example : merge exampleA exampleB =
    some [("loader", .obj [("name", .str "cxx"), ("level", .int 2), ("x", .null)]),
      ("filter", .arr [.str "a", .str "b"]), ("only_a", .null), ("only_b", .bool true)] := by
  simp [merge, mergeInto, mergeItem, mergeValue, lookup, set, exampleA, exampleB, Json.type]

example : merge exampleA [("loader", .obj [("level", .str "high")])] = none := by
  simp [merge, mergeInto, mergeItem, mergeValue, lookup, exampleA, Json.type]

end Examples

end Maike.Kvs
