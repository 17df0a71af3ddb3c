import Verif.Kvs.JsonTextUses

/-!
# Which characters are in the texts of values (C106)
-/

namespace Maike.Kvs.JsonText

/-! ## Specification -/

/-- A string is part of a value: as a value, or as a name. -/
inductive Occurs (s : String) : Json → Prop
  | str : Occurs s (.str s)
  | elem {v : Json} {vs : List Json} : v ∈ vs → Occurs s v → Occurs s (.arr vs)
  | name {v : Json} {ms : List (String × Json)} : (s, v) ∈ ms → Occurs s (.obj ms)
  | member {k : String} {v : Json} {ms : List (String × Json)} : (k, v) ∈ ms → Occurs s v → Occurs s (.obj ms)

/-- Characters that are written as they are, and are no apostrophes. -/
def Ordinary (c : Char) : Prop := c ≠ '\'' ∧ c ≠ '\\' ∧ c ≠ '"' ∧ 32 ≤ c.toNat

instance (c : Char) : Decidable (Ordinary c) := by unfold Ordinary; infer_instance

/-! ## Proof -/

/-- What a text must not have if it is to be used in a script. -/
def Bad (c : Char) : Prop := c = '\'' ∨ c = '\\' ∨ c = '\x00'

instance (c : Char) : Decidable (Bad c) := by unfold Bad; infer_instance

theorem escape_ordinary {c : Char} (h : Ordinary c) : escape c = [c] := by
  obtain ⟨_, h2, h3, h4⟩ := h
  rw [escape, if_neg h2, if_neg h3, if_neg (by omega)]

theorem not_bad_of_ordinary {c : Char} (h : Ordinary c) : ¬ Bad c := by
  obtain ⟨h1, h2, _, h4⟩ := h
  rintro (rfl | rfl | rfl)
  · exact h1 rfl
  · exact h2 rfl
  · exact absurd h4 (by decide)

theorem escape_bad {c : Char} (h : ¬ Ordinary c) : ∃ x ∈ escape c, Bad x := by
  by_cases h2 : c = '\\'
  · exact ⟨'\\', by simp [escape, h2], .inr (.inl rfl)⟩
  by_cases h3 : c = '"'
  · exact ⟨'\\', by rw [h3]; decide, .inr (.inl rfl)⟩
  by_cases h4 : c.toNat < 32
  · refine ⟨'\\', ?_, .inr (.inl rfl)⟩
    rw [escape, if_neg h2, if_neg h3, if_pos h4]
    repeat' split
    all_goals simp
  · have h1 : c = '\'' := Classical.byContradiction fun h1 => h ⟨h1, h2, h3, by omega⟩
    exact ⟨'\'', by rw [h1]; decide, .inl rfl⟩

theorem bad_dumpString {s : String} : (∃ c ∈ dumpString s, Bad c) ↔ ∃ c ∈ s.toList, ¬ Ordinary c := by
  constructor
  · rintro ⟨c, hc, hb⟩
    simp only [dumpString, List.mem_cons, List.mem_append, List.mem_flatMap, List.not_mem_nil, or_false] at hc
    rcases hc with rfl | ⟨x, hx, hc⟩ | rfl
    · exact absurd hb (by decide)
    · refine ⟨x, hx, fun ho => ?_⟩
      rw [escape_ordinary ho] at hc
      simp only [List.mem_cons, List.not_mem_nil, or_false] at hc
      subst hc
      exact not_bad_of_ordinary ho hb
    · exact absurd hb (by decide)
  · rintro ⟨c, hc, ho⟩
    obtain ⟨x, hx, hb⟩ := escape_bad ho
    refine ⟨x, ?_, hb⟩
    simp only [dumpString, List.mem_cons, List.mem_append, List.mem_flatMap]
    exact .inr (.inl ⟨c, hc, hx⟩)

theorem bad_digits (n : Nat) : ∀ c ∈ Nat.toDigits 10 n, ¬ Bad c := by
  intro c hc
  have := Nat.isDigit_of_mem_toDigits (by decide) (by decide) hc
  rintro (rfl | rfl | rfl) <;> revert this <;> decide

theorem bad_int (i : Int) : ∀ c ∈ dumpInt i, ¬ Bad c := by
  intro c hc
  unfold dumpInt at hc
  split at hc
  · rcases List.mem_cons.mp hc with rfl | hc
    · decide
    · exact bad_digits _ c hc
  · exact bad_digits _ c hc

theorem bad_real {f : Reals} (hf : f.Ok) (b : Nat) : ∀ c ∈ f.print b, ¬ Bad c := by
  intro c hc
  have := (hf b).1.numeric.1 c hc
  rintro (rfl | rfl | rfl) <;> revert this <;> decide

theorem bad_indent (first : Bool) (depth : Nat) : ∀ c ∈ indent false depth first, ¬ Bad c := by
  intro c hc
  cases first <;> simp [indent] at hc
  rw [hc]; decide

mutual

theorem bad_value {f : Reals} (hf : f.Ok) (depth : Nat) (v : Json) : (∃ c ∈ dumpValue f false depth v, Bad c) ↔ ∃ s, Occurs s v ∧ ∃ c ∈ s.toList, ¬ Ordinary c := by
  have none : ∀ {l : List Char} {v : Json}, (∀ c ∈ l, ¬ Bad c) → (∀ s, ¬ Occurs s v) → ((∃ c ∈ l, Bad c) ↔ ∃ s, Occurs s v ∧ ∃ c ∈ s.toList, ¬ Ordinary c) := by
    intro l v h1 h2
    exact ⟨fun ⟨c, hc, hb⟩ => absurd hb (h1 c hc), fun ⟨s, hs, _⟩ => absurd hs (h2 s)⟩
  cases v with
  | null => rw [dumpValue]; exact none (by decide) fun s h => nomatch h
  | bool b => cases b <;> rw [dumpValue] <;> exact none (by decide) fun s h => nomatch h
  | int i => rw [dumpValue]; exact none (bad_int i) fun s h => nomatch h
  | real b => rw [dumpValue]; exact none (bad_real hf b) fun s h => nomatch h
  | str s =>
    rw [dumpValue, bad_dumpString]
    exact ⟨fun h => ⟨s, .str, h⟩, fun ⟨s', hs, h⟩ => by cases hs; exact h⟩
  | arr vs =>
    rw [dumpValue]
    split
    · rename_i he
      cases vs with
      | nil => exact none (by decide) fun s h => by cases h with | elem h _ => cases h
      | cons => simp at he
    · have ih := bad_elems hf (depth + 1) true vs
      constructor
      · rintro ⟨c, hc, hb⟩
        simp only [List.mem_cons, List.mem_append, List.not_mem_nil, or_false] at hc
        rcases hc with rfl | (hc | hc) | rfl
        · exact absurd hb (by decide)
        · obtain ⟨v, hv, s, hs, h⟩ := ih.mp ⟨c, hc, hb⟩
          exact ⟨s, .elem hv hs, h⟩
        · exact absurd hb (bad_indent _ _ c hc)
        · exact absurd hb (by decide)
      · rintro ⟨s, hs, h⟩
        cases hs with
        | elem hv hs =>
          obtain ⟨c, hc, hb⟩ := ih.mpr ⟨_, hv, s, hs, h⟩
          exact ⟨c, by simp [hc], hb⟩
  | obj ms =>
    rw [dumpValue]
    split
    · rename_i he
      cases ms with
      | nil => exact none (by decide) fun s h => by cases h with | name h => cases h | member h _ => cases h
      | cons => simp at he
    · have ih := bad_members hf (depth + 1) true ms
      constructor
      · rintro ⟨c, hc, hb⟩
        simp only [List.mem_cons, List.mem_append, List.not_mem_nil, or_false] at hc
        rcases hc with rfl | (hc | hc) | rfl
        · exact absurd hb (by decide)
        · obtain ⟨m, hm, s, hs, h⟩ := ih.mp ⟨c, hc, hb⟩
          rcases hs with rfl | hs
          · exact ⟨m.1, .name hm, h⟩
          · exact ⟨s, .member hm hs, h⟩
        · exact absurd hb (bad_indent _ _ c hc)
        · exact absurd hb (by decide)
      · rintro ⟨s, hs, h⟩
        have : ∃ m ∈ ms, ∃ s, (s = m.1 ∨ Occurs s m.2) ∧ ∃ c ∈ s.toList, ¬ Ordinary c := by
          cases hs with
          | name hm => exact ⟨_, hm, _, .inl rfl, h⟩
          | member hm hs => exact ⟨_, hm, _, .inr hs, h⟩
        obtain ⟨c, hc, hb⟩ := ih.mpr this
        exact ⟨c, by simp [hc], hb⟩

theorem bad_elems {f : Reals} (hf : f.Ok) (depth : Nat) (first : Bool) (vs : List Json) :
    (∃ c ∈ dumpElems f false depth first vs, Bad c) ↔ ∃ v ∈ vs, ∃ s, Occurs s v ∧ ∃ c ∈ s.toList, ¬ Ordinary c := by
  cases vs with
  | nil => rw [dumpElems]; simp
  | cons v vs =>
    have i1 := bad_value hf depth v
    have i2 := bad_elems hf depth false vs
    rw [dumpElems]
    constructor
    · rintro ⟨c, hc, hb⟩
      simp only [List.mem_append] at hc
      rcases hc with ((hc | hc) | hc) | hc
      · split at hc
        · cases hc
        · simp at hc; rw [hc] at hb; exact absurd hb (by decide)
      · exact absurd hb (bad_indent _ _ c hc)
      · obtain ⟨s, h⟩ := i1.mp ⟨c, hc, hb⟩
        exact ⟨v, by simp, s, h⟩
      · obtain ⟨v', hv, h⟩ := i2.mp ⟨c, hc, hb⟩
        exact ⟨v', by simp [hv], h⟩
    · rintro ⟨v', hv, h⟩
      rcases List.mem_cons.mp hv with rfl | hv
      · obtain ⟨c, hc, hb⟩ := i1.mpr h
        exact ⟨c, by simp [hc], hb⟩
      · obtain ⟨c, hc, hb⟩ := i2.mpr ⟨v', hv, h⟩
        exact ⟨c, by simp [hc], hb⟩

theorem bad_member {f : Reals} (hf : f.Ok) (depth : Nat) (m : String × Json) :
    (∃ c ∈ dumpMember f false depth m, Bad c) ↔ ∃ s, (s = m.1 ∨ Occurs s m.2) ∧ ∃ c ∈ s.toList, ¬ Ordinary c := by
  cases m with
  | mk k v =>
    have i1 := bad_value hf depth v
    rw [dumpMember]
    constructor
    · rintro ⟨c, hc, hb⟩
      simp only [List.mem_append] at hc
      rcases hc with (hc | hc) | hc
      · exact ⟨k, .inl rfl, bad_dumpString.mp ⟨c, hc, hb⟩⟩
      · simp at hc
        rcases hc with rfl | rfl <;> exact absurd hb (by decide)
      · obtain ⟨s, h1, h2⟩ := i1.mp ⟨c, hc, hb⟩
        exact ⟨s, .inr h1, h2⟩
    · rintro ⟨s, rfl | hs, h⟩
      · obtain ⟨c, hc, hb⟩ := bad_dumpString.mpr h
        exact ⟨c, by simp [hc], hb⟩
      · obtain ⟨c, hc, hb⟩ := i1.mpr ⟨s, hs, h⟩
        exact ⟨c, by simp [hc], hb⟩

theorem bad_members {f : Reals} (hf : f.Ok) (depth : Nat) (first : Bool) (ms : List (String × Json)) :
    (∃ c ∈ dumpMembers f false depth first ms, Bad c) ↔ ∃ m ∈ ms, ∃ s, (s = m.1 ∨ Occurs s m.2) ∧ ∃ c ∈ s.toList, ¬ Ordinary c := by
  cases ms with
  | nil => rw [dumpMembers]; simp
  | cons m ms =>
    have i1 := bad_member hf depth m
    have i2 := bad_members hf depth false ms
    rw [dumpMembers]
    constructor
    · rintro ⟨c, hc, hb⟩
      simp only [List.mem_append] at hc
      rcases hc with ((hc | hc) | hc) | hc
      · split at hc
        · cases hc
        · simp at hc; rw [hc] at hb; exact absurd hb (by decide)
      · exact absurd hb (bad_indent _ _ c hc)
      · obtain ⟨s, h⟩ := i1.mp ⟨c, hc, hb⟩
        exact ⟨m, by simp, s, h⟩
      · obtain ⟨m', hm, h⟩ := i2.mp ⟨c, hc, hb⟩
        exact ⟨m', by simp [hm], h⟩
    · rintro ⟨m', hm, h⟩
      rcases List.mem_cons.mp hm with rfl | hm
      · obtain ⟨c, hc, hb⟩ := i1.mpr h
        exact ⟨c, by simp [hc], hb⟩
      · obtain ⟨c, hc, hb⟩ := i2.mpr ⟨m', hm, h⟩
        exact ⟨c, by simp [hc], hb⟩

end

mutual

theorem occurs_sort (s : String) (v : Json) : Occurs s (sortKeys v) ↔ Occurs s v := by
  cases v with
  | null | bool | int | real | str => rw [sortKeys]
  | arr vs =>
    have ih := occurs_sortElems s vs
    rw [sortKeys]
    exact ⟨fun h => by
        cases h with
        | elem h1 h2 => obtain ⟨v, h3, h4⟩ := ih.mp ⟨_, h1, h2⟩; exact .elem h3 h4,
      fun h => by
        cases h with
        | elem h1 h2 => obtain ⟨v, h3, h4⟩ := ih.mpr ⟨_, h1, h2⟩; exact .elem h3 h4⟩
  | obj ms =>
    have ih := occurs_sortMembers s ms
    have hp := fun m => (byKey_perm (sortMembers ms)).mem_iff (a := m)
    rw [sortKeys]
    have to : ∀ {ms : List (String × Json)} {m : String × Json}, m ∈ ms → (s = m.1 ∨ Occurs s m.2) → Occurs s (.obj ms) := by
      intro ms m hm h
      rcases h with rfl | h
      · exact .name hm
      · exact .member hm h
    constructor
    · intro h
      cases h with
      | name h => obtain ⟨m, h1, h2⟩ := ih.mp ⟨_, (hp _).mp h, .inl rfl⟩; exact to h1 h2
      | member h h' => obtain ⟨m, h1, h2⟩ := ih.mp ⟨_, (hp _).mp h, .inr h'⟩; exact to h1 h2
    · intro h
      cases h with
      | name h => obtain ⟨m, h1, h2⟩ := ih.mpr ⟨_, h, .inl rfl⟩; exact to ((hp _).mpr h1) h2
      | member h h' => obtain ⟨m, h1, h2⟩ := ih.mpr ⟨_, h, .inr h'⟩; exact to ((hp _).mpr h1) h2

theorem occurs_sortElems (s : String) (vs : List Json) : (∃ v ∈ sortElems vs, Occurs s v) ↔ ∃ v ∈ vs, Occurs s v := by
  cases vs with
  | nil => rw [sortElems]
  | cons v vs =>
    have i1 := occurs_sort s v
    have i2 := occurs_sortElems s vs
    rw [sortElems]
    simp only [List.mem_cons, exists_eq_or_imp]
    rw [i1, i2]

theorem occurs_sortMember (s : String) (m : String × Json) : (s = (sortMember m).1 ∨ Occurs s (sortMember m).2) ↔ (s = m.1 ∨ Occurs s m.2) := by
  cases m with
  | mk k v =>
    have i1 := occurs_sort s v
    rw [sortMember]
    simp only [i1]

theorem occurs_sortMembers (s : String) (ms : List (String × Json)) :
    (∃ m ∈ sortMembers ms, s = m.1 ∨ Occurs s m.2) ↔ ∃ m ∈ ms, s = m.1 ∨ Occurs s m.2 := by
  cases ms with
  | nil => rw [sortMembers]
  | cons m ms =>
    have i1 := occurs_sortMember s m
    have i2 := occurs_sortMembers s ms
    rw [sortMembers]
    simp only [List.mem_cons, exists_eq_or_imp]
    rw [i1, i2]

end

/-- **C106.** The text of a value has an apostrophe, a backslash or a zero if and only if a string that is part of it has an apostrophe, a backslash, a quotation mark or a control character. -/
theorem C106_json {f : Reals} (hf : f.Ok) (v : Json) :
    (∃ c ∈ store f false v, c = '\'' ∨ c = '\\' ∨ c = '\x00') ↔ ∃ s, Occurs s v ∧ ∃ c ∈ s.toList, c = '\'' ∨ c = '\\' ∨ c = '"' ∨ c.toNat < 32 := by
  have e : ∀ c : Char, ¬ Ordinary c ↔ (c = '\'' ∨ c = '\\' ∨ c = '"' ∨ c.toNat < 32) := by
    intro c
    simp only [Ordinary, Classical.not_and_iff_not_or_not, Classical.not_not, Nat.not_le, ne_eq]
  have := bad_value hf 0 (sortKeys v)
  simp only [occurs_sort, e, Bad] at this
  exact this

end Maike.Kvs.JsonText
