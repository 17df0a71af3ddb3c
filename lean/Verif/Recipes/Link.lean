import Verif.Recipes.Model

/-!
# Lemmas about the recipes for linking
-/

namespace Maike.Recipes

open Maike.Kvs (Json Members)

/-! ## `filter_deps` -/

/-- The loop keeps the first occurrence of each item. -/
theorem filterLoop_facts (items seen ret : List String) (h : ∀ x, x ∈ seen ↔ x ∈ ret) (hn : ret.Nodup) :
    (∀ x, x ∈ filterLoop items seen ret ↔ x ∈ ret ∨ x ∈ items) ∧ (filterLoop items seen ret).Nodup ∧ ret <+: filterLoop items seen ret := by
  induction items generalizing seen ret with
  | nil => simp [filterLoop, hn]
  | cons a items ih =>
    simp only [filterLoop]
    split
    · rename_i ha
      obtain ⟨h1, h2, h3⟩ := ih seen ret h hn
      refine ⟨fun x => ?_, h2, h3⟩
      rw [h1]
      have := (h a).mp ha
      constructor
      · rintro (h | h)
        · exact .inl h
        · exact .inr (List.mem_cons_of_mem _ h)
      · rintro (h | h)
        · exact .inl h
        · rcases List.mem_cons.mp h with rfl | h
          · exact .inl this
          · exact .inr h
    · rename_i ha
      have ha' : a ∉ ret := fun h' => ha ((h a).mpr h')
      obtain ⟨h1, h2, h3⟩ := ih (a :: seen) (ret ++ [a]) (by intro x; simp [h x, or_comm])
        (by rw [List.nodup_append]; exact ⟨hn, by simp, by rintro x hx y hy rfl; simp at hy; exact ha' (hy ▸ hx)⟩)
      refine ⟨fun x => by rw [h1]; simp [or_assoc], h2, (List.prefix_append ret [a]).trans h3⟩

theorem mem_filterDeps {items : List String} {x : String} : x ∈ filterDeps items ↔ x ∈ items := by
  simp [filterDeps, (filterLoop_facts items [] [] (by simp) (by simp)).1]

theorem filterDeps_nodup (items : List String) : (filterDeps items).Nodup := by
  have := (filterLoop_facts items [] [] (by simp) (by simp)).2.1
  unfold filterDeps List.Nodup
  rw [List.pairwise_reverse]
  exact this.imp fun h => h.symm

/-- `a` occurs before `b`. -/
def Before {α : Type} (l : List α) (a b : α) : Prop := ∃ l₁ l₂ l₃, l = l₁ ++ a :: l₂ ++ b :: l₃

theorem filterLoop_append (l₁ l₂ seen ret : List String) : ∃ seen', (∀ x, x ∈ seen' ↔ x ∈ seen ∨ x ∈ l₁) ∧
    filterLoop (l₁ ++ l₂) seen ret = filterLoop l₂ seen' (filterLoop l₁ seen ret) := by
  induction l₁ generalizing seen ret with
  | nil => exact ⟨seen, by simp, rfl⟩
  | cons a l ih =>
    simp only [List.cons_append, filterLoop]
    split
    · rename_i ha
      obtain ⟨s, h1, h2⟩ := ih seen ret
      refine ⟨s, fun x => ?_, h2⟩
      rw [h1]
      constructor
      · rintro (h | h)
        · exact .inl h
        · exact .inr (List.mem_cons_of_mem _ h)
      · rintro (h | h)
        · exact .inl h
        · rcases List.mem_cons.mp h with rfl | h
          · exact .inl ha
          · exact .inr h
    · obtain ⟨s, h1, h2⟩ := ih (a :: seen) (ret ++ [a])
      exact ⟨s, fun x => by rw [h1]; simp only [List.mem_cons]; grind, h2⟩

/-- What occurs first among the items comes last. -/
theorem filterDeps_order {l₁ l₂ : List String} {a b : String} (ha : a ∉ l₁) (hb : b ∈ l₁) (hab : a ∈ l₂) : Before (filterDeps (l₁ ++ l₂)) a b := by
  obtain ⟨seen', hs, e⟩ := filterLoop_append l₁ l₂ [] []
  have h1 := filterLoop_facts l₁ [] [] (by simp) (by simp)
  have hs' : ∀ x, x ∈ seen' ↔ x ∈ filterLoop l₁ [] [] := by intro x; rw [hs, h1.1]
  obtain ⟨h2, h3, r, hr⟩ := filterLoop_facts l₂ seen' (filterLoop l₁ [] []) hs' h1.2.1
  have har : a ∈ r := by
    have : a ∈ filterLoop l₂ seen' (filterLoop l₁ [] []) := (h2 a).mpr (.inr hab)
    rw [← hr, List.mem_append] at this
    refine this.resolve_left fun h => ha ?_
    simpa using (h1.1 a).mp h
  have hbl : b ∈ filterLoop l₁ [] [] := (h1.1 b).mpr (.inr hb)
  unfold filterDeps
  rw [e, ← hr, List.reverse_append]
  obtain ⟨r1, r2, e1⟩ := List.append_of_mem (List.mem_reverse.mpr har)
  obtain ⟨b1, b2, e2⟩ := List.append_of_mem (List.mem_reverse.mpr hbl)
  rw [e1, e2]
  exact ⟨r1, r2 ++ b1, b2, by simp⟩

/-! ## `collect_deps` -/

variable {f : Json → Option (List String)}

theorem collect_append (l₁ l₂ : List Json) {r : List String} : collect f (l₁ ++ l₂) = some r ↔
    ∃ r₁ r₂, collect f l₁ = some r₁ ∧ collect f l₂ = some r₂ ∧ r = r₁ ++ r₂ := by
  induction l₁ generalizing r with
  | nil => simp [collect]
  | cons a l ih =>
    simp only [List.cons_append, collect]
    cases f a with
    | none => simp
    | some x =>
      simp only [Option.bind_eq_bind, Option.bind_some, Option.bind_eq_some_iff, ih]
      constructor
      · rintro ⟨_, ⟨r₁, r₂, h1, h2, rfl⟩, h⟩
        simp only [Option.some.injEq] at h
        exact ⟨_, r₂, ⟨r₁, h1, rfl⟩, h2, by rw [← h, List.append_assoc]⟩
      · rintro ⟨_, r₂, ⟨r₁, h1, h⟩, h2, rfl⟩
        simp only [Option.some.injEq] at h
        exact ⟨_, ⟨r₁, r₂, h1, h2, rfl⟩, by rw [← h, List.append_assoc]⟩

theorem mem_collect {l : List Json} {r : List String} (h : collect f l = some r) {s : String} :
    s ∈ r ↔ ∃ item ∈ l, ∃ x, f item = some x ∧ s ∈ x := by
  induction l generalizing r with
  | nil => simp only [collect, Option.some.injEq] at h; subst h; simp
  | cons a l ih =>
    simp only [collect, Option.bind_eq_bind, Option.bind_eq_some_iff, Option.some.injEq] at h
    obtain ⟨x, hx, y, hy, rfl⟩ := h
    simp [ih hy, hx]

theorem collect_isSome {l : List Json} (h : ∀ item ∈ l, (f item).isSome) : (collect f l).isSome := by
  induction l with
  | nil => rfl
  | cons a l ih =>
    obtain ⟨x, hx⟩ := Option.isSome_iff_exists.mp (h a (by simp))
    obtain ⟨y, hy⟩ := Option.isSome_iff_exists.mp (ih fun i hi => h i (by simp [hi]))
    simp [collect, hx, hy]

end Maike.Recipes
