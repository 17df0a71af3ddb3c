/-!
# Ordered maps

`std::map` keyed by paths, as a list of pairs with strictly ascending keys. The order is that of
`fs::path`; `Fs/Path.lean` shows that `std::filesystem::path` has the properties required here.
-/

set_option linter.unusedSectionVars false

namespace Maike.Db

/-- What the database needs to know about `fs::path`: a strict total order (`operator<`), normalisation
(`lexically_normal`) and the empty path. No property of `norm` is assumed. -/
class PathType (P : Type) where
  lt : P → P → Bool
  irrefl : ∀ a, lt a a = false
  trans : ∀ a b c, lt a b = true → lt b c = true → lt a c = true
  tri : ∀ a b, lt a b = false → lt b a = false → a = b
  norm : P → P
  empty : P

namespace Map

variable {P V : Type} [PathType P] [DecidableEq P]

/-- Keys are strictly ascending: representation invariant of `std::map`. -/
def Sorted : List (P × V) → Prop
  | [] => True
  | (k, _) :: m => (∀ x ∈ m, PathType.lt k x.1 = true) ∧ Sorted m

/-- `std::map::find`. -/
def lookup (k : P) : List (P × V) → Option V
  | [] => none
  | (k', v) :: m => if k = k' then some v else lookup k m

/-- `std::map::insert`: does nothing if the key is present. -/
def insertNew (k : P) (v : V) : List (P × V) → List (P × V)
  | [] => [(k, v)]
  | (k', v') :: m =>
    if PathType.lt k k' then (k, v) :: (k', v') :: m
    else if PathType.lt k' k then (k', v') :: insertNew k v m
    else (k', v') :: m

/-- `std::map::merge`: entries whose key is present already stay where they are. -/
def mergeNew (m : List (P × V)) : List (P × V) → List (P × V)
  | [] => m
  | (k, v) :: o => mergeNew (insertNew k v m) o

/-! ## Lemmas -/

theorem lt_ne {a b : P} (h : PathType.lt a b = true) : a ≠ b := by
  rintro rfl; rw [PathType.irrefl] at h; cases h

theorem lt_asymm {a b : P} (h : PathType.lt a b = true) : PathType.lt b a = false := by
  cases h' : PathType.lt b a
  · rfl
  · have := PathType.trans a b a h h'
    rw [PathType.irrefl] at this; cases this

theorem lookup_none {k : P} {m : List (P × V)} : lookup k m = none ↔ ∀ x ∈ m, x.1 ≠ k := by
  induction m with
  | nil => simp [lookup]
  | cons a m ih =>
    obtain ⟨k', v⟩ := a
    simp only [lookup]
    split
    · rename_i h; subst h; simp
    · rename_i h; rw [ih]; simp only [List.mem_cons, forall_eq_or_imp]
      constructor
      · intro hm; exact ⟨fun e => h e.symm, hm⟩
      · intro hm; exact hm.2

theorem lookup_mem {k : P} {v : V} {m : List (P × V)} (h : lookup k m = some v) : (k, v) ∈ m := by
  induction m with
  | nil => simp [lookup] at h
  | cons a m ih =>
    obtain ⟨k', v'⟩ := a
    simp only [lookup] at h
    split at h
    · rename_i e; subst e; simp at h; subst h; simp
    · exact List.mem_cons_of_mem _ (ih h)

theorem Sorted.unique {m : List (P × V)} (hs : Sorted m) {k : P} {v w : V} (h1 : (k, v) ∈ m)
    (h2 : (k, w) ∈ m) : v = w := by
  induction m with
  | nil => cases h1
  | cons a m ih =>
    obtain ⟨k', v'⟩ := a
    cases h1 with
    | head =>
      cases h2 with
      | head => rfl
      | tail _ h2 => exact absurd rfl (lt_ne (hs.1 _ h2))
    | tail _ h1 =>
      cases h2 with
      | head => exact absurd rfl (lt_ne (hs.1 _ h1))
      | tail _ h2 => exact ih hs.2 h1 h2

theorem lookup_of_mem {m : List (P × V)} (hs : Sorted m) {k : P} {v : V} (h : (k, v) ∈ m) :
    lookup k m = some v := by
  cases hl : lookup k m with
  | none => exact absurd rfl (lookup_none.mp hl _ h)
  | some w => rw [hs.unique (lookup_mem hl) h]

theorem mem_insertNew {k : P} {v : V} {m : List (P × V)} {x : P × V} (h : x ∈ insertNew k v m) :
    x = (k, v) ∨ x ∈ m := by
  induction m with
  | nil => simp [insertNew] at h; exact .inl h
  | cons a m ih =>
    obtain ⟨k', v'⟩ := a
    simp only [insertNew] at h
    split at h
    · simpa using h
    · split at h
      · simp only [List.mem_cons] at h ⊢
        rcases h with h | h
        · exact .inr (.inl h)
        · rcases ih h with h | h
          · exact .inl h
          · exact .inr (.inr h)
      · exact .inr h

theorem insertNew_sorted {k : P} {v : V} {m : List (P × V)} (hs : Sorted m) :
    Sorted (insertNew k v m) := by
  induction m with
  | nil => simp [insertNew, Sorted]
  | cons a m ih =>
    obtain ⟨k', v'⟩ := a
    simp only [insertNew]
    split
    · rename_i h
      refine ⟨?_, hs⟩
      intro x hx
      simp only [List.mem_cons] at hx
      rcases hx with rfl | hx
      · exact h
      · exact PathType.trans _ _ _ h (hs.1 x hx)
    · split
      · rename_i h1 h2
        refine ⟨?_, ih hs.2⟩
        intro x hx
        rcases mem_insertNew hx with rfl | hx
        · exact h2
        · exact hs.1 x hx
      · exact hs

theorem mem_insertNew_of_mem {k : P} {v : V} {m : List (P × V)} {x : P × V} (h : x ∈ m) :
    x ∈ insertNew k v m := by
  induction m with
  | nil => cases h
  | cons a m ih =>
    obtain ⟨k', v'⟩ := a
    simp only [insertNew]
    split
    · exact List.mem_cons_of_mem _ h
    · split
      · simp only [List.mem_cons] at h ⊢
        rcases h with h | h
        · exact .inl h
        · exact .inr (ih h)
      · exact h

theorem insertNew_mem {k : P} {v : V} {m : List (P × V)} (hs : Sorted m)
    (hn : ∀ x ∈ m, x.1 ≠ k) : (k, v) ∈ insertNew k v m := by
  induction m with
  | nil => simp [insertNew]
  | cons a m ih =>
    obtain ⟨k', v'⟩ := a
    simp only [insertNew]
    split
    · simp
    · split
      · exact List.mem_cons_of_mem _ (ih hs.2 (fun x hx => hn x (by simp [hx])))
      · rename_i h1 h2
        exact absurd (PathType.tri k' k (by simpa using h2) (by simpa using h1)) (hn (k', v') (by simp))

theorem insertNew_present {k : P} {v : V} {m : List (P × V)} (hs : Sorted m)
    (hp : ∃ x ∈ m, x.1 = k) : insertNew k v m = m := by
  induction m with
  | nil => obtain ⟨x, hx, _⟩ := hp; cases hx
  | cons a m ih =>
    obtain ⟨k', v'⟩ := a
    obtain ⟨x, hx, rfl⟩ := hp
    simp only [insertNew]
    simp only [List.mem_cons] at hx
    rcases hx with rfl | hx
    · simp [PathType.irrefl]
    · have h := hs.1 x hx
      rw [lt_asymm h, h, ih hs.2 ⟨x, hx, rfl⟩]
      simp

/-- What is in a map after an insertion. -/
theorem mem_insertNew_iff {k : P} {v : V} {m : List (P × V)} (hs : Sorted m) {x : P × V} :
    x ∈ insertNew k v m ↔ x ∈ m ∨ (x = (k, v) ∧ ∀ y ∈ m, y.1 ≠ k) := by
  by_cases hp : ∃ y ∈ m, y.1 = k
  · rw [insertNew_present hs hp]
    constructor
    · exact .inl
    · rintro (h | ⟨_, h⟩)
      · exact h
      · obtain ⟨y, hy, e⟩ := hp; exact absurd e (h y hy)
  · have hn : ∀ y ∈ m, y.1 ≠ k := fun y hy e => hp ⟨y, hy, e⟩
    constructor
    · intro h
      rcases mem_insertNew h with h | h
      · exact .inr ⟨h, hn⟩
      · exact .inl h
    · rintro (h | ⟨rfl, _⟩)
      · exact mem_insertNew_of_mem h
      · exact insertNew_mem hs hn

theorem mergeNew_sorted {m o : List (P × V)} (hs : Sorted m) : Sorted (mergeNew m o) := by
  induction o generalizing m with
  | nil => exact hs
  | cons a o ih => exact ih (insertNew_sorted hs)

/-- What is in a map after a merge. -/
theorem mem_mergeNew_iff {m o : List (P × V)} (hs : Sorted m) (ho : Sorted o) {x : P × V} :
    x ∈ mergeNew m o ↔ x ∈ m ∨ (x ∈ o ∧ ∀ y ∈ m, y.1 ≠ x.1) := by
  induction o generalizing m with
  | nil => simp [mergeNew]
  | cons a o ih =>
    obtain ⟨k, v⟩ := a
    simp only [mergeNew]
    rw [ih (insertNew_sorted hs) ho.2, mem_insertNew_iff hs]
    constructor
    · rintro ((h | ⟨rfl, h⟩) | ⟨h1, h2⟩)
      · exact .inl h
      · exact .inr ⟨by simp, h⟩
      · exact .inr ⟨by simp [h1], fun y hy => h2 y (mem_insertNew_of_mem hy)⟩
    · rintro (h | ⟨h1, h2⟩)
      · exact .inl (.inl h)
      · simp only [List.mem_cons] at h1
        rcases h1 with rfl | h1
        · exact .inl (.inr ⟨rfl, h2⟩)
        · right
          refine ⟨h1, fun y hy => ?_⟩
          rcases mem_insertNew hy with rfl | hy
          · exact lt_ne (ho.1 x h1)
          · exact h2 y hy

theorem Sorted.get_lt {m : List (P × V)} (hs : Sorted m) {i j : Nat} {a b : P × V}
    (hi : m[i]? = some a) (hj : m[j]? = some b) (h : i < j) : PathType.lt a.1 b.1 = true := by
  induction m generalizing i j with
  | nil => simp at hi
  | cons c m ih =>
    cases j with
    | zero => omega
    | succ j =>
      simp only [List.getElem?_cons_succ] at hj
      cases i with
      | zero =>
        simp at hi; subst hi
        exact hs.1 _ (List.mem_of_getElem? hj)
      | succ i =>
        simp only [List.getElem?_cons_succ] at hi
        exact ih hs.2 hi hj (by omega)

theorem Sorted.map_val {W : Type} {m : List (P × V)} (hs : Sorted m) (f : P × V → W) :
    Sorted (m.map fun x => (x.1, f x)) := by
  induction m with
  | nil => trivial
  | cons a m ih =>
    refine ⟨?_, ih hs.2⟩
    intro x hx
    obtain ⟨y, hy, rfl⟩ := List.mem_map.mp hx
    exact hs.1 y hy

end Map
end Maike.Db
