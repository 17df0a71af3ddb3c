import Verif.Recipes.Script

/-!
# Names of headers and of directories
-/

namespace Maike.Recipes

/-! ## Specification -/

/-- The name of a header: the last component ends with `.h`, `.hpp` or `.hxx`, in any case, and there is something other than periods in front of that. -/
def IsHeaderName (name : String) : Prop :=
  ∃ dir base ext : List Char, name.toList.map Char.toLower = dir ++ base ++ '.' :: ext ∧ (dir = [] ∨ ∃ parent, dir = parent ++ ['/']) ∧ '/' ∉ base ∧ (∃ c ∈ base, c ≠ '.') ∧
    ext ∈ [['h'], ['h', 'p', 'p'], ['h', 'x', 'x']]

/-- A target that is a directory: `d`, or `d/.`. -/
def Directory (target d : String) : Prop := target = d ++ "/." ∨ (target = d ∧ ¬ ∃ d', target = d' ++ "/.")

/-! ## Proof -/

theorem takeWhile_suffix {p : Char → Bool} {a b : List Char} (hb : ∀ c ∈ b, p c = true) (ha : a = [] ∨ ∃ a' x, a = a' ++ [x] ∧ p x = false) :
    ((a ++ b).reverse.takeWhile p).reverse = b := by
  rw [List.reverse_append, List.takeWhile_append_of_pos (by simpa using hb)]
  rcases ha with rfl | ⟨a', x, rfl, hx⟩
  · simp
  · simp [hx]

theorem mem_takeWhile {p : Char → Bool} {l : List Char} {c : Char} (h : c ∈ l.takeWhile p) : p c = true := by
  induction l with
  | nil => cases h
  | cons x l ih =>
    simp only [List.takeWhile_cons] at h
    split at h
    · rename_i hx
      rcases List.mem_cons.mp h with rfl | h
      · exact hx
      · exact ih h
    · cases h

theorem split_last (p : Char → Bool) (l : List Char) : ∃ a, l = a ++ (l.reverse.takeWhile p).reverse ∧ (a = [] ∨ ∃ a' x, a = a' ++ [x] ∧ p x = false) := by
  refine ⟨(l.reverse.dropWhile p).reverse, ?_, ?_⟩
  · rw [← List.reverse_append, List.takeWhile_append_dropWhile, List.reverse_reverse]
  · cases h : l.reverse.dropWhile p with
    | nil => exact .inl rfl
    | cons x a' =>
      refine .inr ⟨a'.reverse, x, by simp, ?_⟩
      have := List.head_dropWhile_not p (l := l.reverse) (by rw [h]; simp)
      simpa [h] using this

theorem isHeader_iff (name : String) : isHeader name = true ↔ IsHeaderName name := by
  unfold isHeader fileExt IsHeaderName
  generalize name.toList.map Char.toLower = l
  dsimp only
  constructor
  · intro h
    obtain ⟨dir, hl, hdir⟩ := split_last (· ≠ '/') l
    generalize hb : (l.reverse.takeWhile (· ≠ '/')).reverse = b at hl h
    have hslash : '/' ∉ b := by
      rw [← hb]
      intro hm
      have := mem_takeWhile (List.mem_reverse.mp hm)
      simp at this
    split at h
    · rename_i hdot
      obtain ⟨front, hf, hfront⟩ := split_last (· ≠ '.') (b.dropWhile (· = '.'))
      generalize he : ((b.dropWhile (· = '.')).reverse.takeWhile (· ≠ '.')).reverse = e at hf h
      have hne : '.' ∉ e := by
        rw [← he]
        intro hm
        have := mem_takeWhile (List.mem_reverse.mp hm)
        simp at this
      obtain ⟨a', x, rfl, hx⟩ : ∃ a' x, front = a' ++ [x] ∧ decide (x ≠ '.') = false := by
        rcases hfront with rfl | h
        · rw [hf] at hdot; exact absurd hdot (by simpa using hne)
        · exact h
      have hx : x = '.' := by simpa using hx
      subst hx
      have hsplit : b = b.takeWhile (· = '.') ++ (a' ++ '.' :: e) := by
        conv => lhs; rw [← List.takeWhile_append_dropWhile (p := (· = '.')) (l := b)]
        rw [hf]; simp
      refine ⟨dir, b.takeWhile (· = '.') ++ a', e, ?_, ?_, ?_, ?_, ?_⟩
      · rw [hl]; conv => lhs; rw [hsplit]
        simp
      · rcases hdir with h | ⟨p, x, h1, h2⟩
        · exact .inl h
        · have : x = '/' := by simpa using h2
          exact .inr ⟨p, by rw [h1, this]⟩
      · intro hm
        refine hslash ?_
        rw [hsplit, ← List.append_assoc]
        exact List.mem_append_left _ hm
      · cases a' with
        | nil =>
          have := List.head_dropWhile_not (· = '.') (l := b) (by rw [hf]; simp)
          simp [hf] at this
        | cons y a' =>
          have := List.head_dropWhile_not (· = '.') (l := b) (by rw [hf]; simp)
          simp only [hf, List.cons_append, List.head_cons, decide_eq_false_iff_not] at this
          exact ⟨y, by simp, this⟩
      · simp only [List.mem_cons, List.cons.injEq, true_and, List.not_mem_nil, or_false, decide_eq_true_eq] at h ⊢
        rcases h with h | h | h <;> simp [h]
    · simp at h
  · rintro ⟨dir, base, ext, rfl, hdir, hslash, ⟨c, hc, hcd⟩, hext⟩
    have hext' : ∀ c ∈ ext, c ≠ '/' ∧ c ≠ '.' := by
      simp only [List.mem_cons, List.not_mem_nil, or_false] at hext
      rcases hext with rfl | rfl | rfl <;> decide
    have e1 : (((dir ++ base ++ '.' :: ext).reverse.takeWhile (· ≠ '/')).reverse) = base ++ '.' :: ext := by
      rw [List.append_assoc]
      refine takeWhile_suffix ?_ ?_
      · intro x hx
        simp only [List.mem_append, List.mem_cons] at hx
        rcases hx with hx | rfl | hx
        · simp; rintro rfl; exact hslash hx
        · decide
        · simp [(hext' x hx).1]
      · rcases hdir with h | ⟨p, h⟩
        · exact .inl h
        · exact .inr ⟨p, '/', h, by simp⟩
    rw [e1]
    have e2 : (base ++ '.' :: ext).dropWhile (· = '.') = base.dropWhile (· = '.') ++ '.' :: ext := by
      rw [List.dropWhile_append]
      split
      · rename_i h
        rw [List.isEmpty_iff] at h
        rw [← List.takeWhile_append_dropWhile (p := (· = '.')) (l := base), h, List.append_nil] at hc
        exact absurd (of_decide_eq_true (mem_takeWhile hc)) hcd
      · rfl
    rw [e2, if_pos (by simp)]
    have e3 : ((base.dropWhile (· = '.') ++ '.' :: ext).reverse.takeWhile (· ≠ '.')).reverse = ext := by
      rw [List.append_cons]
      exact takeWhile_suffix (fun x hx => by simp [(hext' x hx).2]) (.inr ⟨_, '.', rfl, by simp⟩)
    rw [e3]
    simp only [List.mem_cons, List.cons.injEq, true_and, List.not_mem_nil, or_false, decide_eq_true_eq] at hext ⊢
    rcases hext with h | h | h <;> simp [h]

theorem directory_withoutDot (t d : String) : Directory t d ↔ d = withoutDot t := by
  have hdot : ∀ d', t = d' ++ "/." ↔ t.toList = d'.toList ++ ['/', '.'] := fun d' => by rw [← String.toList_inj, String.toList_append]; rfl
  unfold Directory withoutDot
  split
  · rename_i h
    obtain ⟨l, hl⟩ := List.isSuffixOf_iff_suffix.mp h
    have htake : t.toList.take (t.toList.length - 2) = l := by rw [← hl]; simp
    rw [htake]
    constructor
    · rintro (h | ⟨h, hn⟩)
      · rw [hdot, ← hl] at h
        rw [← String.toList_inj]
        simpa using (List.append_cancel_right h).symm
      · exact absurd ⟨String.ofList l, (hdot _).mpr (by simp [hl])⟩ hn
    · rintro rfl
      exact .inl ((hdot _).mpr (by simp [hl]))
  · rename_i h
    have hn : ¬ ∃ d', t = d' ++ "/." := fun ⟨d', hd⟩ => h (List.isSuffixOf_iff_suffix.mpr ⟨d'.toList, ((hdot d').mp hd).symm⟩)
    exact ⟨fun h => h.elim (fun h => absurd ⟨_, h⟩ hn) fun h => h.1.symm, fun h => .inr ⟨h.symm, hn⟩⟩

theorem not_header {name : String} (h : ¬ IsHeaderName name) : isHeader name = false := by
  rw [← isHeader_iff] at h
  simpa using h

end Maike.Recipes
