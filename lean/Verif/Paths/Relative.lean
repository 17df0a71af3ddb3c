import Verif.Paths.Normal

/-!
# `lexically_relative` leads back
-/

namespace Maike.Paths

open Fs

theorem mismatch_spec (a b : List Str) : ∃ pre, a = pre ++ (mismatch a b).1 ∧ b = pre ++ (mismatch a b).2 := by
  induction a generalizing b with
  | nil => exact ⟨[], by simp [mismatch]⟩
  | cons x a ih =>
    cases b with
    | nil => exact ⟨[], by simp [mismatch]⟩
    | cons y b =>
      unfold mismatch
      split
      · rename_i h
        subst h
        obtain ⟨pre, h1, h2⟩ := ih b
        exact ⟨x :: pre, by rw [List.cons_append, ← h1], by rw [List.cons_append, ← h2]⟩
      · exact ⟨[], by simp⟩

theorem mismatch_heads (a b : List Str) (x y : Str) (hx : (mismatch a b).1.head? = some x) (hy : (mismatch a b).2.head? = some y) :
    x ≠ y := by
  induction a generalizing b with
  | nil => simp [mismatch] at hx
  | cons u a ih =>
    cases b with
    | nil => simp [mismatch] at hy
    | cons v b =>
      unfold mismatch at hx hy
      split at hx
      · rename_i h
        rw [if_pos h] at hy
        exact ih b hx hy
      · rename_i h
        rw [if_neg h] at hy
        simp at hx hy
        rw [← hx, ← hy]
        exact h

/-- What remains of the base has no `..`: walking it, and then up as many times as `countUp` says, leads back. -/
theorem up_again (b : List Str) (h : dotdot ∉ b) (c : List Str) :
    0 ≤ countUp b ∧ (List.replicate (countUp b).toNat dotdot).foldl walkStep (b.foldl walkStep c) = c := by
  induction b generalizing c with
  | nil => simp [countUp]
  | cons x b ih =>
    simp only [List.mem_cons, not_or] at h
    obtain ⟨h1, h2⟩ := ih h.2 (walkStep c x)
    rw [List.foldl_cons]
    unfold countUp
    rw [if_neg fun e => h.1 e.symm]
    split
    · rename_i hx
      have : walkStep c x = c := by
        unfold walkStep
        rw [if_neg fun e => h.1 e.symm, if_pos (by rcases hx with hx | hx <;> simp [hx])]
      rw [this] at h2 ⊢
      exact ⟨h1, h2⟩
    · rename_i hx
      refine ⟨by omega, ?_⟩
      have : (countUp b + 1).toNat = (countUp b).toNat + 1 := by omega
      rw [this, List.replicate_succ', List.foldl_append, h2]
      have : walkStep c x = x :: c := by
        unfold walkStep
        rw [if_neg fun e => h.1 e.symm, if_neg (by rintro (e | e) <;> simp [e] at hx)]
      rw [this]
      simp [walkStep]

theorem walk_filter (l : List Str) (c : List Str) : (l.filter (fun s => decide (s ≠ []))).foldl walkStep c = l.foldl walkStep c := by
  induction l generalizing c with
  | nil => rfl
  | cons x l ih =>
    rw [List.filter_cons]
    split
    · rw [List.foldl_cons, List.foldl_cons, ih]
    · rename_i h
      have : x = [] := by simpa using h
      subst this
      rw [List.foldl_cons, ih]
      simp [walkStep, dotdot]

/-- If no `..` of the base remains after the common part, then the relative path, interpreted in the base, leads to where the path
leads to. -/
theorem relativeTo_walk (p base : Path) (hn : [] ∉ p.names) (hroot : p.root = base.root)
    (h : dotdot ∉ (mismatch p.elems base.elems).2) :
    (p.relativeTo base).root = false ∧ (p.relativeTo base).names ≠ [] ∧ [] ∉ (p.relativeTo base).names ∧
    ∀ cwd, walk (walk cwd base) (p.relativeTo base) = walk cwd p := by
  obtain ⟨pre, hp, hb⟩ := mismatch_spec p.elems base.elems
  have key : ∀ cwd, walk cwd p = (mismatch p.elems base.elems).1.foldl walkStep
      ((List.replicate (countUp (mismatch p.elems base.elems).2).toNat dotdot).foldl walkStep (walk cwd base)) := by
    intro cwd
    unfold walk
    rw [← foldl_elems p, ← foldl_elems base, hroot]
    rw (occs := [1]) [hp]
    rw (occs := [2]) [hb]
    rw [List.foldl_append, List.foldl_append, (up_again _ h _).2]
  have h0 := (up_again _ h []).1
  have htail : ∀ l, (mismatch p.elems base.elems).1 = [] :: l → l = [] := by
    intro l hl
    rw [hl] at hp
    cases l with
    | nil => rfl
    | cons y l =>
      exfalso
      apply hn
      unfold Path.elems at hp
      cases ht : p.trailing with
      | false => simp only [ht, Bool.false_eq_true, if_false, List.append_nil] at hp; rw [hp]; simp
      | true =>
        simp only [ht, if_true] at hp
        have := congrArg List.dropLast hp
        rw [List.dropLast_concat] at this
        rw [this, List.dropLast_append_of_ne_nil (by simp)]
        simp
  have goal : ∀ r, p.relativeTo base = r → (r.root = false ∧ r.names ≠ [] ∧ [] ∉ r.names ∧ ∀ cwd, walk (walk cwd base) r = walk cwd p) →
      (p.relativeTo base).root = false ∧ (p.relativeTo base).names ≠ [] ∧ [] ∉ (p.relativeTo base).names ∧
      ∀ cwd, walk (walk cwd base) (p.relativeTo base) = walk cwd p := by
    intro r hr h
    rw [hr]; exact h
  refine goal _ rfl ?_
  unfold Path.relativeTo
  rw [if_neg (by simp [hroot])]
  dsimp only
  simp only [key]
  generalize mismatch p.elems base.elems = m at *
  obtain ⟨a, b⟩ := m
  simp only at *
  split
  · rename_i hab
    obtain ⟨rfl, rfl⟩ := hab
    simp [walk, walkStep, dot, dotdot, countUp]
  · split
    · rename_i hab
      obtain ⟨hc, ha⟩ := hab
      have ha : a = [] ∨ a = [[]] := by
        rcases ha with ha | ha
        · exact .inl ha
        · cases a with
          | nil => simp at ha
          | cons x l =>
            simp only [List.head?_cons, Option.some.injEq] at ha
            subst ha
            exact .inr (by rw [htail l rfl])
      rw [hc]
      rcases ha with rfl | rfl <;> simp [walk, walkStep, dot, dotdot]
    · rename_i hab
      refine ⟨rfl, ?_, ?_, ?_⟩
      · intro e
        simp only [List.append_eq_nil_iff, List.replicate_eq_nil_iff] at e
        obtain ⟨e1, e2⟩ := e
        have hc : countUp b = 0 := by omega
        apply hab
        refine ⟨hc, ?_⟩
        cases a with
        | nil => exact .inl rfl
        | cons x l =>
          right
          rw [List.filter_cons] at e2
          split at e2
          · simp at e2
          · rename_i hx
            simpa using hx
      · simp [dotdot]
      · intro cwd
        show ((List.replicate (countUp b).toNat dotdot ++ a.filter (fun s => decide (s ≠ []))).foldl walkStep _) = _
        rw [List.foldl_append, walk_filter]
        rfl

/-- The names that `lexically_relative` computes from the parts that do not match. -/
def relNames (m : List Str × List Str) : List Str :=
  if m.1 = [] ∧ m.2 = [] then [dot]
  else if countUp m.2 = 0 ∧ (m.1 = [] ∨ m.1.head? = some []) then [dot]
  else if countUp m.2 ≥ 0 then List.replicate (countUp m.2).toNat dotdot ++ m.1.filter (fun s => s ≠ []) else []

theorem relativeTo_names (p base : Path) :
    (p.relativeTo base).names = if p.root ≠ base.root then [] else relNames (mismatch p.elems base.elems) := by
  unfold Path.relativeTo relNames
  split
  · rfl
  · dsimp only
    split
    · rfl
    · split
      · rfl
      · split <;> rfl

theorem relNames_trailing (ns : List Str) (h : [] ∉ ns) (e : List Str) :
    relNames (mismatch (ns ++ [[]]) e) = relNames (mismatch ns e) := by
  induction ns generalizing e with
  | nil =>
    cases e with
    | nil => simp [mismatch, relNames, countUp]
    | cons y e =>
      by_cases hy : y = []
      · subst hy
        have hm : mismatch ([] ++ [[]]) ([] :: e) = ([], e) := by simp [mismatch]
        have hc : countUp ([] :: e) = countUp e := by simp [countUp, dotdot]
        rw [hm]
        simp only [mismatch, relNames, hc]
        cases e with
        | nil => simp [countUp]
        | cons z e => simp
      · have hm : mismatch ([] ++ [[]]) (y :: e) = ([[]], y :: e) := by simp [mismatch, Ne.symm hy]
        rw [hm]
        simp [mismatch, relNames]
  | cons x ns ih =>
    simp only [List.mem_cons, not_or] at h
    have hx : x ≠ [] := fun e => h.1 e.symm
    cases e with
    | nil => simp [mismatch, relNames, hx, countUp, List.filter_append]
    | cons y e =>
      by_cases hy : x = y
      · subst hy
        simp only [List.cons_append, mismatch, if_true]
        exact ih h.2 e
      · simp [mismatch, relNames, hx, hy, List.filter_append]

/-- A separator at the end does not matter for the names of the relative path. -/
theorem relativeTo_trailing (r : Bool) (ns : List Str) (t t' : Bool) (h : [] ∉ ns) (base : Path) :
    (Path.relativeTo ⟨r, ns, t⟩ base).names = (Path.relativeTo ⟨r, ns, t'⟩ base).names := by
  have : ∀ t, (Path.relativeTo ⟨r, ns, t⟩ base).names = (Path.relativeTo ⟨r, ns, false⟩ base).names := by
    intro t
    rw [relativeTo_names, relativeTo_names]
    cases t with
    | false => rfl
    | true =>
      simp only [Path.elems, if_true, Bool.false_eq_true, if_false, List.append_nil]
      rw [relNames_trailing ns h]
  rw [this t, this t']

end Maike.Paths
