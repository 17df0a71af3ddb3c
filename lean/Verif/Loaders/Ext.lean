import Verif.Loaders.Spec

/-!
# Properties of the tag filter for scripts
-/

namespace Maike.Loaders

theorem blank_newline : blank '\n' = true := by decide

/-- Every text consists of lines without newlines. -/
theorem exists_lines (input : List Char) :
    ∃ ls, ls ≠ [] ∧ (∀ l ∈ ls, '\n' ∉ l) ∧ unlines ls = input := by
  induction input with
  | nil => exact ⟨[[]], by simp, by simp, rfl⟩
  | cons c cs ih =>
    obtain ⟨ls, hne, hnl, rfl⟩ := ih
    cases ls with
    | nil => exact absurd rfl hne
    | cons l ls =>
      by_cases hc : c = '\n'
      · subst hc
        exact ⟨[] :: l :: ls, by simp, by simpa using hnl, rfl⟩
      · refine ⟨(c :: l) :: ls, by simp, ?_, ?_⟩
        · intro x hx
          rcases List.mem_cons.mp hx with rfl | hx
          · simp only [List.mem_cons, not_or]
            exact ⟨fun h => hc h.symm, hnl l (by simp)⟩
          · exact hnl x (List.mem_cons_of_mem _ hx)
        · cases ls <;> rfl

namespace Ext

theorem loop_source (s : St) (input : List Char) : (loop s input).1 = input := by
  induction input generalizing s with
  | nil => rfl
  | cons c cs ih => simp [loop, ih]

/-- What is left over of a line when the automaton is in the given state. -/
def lineFrom : St → List Char → List Char
  | .newline, l => tagLine l
  | .tagSymbol, l => match l with
    | '@' :: text => ' ' :: text
    | _ => []
  | .tag, l => l
  | .skipLine, _ => []

theorem tagLine_cons_blank {c : Char} (h : blank c = true) (hh : c ≠ '#') (l : List Char) :
    tagLine (c :: l) = c :: tagLine l := by
  unfold tagLine
  simp only [List.takeWhile_cons, List.dropWhile_cons, h, if_true]
  split <;> simp_all

theorem tagLine_cons_other {c : Char} (h : blank c = false) (hh : c ≠ '#') (l : List Char) :
    tagLine (c :: l) = [] := by
  unfold tagLine
  simp only [List.takeWhile_cons, List.dropWhile_cons, h]
  split
  · rename_i heq
    simp at heq
    exact absurd heq.1 hh
  · rename_i heq
    simp at heq
    exact absurd heq.1 hh
  · rfl

theorem tagLine_cons_hash (l : List Char) : tagLine ('#' :: l) = ' ' :: lineFrom .tagSymbol l := by
  unfold tagLine lineFrom
  have : blank '#' = false := by decide
  simp only [List.takeWhile_cons, List.dropWhile_cons, this]
  cases l with
  | nil => rfl
  | cons d l =>
    by_cases hd : d = '@'
    · subst hd; rfl
    · simp only [Bool.false_eq_true, ↓reduceIte]
      split
      · rename_i heq; simp at heq; exact absurd heq.1 hd
      · split
        · rename_i heq _ heq'; simp at heq'; exact absurd heq'.1 hd
        · rfl
      · rename_i h; exact absurd rfl (h (d :: l))

/-- One line, without its newline. -/
theorem loop_line (s : St) (l rest : List Char) (h : '\n' ∉ l) :
    ∃ s', (loop s (l ++ rest)).2 = lineFrom s l ++ (loop s' rest).2 ∧
      (loop s' ('\n' :: rest.drop 1)).2 = '\n' :: (loop .newline (rest.drop 1)).2 := by
  induction l generalizing s with
  | nil =>
    refine ⟨s, ?_, ?_⟩
    · cases s <;> simp [lineFrom, tagLine]
    · cases s <;> simp [loop, step, blank_newline]
  | cons c l ih =>
    simp only [List.mem_cons, not_or] at h
    obtain ⟨hc, hl⟩ := h
    have hc' : c ≠ '\n' := fun e => hc e.symm
    obtain ⟨s', h1, h2⟩ := ih (step s c).1 hl
    refine ⟨s', ?_, h2⟩
    simp only [List.cons_append, loop]
    rw [h1, ← List.append_assoc]
    congr 1
    cases s with
    | newline =>
      simp only [step]
      split
      · rename_i he; subst he
        simp [lineFrom, tagLine_cons_hash]
      · rename_i he
        by_cases hb : blank c = true
        · simp [hb, lineFrom, tagLine_cons_blank hb he]
        · simp only [Bool.not_eq_true] at hb
          simp [hb, lineFrom, tagLine_cons_other hb he]
    | tagSymbol =>
      simp only [step]
      split
      · rename_i he; subst he; rfl
      · rename_i he
        simp only [hc', ↓reduceIte, lineFrom, List.append_nil]
        split
        · rename_i heq; simp at heq; exact absurd heq.1 he
        · rfl
    | tag => simp [step, hc', lineFrom]
    | skipLine => simp [step, hc', lineFrom]

theorem loop_lines (ls : List (List Char)) (h : ∀ l ∈ ls, '\n' ∉ l) :
    (loop .newline (unlines ls)).2 = unlines (ls.map tagLine) := by
  induction ls with
  | nil => rfl
  | cons l ls ih =>
    cases ls with
    | nil =>
      obtain ⟨s', h1, _⟩ := loop_line .newline l [] (h l (by simp))
      simpa [unlines, loop, lineFrom] using h1
    | cons l' ls =>
      obtain ⟨s', h1, h2⟩ := loop_line .newline l ('\n' :: unlines (l' :: ls)) (h l (by simp))
      have := ih (fun x hx => h x (List.mem_cons_of_mem _ hx))
      have e : ∀ (a b : List Char) l, unlines (a :: b :: l) = a ++ '\n' :: unlines (b :: l) := fun _ _ _ => rfl
      rw [List.map_cons, List.map_cons, e, e, h1]
      change (loop s' ('\n' :: unlines (l' :: ls))).2 = '\n' :: (loop .newline (unlines (l' :: ls))).2 at h2
      rw [h2, this]
      rfl

theorem newlines_unlines (ls ls' : List (List Char)) (hlen : ls.length = ls'.length) (h : ∀ l ∈ ls, '\n' ∉ l)
    (h' : ∀ l ∈ ls', '\n' ∉ l) : newlines (unlines ls) = newlines (unlines ls') := by
  induction ls generalizing ls' with
  | nil => cases ls' with
    | nil => rfl
    | cons => simp at hlen
  | cons l ls ih =>
    cases ls' with
    | nil => simp at hlen
    | cons l' ls' =>
      have h1 : l.count '\n' = 0 := List.count_eq_zero.mpr (h l (by simp))
      have h2 : l'.count '\n' = 0 := List.count_eq_zero.mpr (h' l' (by simp))
      have := ih ls' (by simpa using hlen) (fun x hx => h x (List.mem_cons_of_mem _ hx))
        (fun x hx => h' x (List.mem_cons_of_mem _ hx))
      cases ls <;> cases ls'
      · simp [unlines, newlines, h1, h2]
      · simp at hlen
      · simp at hlen
      · simp only [unlines, newlines, List.count_append, List.count_cons, h1, h2] at this ⊢
        omega

theorem tagLine_noNewline {l : List Char} (h : '\n' ∉ l) : '\n' ∉ tagLine l := by
  have h1 : '\n' ∉ l.takeWhile blank := fun hx => h ((List.takeWhile_sublist _).subset hx)
  have h2 : ∀ x ∈ l.dropWhile blank, x ∈ l := fun x hx => (List.dropWhile_sublist _).subset hx
  unfold tagLine
  simp only
  split
  · rename_i text heq
    rw [heq] at h2
    simp only [List.mem_append, List.mem_cons, not_or]
    refine ⟨h1, by decide, by decide, fun hx => h (h2 _ ?_)⟩
    simp [hx]
  · simp only [List.mem_append, List.mem_singleton, not_or]
    exact ⟨h1, by decide⟩
  · exact h1

/-! ## Theorems -/

/-- **C39** (source). The source stream is a copy of the input. -/
theorem C39_source (input : List Char) : (filterInput input).1 = input := loop_source _ _

/-- **C39** (lines). The tag stream has the same lines as the input, but with everything blanked that is not a tag
(see `tagLine`). By `exists_lines` each input consists of such lines. -/
theorem C39_lines (ls : List (List Char)) (h : ∀ l ∈ ls, '\n' ∉ l) :
    (filterInput (unlines ls)).2 = unlines (ls.map tagLine) := loop_lines ls h

/-- **C39** (line numbers). -/
theorem C39_newlines (input : List Char) : newlines (filterInput input).2 = newlines input := by
  obtain ⟨ls, _, hnl, rfl⟩ := exists_lines input
  rw [C39_lines ls hnl]
  refine newlines_unlines _ _ (by simp) ?_ hnl
  intro l hl
  obtain ⟨l', hl', rfl⟩ := List.mem_map.mp hl
  exact tagLine_noNewline (hnl l' hl')

/-- **C39** (tags). The text after `#@` is kept, in the same columns. -/
theorem C39_tag {indent text : List Char} (h : ∀ c ∈ indent, blank c = true) :
    tagLine (indent ++ '#' :: '@' :: text) = indent ++ ' ' :: ' ' :: text := by
  have hb : blank '#' = false := by decide
  unfold tagLine
  simp [List.takeWhile_append_of_pos h, List.dropWhile_append_of_pos h, hb]

/-- **C39** (other lines). Nothing remains of other lines but blanks. -/
theorem C39_blank {l : List Char} (h : ¬ ['#', '@'] <+: trimmed l) : ∀ c ∈ tagLine l, blank c = true := by
  have h1 : ∀ c ∈ l.takeWhile blank, blank c = true := by
    have := List.all_takeWhile (l := l) (p := blank)
    exact List.all_eq_true.mp this
  unfold trimmed at h
  unfold tagLine
  simp only
  split
  · rename_i text heq
    exact absurd ⟨text, by rw [heq]; rfl⟩ h
  · intro c hc
    simp only [List.mem_append, List.mem_singleton] at hc
    rcases hc with hc | rfl
    · exact h1 c hc
    · decide
  · exact h1

example : String.ofList (filterInput "echo #@ no\n  #@ {\"a\":1}\n#@ }\n# x\n".toList).2 =
    "\n     {\"a\":1}\n   }\n \n" := by decide

end Ext

end Maike.Loaders
