/-!
# Printed commands

Model of core/exec/command.cpp. A string is a list of characters.
-/

namespace Maike.Text.Shell

/-- `Command`, core/exec/command.hpp:15-19. -/
structure Command where
  executable : List Char
  args : List (List Char)
deriving DecidableEq

/-- The body of the loop of `shell_escape`, core/exec/command.cpp:14-17. -/
def escapeChar (c : Char) : List Char := if c = '\\' ∨ c = '\'' then ['\\', c] else [c]

/-- `shell_escape`, core/exec/command.cpp:11-21. -/
def shellEscape (s : List Char) : List Char := '\'' :: (s.flatMap escapeChar ++ ['\''])

/-- `toString`, core/exec/command.cpp:24-33. -/
def print (c : Command) : List Char := shellEscape c.executable ++ c.args.flatMap fun a => ' ' :: shellEscape a

/-! ## Specification -/

/-- How a reader gets the words back: each word is in single quotes, where a backslash is followed by the character that is meant, and
words are separated by one blank. `cur` is the current word (reversed) if inside quotes. -/
def unprint : Option (List Char) → List Char → Option (List (List Char))
  | none, [] => some []
  | none, '\'' :: s => unprint (some []) s
  | none, ' ' :: '\'' :: s => unprint (some []) s
  | none, _ => none
  | some _, [] => none
  | some w, '\\' :: c :: s => unprint (some (c :: w)) s
  | some w, '\'' :: s => (unprint none s).map (w.reverse :: ·)
  | some w, c :: s => unprint (some (c :: w)) s

/-- Where the shell is while it splits a line. -/
inductive Quote where
  | blank -- between words
  | bare -- in a word, not quoted
  | single -- in single quotes
  | escaped -- after a backslash which is not quoted
deriving DecidableEq

/-- Characters which have a special meaning for the shell unless they are quoted. Lines with such characters outside of single quotes
are not covered by `split`. -/
def special : List Char := "\"$`;&|<>()*?[]#~={}!%\n".toList

/-- Splitting of a line as described in POSIX.1-2017, XCU 2.2 and 2.3: blanks separate words, single quotes preserve the literal value
of each character (there are no escapes within), and a backslash outside of quotes preserves the literal value of the next
character. `w` is the current word, reversed. `none` if a quote is not terminated, or a character is met that has another meaning. The latter
includes a line break after a backslash. -/
def split : Quote → List Char → List Char → Option (List (List Char))
  | .blank, _, [] => some []
  | .bare, w, [] => some [w.reverse]
  | .single, _, [] => none
  | .escaped, _, [] => none
  | .blank, _, c :: s =>
    if c = ' ' ∨ c = '\t' then split .blank [] s
    else if c = '\'' then split .single [] s
    else if c = '\\' then split .escaped [] s
    else if c ∈ special then none
    else split .bare [c] s
  | .bare, w, c :: s =>
    if c = ' ' ∨ c = '\t' then (split .blank [] s).map (w.reverse :: ·)
    else if c = '\'' then split .single w s
    else if c = '\\' then split .escaped w s
    else if c ∈ special then none
    else split .bare (c :: w) s
  | .single, w, c :: s => if c = '\'' then split .bare w s else split .single (c :: w) s
  | .escaped, w, c :: s => if c = '\n' then none else split .bare (c :: w) s

/-- The words of a line. -/
def words (s : List Char) : Option (List (List Char)) := split .blank [] s

/-! ## Lemmas -/

theorem unprint_escape (s w rest : List Char) :
    unprint (some w) (s.flatMap escapeChar ++ '\'' :: rest) = (unprint none rest).map ((w.reverse ++ s) :: ·) := by
  induction s generalizing w with
  | nil => simp [unprint]
  | cons c s ih =>
    simp only [List.flatMap_cons, escapeChar]
    split
    · simp only [List.cons_append, List.nil_append, unprint, ih]
      simp
    · rename_i h
      simp only [not_or] at h
      simp only [List.cons_append, List.nil_append]
      rw [unprint.eq_8 _ _ _ (by intro c' s' e; exact absurd e h.1) h.2, ih]
      simp

theorem unprint_args (args : List (List Char)) :
    unprint none (args.flatMap fun a => ' ' :: shellEscape a) = some args := by
  induction args with
  | nil => rfl
  | cons a args ih =>
    have : ((a :: args).flatMap fun a => ' ' :: shellEscape a) =
        ' ' :: '\'' :: (a.flatMap escapeChar ++ '\'' :: (args.flatMap fun a => ' ' :: shellEscape a)) := by
      simp [shellEscape]
    rw [this, unprint, unprint_escape, ih]
    simp

/-- What a shell makes of the inside of a word without single quotes. -/
theorem split_single (s w rest : List Char) (h : '\'' ∉ s) :
    split .single w (s ++ '\'' :: rest) = split .bare (s.reverse ++ w) rest := by
  induction s generalizing w with
  | nil => simp [split]
  | cons c s ih =>
    have hc : c ≠ '\'' := fun e => h (by simp [e])
    have hs : '\'' ∉ s := fun e => h (by simp [e])
    simp only [List.cons_append, split, hc, if_false]
    rw [ih _ hs]
    simp

theorem quote_not_mem_escape {s : List Char} (h : '\'' ∉ s) : '\'' ∉ s.flatMap escapeChar := by
  simp only [List.mem_flatMap, not_exists, not_and]
  intro c hc hm
  have : c ≠ '\'' := fun e => h (e ▸ hc)
  unfold escapeChar at hm
  split at hm
  · simp at hm; exact this hm.symm
  · simp at hm; exact this hm.symm

theorem split_args (args : List (List Char)) (w : List Char) (h : ∀ a ∈ args, '\'' ∉ a) :
    split .bare w (args.flatMap fun a => ' ' :: shellEscape a) = some (w.reverse :: args.map (·.flatMap escapeChar)) := by
  induction args generalizing w with
  | nil => simp [split]
  | cons a args ih =>
    have : ((a :: args).flatMap fun a => ' ' :: shellEscape a) =
        ' ' :: '\'' :: (a.flatMap escapeChar ++ '\'' :: (args.flatMap fun a => ' ' :: shellEscape a)) := by
      simp [shellEscape]
    rw [this, split, if_pos (by simp), split, if_neg (by decide), if_pos rfl,
      split_single _ _ _ (quote_not_mem_escape (h a (by simp))), ih _ fun a ha => h a (by simp [ha])]
    simp

theorem escape_plain {s : List Char} (h1 : '\'' ∉ s) (h2 : '\\' ∉ s) : s.flatMap escapeChar = s := by
  induction s with
  | nil => rfl
  | cons c s ih =>
    have c1 : c ≠ '\'' := fun e => h1 (by simp [e])
    have c2 : c ≠ '\\' := fun e => h2 (by simp [e])
    rw [List.flatMap_cons, ih (fun e => h1 (by simp [e])) (fun e => h2 (by simp [e]))]
    simp [escapeChar, c1, c2]

theorem words_print (c : Command) (h : ∀ a ∈ c.executable :: c.args, '\'' ∉ a) :
    words (print c) = some ((c.executable :: c.args).map (·.flatMap escapeChar)) := by
  have : print c = '\'' :: (c.executable.flatMap escapeChar ++ '\'' :: (c.args.flatMap fun a => ' ' :: shellEscape a)) := by
    simp [print, shellEscape]
  rw [words, this, split, if_neg (by decide), if_pos rfl, split_single _ _ _ (quote_not_mem_escape (h _ (by simp))),
    split_args _ _ fun a ha => h a (by simp [ha])]
  simp

/-- The number of single quotes in some words. -/
def quotes (ws : List (List Char)) : Nat := (ws.map (List.count '\'')).sum

theorem quotes_cons (w : List Char) (ws : List (List Char)) : quotes (w :: ws) = w.count '\'' + quotes ws := rfl

/-- `n` bounds the number of single quotes in what a shell makes of `s` when it is between words, in a word, or in single quotes. -/
def Bounds (s : List Char) (n : Nat) : Prop :=
  ∀ q w r, q ≠ .escaped → split q w s = some r → quotes r ≤ w.count '\'' + n

theorem Bounds.ordinary {s : List Char} {n : Nat} (h : Bounds s n) {c : Char} (h1 : c ≠ '\'') (h2 : c ≠ '\\') : Bounds (c :: s) n := by
  intro q w r hq hs
  have hc : ∀ w : List Char, (c :: w).count '\'' = w.count '\'' := fun w => by rw [List.count_cons_of_ne h1]
  cases q with
  | escaped => exact absurd rfl hq
  | single =>
    simp only [split, h1, if_false] at hs
    have := h .single _ _ (by simp) hs
    rw [hc] at this
    exact this
  | blank =>
    simp only [split, h1, h2, if_false] at hs
    split at hs
    · have := h .blank _ _ (by simp) hs
      simp only [List.count_nil] at this
      omega
    · split at hs
      · cases hs
      · have := h .bare _ _ (by simp) hs
        rw [hc] at this
        simp only [List.count_nil] at this
        omega
  | bare =>
    simp only [split, h1, h2, if_false] at hs
    split at hs
    · cases hb : split .blank [] s with
      | none => rw [hb] at hs; cases hs
      | some r' =>
        rw [hb] at hs
        cases hs
        have := h .blank _ _ (by simp) hb
        rw [quotes_cons, List.count_reverse]
        simp only [List.count_nil] at this
        omega
    · split at hs
      · cases hs
      · have := h .bare _ _ (by simp) hs
        rw [hc] at this
        exact this

theorem Bounds.delimiter {s : List Char} {n : Nat} (h : Bounds s n) : Bounds ('\'' :: s) n := by
  intro q w r hq hs
  cases q with
  | escaped => exact absurd rfl hq
  | single =>
    simp only [split, if_true] at hs
    exact h .bare _ _ (by simp) hs
  | blank =>
    rw [split, if_neg (by decide), if_pos rfl] at hs
    have := h .single _ _ (by simp) hs
    simp only [List.count_nil] at this
    omega
  | bare =>
    rw [split, if_neg (by decide), if_pos rfl] at hs
    exact h .single _ _ (by simp) hs

theorem Bounds.pair {s : List Char} {n : Nat} (h : Bounds s n) (c : Char) : Bounds ('\\' :: c :: s) (n + [c].count '\'') := by
  have hn : ∀ w : List Char, (c :: w).count '\'' = w.count '\'' + [c].count '\'' := by
    intro w
    rw [show c :: w = [c] ++ w from rfl, List.count_append]
    omega
  intro q w r hq hs
  cases q with
  | escaped => exact absurd rfl hq
  | single =>
    rw [split, if_neg (by decide), split] at hs
    have hb : ('\\' :: w).count '\'' = w.count '\'' := by rw [List.count_cons_of_ne (by decide)]
    split at hs
    · have := h .bare _ _ (by simp) hs
      omega
    · have := h .single _ _ (by simp) hs
      rw [hn, hb] at this
      omega
  | blank =>
    rw [split, if_neg (by decide), if_neg (by decide), if_pos rfl, split] at hs
    split at hs
    · cases hs
    have := h .bare _ _ (by simp) hs
    rw [hn] at this
    simp only [List.count_nil] at this
    omega
  | bare =>
    rw [split, if_neg (by decide), if_neg (by decide), if_pos rfl, split] at hs
    split at hs
    · cases hs
    have := h .bare _ _ (by simp) hs
    rw [hn] at this
    omega

theorem Bounds.inside {s : List Char} {n : Nat} (h : Bounds s n) (a : List Char) : Bounds (a.flatMap escapeChar ++ s) (n + a.count '\'') := by
  induction a with
  | nil => simpa using h
  | cons c a ih =>
    rw [List.flatMap_cons]
    by_cases hc : c = '\\' ∨ c = '\''
    · rw [escapeChar, if_pos hc]
      have := ih.pair c
      rw [show (c :: a).count '\'' = a.count '\'' + [c].count '\'' by rw [show c :: a = [c] ++ a from rfl, List.count_append]; omega, ← Nat.add_assoc]
      exact this
    · rw [escapeChar, if_neg hc]
      simp only [not_or] at hc
      rw [List.count_cons_of_ne hc.2]
      exact ih.ordinary hc.2 hc.1

theorem bounds_args (args : List (List Char)) : Bounds (args.flatMap fun a => ' ' :: shellEscape a) (quotes args) := by
  induction args with
  | nil =>
    intro q w r hq hs
    cases q with
    | escaped => exact absurd rfl hq
    | single => cases hs
    | blank => cases hs; exact Nat.zero_le _
    | bare =>
      cases hs
      rw [quotes_cons, List.count_reverse]
      exact Nat.le_refl _
  | cons a args ih =>
    have : ((a :: args).flatMap fun a => ' ' :: shellEscape a) =
        ' ' :: '\'' :: (a.flatMap escapeChar ++ '\'' :: (args.flatMap fun a => ' ' :: shellEscape a)) := by
      simp [shellEscape]
    rw [this, quotes_cons, Nat.add_comm]
    exact (ih.delimiter.inside a).delimiter.ordinary (by decide) (by decide)

/-- The first single quote of a word is not taken literally. -/
theorem first_quote {s : List Char} {n : Nat} (h : Bounds s n) (a w : List Char) (ha : '\'' ∈ a) {r : List (List Char)}
    (hs : split .single w (a.flatMap escapeChar ++ s) = some r) : quotes r < w.count '\'' + n + a.count '\'' := by
  induction a generalizing w with
  | nil => cases ha
  | cons c a ih =>
    rw [List.flatMap_cons] at hs
    by_cases h1 : c = '\''
    · subst h1
      rw [escapeChar, if_pos (.inr rfl)] at hs
      simp only [List.cons_append, List.nil_append] at hs
      rw [split, if_neg (by decide), split, if_pos rfl] at hs
      have := h.inside a .bare _ _ (by simp) hs
      rw [List.count_cons_of_ne (by decide)] at this
      rw [List.count_cons_self]
      omega
    · have hm : '\'' ∈ a := by
        rcases List.mem_cons.mp ha with e | e
        · exact absurd e.symm h1
        · exact e
      rw [List.count_cons_of_ne h1]
      by_cases h2 : c = '\\'
      · subst h2
        rw [escapeChar, if_pos (.inl rfl)] at hs
        simp only [List.cons_append, List.nil_append] at hs
        rw [split, if_neg (by decide), split, if_neg (by decide)] at hs
        have := ih _ hm hs
        rw [List.count_cons_of_ne (by decide), List.count_cons_of_ne (by decide)] at this
        exact this
      · rw [escapeChar, if_neg (by simp [h1, h2])] at hs
        simp only [List.cons_append, List.nil_append] at hs
        rw [split, if_neg h1] at hs
        have := ih _ hm hs
        rw [List.count_cons_of_ne h1] at this
        exact this

theorem some_quote (a : List Char) (args : List (List Char)) (h : ∃ x ∈ a :: args, '\'' ∈ x) {r : List (List Char)}
    (hs : split .single [] (a.flatMap escapeChar ++ '\'' :: (args.flatMap fun a => ' ' :: shellEscape a)) = some r) : quotes r < quotes (a :: args) := by
  induction args generalizing a r with
  | nil =>
    obtain ⟨x, hx, hq⟩ := h
    simp at hx; subst hx
    have := first_quote (bounds_args []).delimiter x [] hq hs
    rw [quotes_cons]
    simp only [List.count_nil] at this
    omega
  | cons b args ih =>
    by_cases ha : '\'' ∈ a
    · have := first_quote (bounds_args (b :: args)).delimiter a [] ha hs
      rw [quotes_cons]
      simp only [List.count_nil] at this
      omega
    · have hr : ∃ x ∈ b :: args, '\'' ∈ x := by
        obtain ⟨x, hx, hq⟩ := h
        rcases List.mem_cons.mp hx with rfl | hx
        · exact absurd hq ha
        · exact ⟨x, hx, hq⟩
      have : ((b :: args).flatMap fun a => ' ' :: shellEscape a) =
          ' ' :: '\'' :: (b.flatMap escapeChar ++ '\'' :: (args.flatMap fun a => ' ' :: shellEscape a)) := by
        simp [shellEscape]
      rw [split_single _ _ _ (quote_not_mem_escape ha), this, split, if_pos (by simp), split, if_neg (by decide), if_pos rfl] at hs
      cases hb : split .single [] (b.flatMap escapeChar ++ '\'' :: (args.flatMap fun a => ' ' :: shellEscape a)) with
      | none => rw [hb] at hs; cases hs
      | some r' =>
        rw [hb] at hs
        cases hs
        have := ih b hr hb
        have h0 : ((a.flatMap escapeChar).reverse ++ []).reverse.count '\'' = 0 := by
          simp only [List.append_nil, List.reverse_reverse]
          exact List.count_eq_zero.mpr (quote_not_mem_escape ha)
        rw [quotes_cons, quotes_cons (w := a), h0]
        omega

theorem double_ne (a : List Char) (h : '\\' ∈ a) : a.length < (a.flatMap fun ch => if ch = '\\' then ['\\', '\\'] else [ch]).length := by
  have le : ∀ a : List Char, a.length ≤ (a.flatMap fun ch => if ch = '\\' then ['\\', '\\'] else [ch]).length := by
    intro a
    induction a with
    | nil => simp
    | cons c a ih => rw [List.flatMap_cons, List.length_append, List.length_cons]; split <;> simp only [List.length_cons, List.length_nil] <;> omega
  induction a with
  | nil => cases h
  | cons c a ih =>
    rw [List.flatMap_cons, List.length_append, List.length_cons]
    by_cases hc : c = '\\'
    · have := le a
      rw [if_pos hc]
      simp only [List.length_cons, List.length_nil]; omega
    · have := ih (by rcases List.mem_cons.mp h with e | e; exact absurd e.symm hc; exact e)
      rw [if_neg hc]
      simp only [List.length_cons, List.length_nil]; omega

/-! ## Theorems -/

/-- **C35.** The command can be recovered from the printed string. -/
theorem C35_recover (c : Command) : unprint none (print c) = some (c.executable :: c.args) := by
  have : print c = '\'' :: (c.executable.flatMap escapeChar ++ '\'' :: (c.args.flatMap fun a => ' ' :: shellEscape a)) := by
    simp [print, shellEscape]
  rw [this, unprint, unprint_escape, unprint_args]
  simp

/-- **C35.** Different commands are printed differently. -/
theorem C35_injective (a b : Command) (h : print a = print b) : a = b := by
  have h1 := C35_recover a
  rw [h, C35_recover b] at h1
  obtain ⟨_, _⟩ := a
  obtain ⟨_, _⟩ := b
  simp at h1
  simp [h1]

/-- **C36** (part). If no word has a single quote or a backslash, then a shell splits the printed command into its words. -/
theorem C36_paste_partial (c : Command) (h : ∀ a ∈ c.executable :: c.args, '\'' ∉ a ∧ '\\' ∉ a) :
    words (print c) = some (c.executable :: c.args) := by
  rw [words_print c fun a ha => (h a ha).1]
  congr 1
  conv => rhs; rw [← List.map_id (c.executable :: c.args)]
  apply List.map_congr_left
  intro a ha
  exact escape_plain (h a ha).1 (h a ha).2

/-- Without single quotes, exactly the backslashes are wrong: each of them is doubled. -/
theorem C36_backslash (c : Command) (h : ∀ a ∈ c.executable :: c.args, '\'' ∉ a) :
    words (print c) = some ((c.executable :: c.args).map fun a => a.flatMap fun ch => if ch = '\\' then ['\\', '\\'] else [ch]) := by
  rw [words_print c h]
  congr 1
  apply List.map_congr_left
  intro a ha
  have := h a ha
  clear ha
  induction a with
  | nil => rfl
  | cons ch a ih =>
    have hch : ch ≠ '\'' := fun e => this (by simp [e])
    rw [List.flatMap_cons, List.flatMap_cons, ih fun e => this (by simp [e])]
    congr 1
    simp only [escapeChar, hch, or_false]
    split
    · rename_i e; rw [e]
    · rfl

/-- **C36** (exactly). A shell splits the printed command into its words if and only if no word has a single quote or a backslash. -/
theorem C36_exact (c : Command) : words (print c) = some (c.executable :: c.args) ↔ ∀ a ∈ c.executable :: c.args, '\'' ∉ a ∧ '\\' ∉ a := by
  constructor
  · intro h
    have hq : ∀ a ∈ c.executable :: c.args, '\'' ∉ a := by
      intro a ha hm
      have e : print c = '\'' :: (c.executable.flatMap escapeChar ++ '\'' :: (c.args.flatMap fun a => ' ' :: shellEscape a)) := by
        simp [print, shellEscape]
      rw [words, e, split, if_neg (by decide), if_pos rfl] at h
      exact Nat.lt_irrefl _ (some_quote _ _ ⟨a, ha, hm⟩ h)
    intro a ha
    refine ⟨hq a ha, fun hb => ?_⟩
    rw [C36_backslash c hq, Option.some.injEq] at h
    obtain ⟨i, hi⟩ := List.getElem?_of_mem ha
    have := congrArg (·[i]?) h
    simp only [List.getElem?_map, hi, Option.map_some, Option.some.injEq] at this
    have h2 := double_ne a hb
    rw [this] at h2
    exact Nat.lt_irrefl _ h2
  · exact C36_paste_partial c

/-- **C36** does not hold for words with a single quote or a backslash: such a command cannot be pasted, or has another meaning. -/
theorem C36_false :
    words (print ⟨"ls".toList, ["it's".toList]⟩) = none ∧
    words (print ⟨"echo".toList, ["a\\b".toList]⟩) = some ["echo".toList, "a\\\\b".toList] ∧
    -- the shell would execute `rm x` here
    words (print ⟨"echo".toList, ["'; rm x; '".toList]⟩) = none ∧
    "'echo' '\\'; rm x; \\''".toList = print ⟨"echo".toList, ["'; rm x; '".toList]⟩ := by
  decide +kernel

section Examples

example : print ⟨"ls".toList, ["-l".toList, "my file".toList]⟩ = "'ls' '-l' 'my file'".toList := by decide +kernel

example : words "ls  -l 'my file'\\ x".toList = some ["ls".toList, "-l".toList, "my file x".toList] := by decide +kernel

example : words "ls -l; rm x".toList = none := by decide +kernel

example : ∀ a ∈ ["-l".toList, "my $file; \"x\"".toList], '\'' ∉ a ∧ '\\' ∉ a := by decide +kernel

end Examples

end Maike.Text.Shell
