import Verif.Fs.Path

/-!
# Regular expressions, as far as filters need them (C109)

The filters of the scan and the patterns for generated headers are objects of `std::regex` with the grammar `basic`
(core/source_tree_loader/input_filter.cpp:28-32, core/source_file_info_loaders/cxx/source_file_loader.hpp:24-30), and they are used with
`regex_search` (core/source_tree_loader/input_filter.cpp:39-44, core/source_file_info_loaders/cxx/source_file_loader.cpp:12-21). `compile`
follows the scanner and the compiler of libstdc++ (bits/regex_scanner.tcc, bits/regex_compiler.tcc); it is a part of the trusted base, since
it models the library and no code of the repository. Groups, intervals, brackets and references to groups are not modelled; the result is `other`
for an expression with any of these. A `Char` stands for a byte.
-/

namespace Maike.Tree.Regex

open Fs

/-! ## Model -/

/-- What matches one character. -/
inductive Atom where
  | any
  | chr (c : Char)
deriving DecidableEq, Repr

/-- `_AnyMatcher` for POSIX grammars, and `_CharMatcher`. -/
def Atom.ok : Atom → Char → Bool
  | .any, c => c != '\x00'
  | .chr d, c => c == d

inductive Item where
  /-- `^` -/
  | bol
  /-- `$` -/
  | eol
  | one (a : Atom)
  | star (a : Atom)
deriving DecidableEq, Repr

/-- The outcome of the constructor of `std::regex`. -/
inductive Compiled where
  | ok (items : List Item)
  /-- `std::regex_error` is thrown -/
  | bad
  /-- the model does not say -/
  | other
deriving DecidableEq, Repr

/-- `_M_basic_spec_char`. -/
def special (c : Char) : Bool := c ∈ ['.', '[', '\\', '*', '^', '$']

/-- `_Scanner::_M_scan_normal`, `_Scanner::_M_eat_escape_posix`, `_Compiler::_M_term` and `_Compiler::_M_quantifier`: what has been compiled is in
`acc`, latest item first. Nothing but the characters that are special can be preceded by a backslash. An asterisk needs an atom before
it; several of them mean the same as one. -/
def compileFrom : Str → List Item → Compiled
  | [], acc => .ok acc.reverse
  | '\\' :: s, acc =>
    match s with
    | [] => .bad
    | c :: s =>
      if c ∈ ['(', ')', '{'] then .other
      else if special c then compileFrom s (.one (.chr c) :: acc)
      else if '1' ≤ c ∧ c ≤ '9' then .other
      else .bad
  | '[' :: _, _ => .other
  | '.' :: s, acc => compileFrom s (.one .any :: acc)
  | '*' :: s, acc =>
    match acc with
    | .one a :: acc => compileFrom s (.star a :: acc)
    | .star a :: acc => compileFrom s (.star a :: acc)
    | _ => .bad
  | '^' :: s, acc => compileFrom s (.bol :: acc)
  | '$' :: s, acc => compileFrom s (.eol :: acc)
  | c :: s, acc => compileFrom s (.one (.chr c) :: acc)

/-- `std::regex{item, std::regex_constants::basic}`. -/
def compile (s : Str) : Compiled := compileFrom s []

/-- Any number of characters of some kind, and then something else. The first argument of `k` tells whether this is the beginning of the
text. -/
def starThen (ok : Char → Bool) (k : Bool → Str → Bool) : Bool → Str → Bool
  | first, [] => k first []
  | first, c :: s => k first (c :: s) || (ok c && starThen ok k false s)

/-- Whether some text that begins here is matched. -/
def here : List Item → Bool → Str → Bool
  | [], _, _ => true
  | .bol :: r, first, s => first && here r first s
  | .eol :: r, first, s => s.isEmpty && here r first s
  | .one a :: r, _, s =>
    match s with
    | [] => false
    | c :: s => a.ok c && here r false s
  | .star a :: r, first, s => starThen a.ok (here r) first s

/-- `regex_search(str, regex)`. -/
def search (items : List Item) (s : Str) : Bool := starThen (fun _ => true) (here items) true s

/-! ## Specification -/

/-- In the text that is composed of three parts, the items match the one in the middle. -/
inductive Matches : List Item → (before matched after : Str) → Prop
  | nil {b a} : Matches [] b [] a
  | bol {r m a} : Matches r [] m a → Matches (.bol :: r) [] m a
  | eol {r b} : Matches r b [] [] → Matches (.eol :: r) b [] []
  | one {x r b c m a} : x.ok c = true → Matches r (b ++ [c]) m a → Matches (.one x :: r) b (c :: m) a
  | starDone {x r b m a} : Matches r b m a → Matches (.star x :: r) b m a
  | starMore {x r b c m a} : x.ok c = true → Matches (.star x :: r) (b ++ [c]) m a → Matches (.star x :: r) b (c :: m) a

/-- The text, with a backslash before each character that is special. -/
def quote (t : Str) : Str := t.flatMap fun c => if special c then ['\\', c] else [c]

/-! ## Lemmas -/

theorem starThen_iff (ok : Char → Bool) (k : Bool → Str → Bool) (first : Bool) (s : Str) :
    starThen ok k first s = true ↔ ∃ b s', s = b ++ s' ∧ (∀ c ∈ b, ok c = true) ∧ k (first && b.isEmpty) s' = true := by
  induction s generalizing first with
  | nil =>
    constructor
    · intro h
      exact ⟨[], [], rfl, by simp, by simpa [starThen] using h⟩
    · rintro ⟨b, s', h, _, hk⟩
      obtain ⟨rfl, rfl⟩ := List.append_eq_nil_iff.mp h.symm
      simpa [starThen] using hk
  | cons c s ih =>
    rw [starThen, Bool.or_eq_true, Bool.and_eq_true, ih]
    constructor
    · rintro (h | ⟨hc, b, s', rfl, hb, hk⟩)
      · exact ⟨[], c :: s, rfl, by simp, by simpa using h⟩
      · refine ⟨c :: b, s', rfl, ?_, by simpa using hk⟩
        intro x hx
        rcases List.mem_cons.mp hx with rfl | hx
        · exact hc
        · exact hb x hx
    · rintro ⟨b, s', h, hb, hk⟩
      cases b with
      | nil =>
        simp only [List.nil_append] at h
        subst h
        exact .inl (by simpa using hk)
      | cons x b =>
        simp only [List.cons_append, List.cons.injEq] at h
        obtain ⟨rfl, rfl⟩ := h
        exact .inr ⟨hb _ (by simp), b, s', rfl, fun y hy => hb y (by simp [hy]), by simpa using hk⟩

theorem matches_star {x : Atom} {r : List Item} {b m a : Str} :
    Matches (.star x :: r) b m a ↔ ∃ m₁ m₂, m = m₁ ++ m₂ ∧ (∀ c ∈ m₁, x.ok c = true) ∧ Matches r (b ++ m₁) m₂ a := by
  constructor
  · intro h
    generalize hl : Item.star x :: r = l at h
    induction h with
    | nil => cases hl
    | bol => cases hl
    | eol => cases hl
    | one => cases hl
    | starDone h =>
      cases hl
      exact ⟨[], _, rfl, by simp, by simpa using h⟩
    | starMore hc _ ih =>
      cases hl
      obtain ⟨m₁, m₂, rfl, h1, h2⟩ := ih rfl
      refine ⟨_ :: m₁, m₂, rfl, ?_, by simpa using h2⟩
      intro y hy
      rcases List.mem_cons.mp hy with rfl | hy
      · exact hc
      · exact h1 y hy
  · rintro ⟨m₁, m₂, rfl, h1, h2⟩
    induction m₁ generalizing b with
    | nil => exact .starDone (by simpa using h2)
    | cons c m₁ ih =>
      exact .starMore (h1 c (by simp)) (ih (fun y hy => h1 y (by simp [hy])) (by simpa using h2))

theorem here_iff (items : List Item) (b s : Str) :
    here items b.isEmpty s = true ↔ ∃ m a, s = m ++ a ∧ Matches items b m a := by
  induction items generalizing b s with
  | nil =>
    simp only [here, true_iff]
    exact ⟨[], s, rfl, .nil⟩
  | cons x r ih =>
    cases x with
    | bol =>
      simp only [here, Bool.and_eq_true, ih]
      constructor
      · rintro ⟨hb, m, a, rfl, h⟩
        have := List.isEmpty_iff.mp hb
        subst this
        exact ⟨m, a, rfl, .bol h⟩
      · rintro ⟨m, a, rfl, h⟩
        cases h with
        | bol h => exact ⟨rfl, m, a, rfl, h⟩
    | eol =>
      simp only [here, Bool.and_eq_true, ih]
      constructor
      · rintro ⟨hs, m, a, rfl, h⟩
        obtain ⟨rfl, rfl⟩ := List.append_eq_nil_iff.mp (List.isEmpty_iff.mp hs)
        exact ⟨[], [], rfl, .eol h⟩
      · rintro ⟨m, a, rfl, h⟩
        cases h with
        | eol h => exact ⟨rfl, [], [], rfl, h⟩
    | one x =>
      cases s with
      | nil =>
        simp only [here, Bool.false_eq_true, false_iff]
        rintro ⟨m, a, h, hm⟩
        obtain ⟨rfl, rfl⟩ := List.append_eq_nil_iff.mp h.symm
        cases hm
      | cons c s =>
        have e : (b ++ [c]).isEmpty = false := by cases b <;> rfl
        have := ih (b ++ [c]) s
        rw [e] at this
        simp only [here, Bool.and_eq_true, this]
        constructor
        · rintro ⟨hc, m, a, rfl, h⟩
          exact ⟨c :: m, a, rfl, .one hc h⟩
        · rintro ⟨m, a, h, hm⟩
          cases hm with
          | one hc hm =>
            simp only [List.cons_append, List.cons.injEq] at h
            obtain ⟨rfl, rfl⟩ := h
            exact ⟨hc, _, a, rfl, hm⟩
    | star x =>
      simp only [here, starThen_iff, matches_star]
      constructor
      · rintro ⟨m₁, s', rfl, h1, hk⟩
        have e : (b.isEmpty && m₁.isEmpty) = (b ++ m₁).isEmpty := by cases b <;> simp
        rw [e, ih] at hk
        obtain ⟨m, a, rfl, h⟩ := hk
        exact ⟨m₁ ++ m, a, by simp, m₁, m, rfl, h1, h⟩
      · rintro ⟨m, a, rfl, m₁, m₂, rfl, h1, h⟩
        refine ⟨m₁, m₂ ++ a, by simp, h1, ?_⟩
        have e : (b.isEmpty && m₁.isEmpty) = (b ++ m₁).isEmpty := by cases b <;> simp
        rw [e, ih]
        exact ⟨m₂, a, rfl, h⟩

theorem search_iff (items : List Item) (s : Str) :
    search items s = true ↔ ∃ b m a, s = b ++ m ++ a ∧ Matches items b m a := by
  unfold search
  rw [starThen_iff]
  constructor
  · rintro ⟨b, s', rfl, _, hk⟩
    rw [Bool.true_and, here_iff] at hk
    obtain ⟨m, a, rfl, h⟩ := hk
    exact ⟨b, m, a, by simp, h⟩
  · rintro ⟨b, m, a, rfl, h⟩
    refine ⟨b, m ++ a, by simp, by simp, ?_⟩
    rw [Bool.true_and, here_iff]
    exact ⟨m, a, rfl, h⟩

/-- The items for a text that is quoted. -/
def literal (t : Str) : List Item := t.map fun c => .one (.chr c)

theorem compileFrom_ordinary (c : Char) (h : special c = false) (s : Str) (acc : List Item) :
    compileFrom (c :: s) acc = compileFrom s (.one (.chr c) :: acc) := by
  simp only [special, List.mem_cons, List.not_mem_nil, or_false, decide_eq_false_iff_not, not_or] at h
  obtain ⟨h1, h2, h3, h4, h5, h6⟩ := h
  rw [compileFrom] <;> simp_all

theorem compileFrom_escaped (c : Char) (h : special c = true) (s : Str) (acc : List Item) :
    compileFrom ('\\' :: c :: s) acc = compileFrom s (.one (.chr c) :: acc) := by
  have hp : c ∉ ['(', ')', '{'] := by
    simp only [special, List.mem_cons, List.not_mem_nil, or_false, decide_eq_true_eq] at h
    rcases h with rfl | rfl | rfl | rfl | rfl | rfl <;> decide
  rw [compileFrom]
  simp only [hp, if_false, h, if_true]

theorem compileFrom_quote (t s : Str) (acc : List Item) :
    compileFrom (quote t ++ s) acc = compileFrom s ((literal t).reverse ++ acc) := by
  induction t generalizing acc with
  | nil => rfl
  | cons c t ih =>
    have e : quote (c :: t) = (if special c then ['\\', c] else [c]) ++ quote t := rfl
    rw [e]
    cases hc : special c with
    | true =>
      simp only [if_true, List.cons_append, List.nil_append]
      rw [compileFrom_escaped c hc, ih]
      simp [literal]
    | false =>
      simp only [Bool.false_eq_true, if_false, List.cons_append, List.nil_append]
      rw [compileFrom_ordinary c hc, ih]
      simp [literal]

theorem compile_quote (t : Str) : compile (quote t) = .ok (literal t) := by
  have := compileFrom_quote t [] []
  simpa [compile, compileFrom] using this

theorem compile_prefix (t : Str) : compile ('^' :: quote t) = .ok (.bol :: literal t) := by
  have := compileFrom_quote t [] [.bol]
  simpa [compile, compileFrom] using this

theorem compile_suffix (t : Str) : compile (quote t ++ ['$']) = .ok (literal t ++ [.eol]) := by
  have := compileFrom_quote t ['$'] []
  simpa [compile, compileFrom] using this

theorem compile_whole (t : Str) : compile ('^' :: quote t ++ ['$']) = .ok (.bol :: literal t ++ [.eol]) := by
  have := compileFrom_quote t ['$'] [.bol]
  simpa [compile, compileFrom] using this

theorem matches_literal (t : Str) (r : List Item) (b m a : Str) :
    Matches (literal t ++ r) b m a ↔ ∃ m', m = t ++ m' ∧ Matches r (b ++ t) m' a := by
  induction t generalizing b m with
  | nil => simp [literal]
  | cons c t ih =>
    constructor
    · intro h
      cases h with
      | one hc h =>
        obtain ⟨m', e, h'⟩ := (ih _ _).mp h
        have := beq_iff_eq.mp hc
        subst this
        exact ⟨m', by rw [e]; rfl, by simpa using h'⟩
    · rintro ⟨m', rfl, h⟩
      exact .one (beq_self_eq_true c) ((ih _ _).mpr ⟨m', rfl, by simpa using h⟩)

/-! ## Properties -/

/-- **C109.** What a search finds: some part of the text that the regular expression matches. -/
theorem C109_search (items : List Item) (s : Str) :
    search items s = true ↔ ∃ b m a, s = b ++ m ++ a ∧ Matches items b m a := search_iff items s

/-- **C109.** A pattern without special characters leaves out the names that contain it; with `^` at the beginning, the ones that begin with it, with `$`
at the end, the ones that end with it, and with both, this name only. Special characters have to be quoted. -/
theorem C109_quoted (t : Str) :
    (∃ items, compile (quote t) = .ok items ∧ ∀ s, search items s = true ↔ t <:+: s) ∧
    (∃ items, compile ('^' :: quote t) = .ok items ∧ ∀ s, search items s = true ↔ t <+: s) ∧
    (∃ items, compile (quote t ++ ['$']) = .ok items ∧ ∀ s, search items s = true ↔ t <:+ s) ∧
    (∃ items, compile ('^' :: quote t ++ ['$']) = .ok items ∧ ∀ s, search items s = true ↔ s = t) := by
  refine ⟨⟨_, compile_quote t, fun s => ?_⟩, ⟨_, compile_prefix t, fun s => ?_⟩, ⟨_, compile_suffix t, fun s => ?_⟩,
    ⟨_, compile_whole t, fun s => ?_⟩⟩ <;> rw [search_iff]
  · constructor
    · rintro ⟨b, m, a, rfl, h⟩
      obtain ⟨m', rfl, h'⟩ := (matches_literal t [] b m a).mp (by simpa using h)
      cases h'
      exact ⟨b, a, by simp⟩
    · rintro ⟨b, a, rfl⟩
      exact ⟨b, t, a, rfl, by simpa using (matches_literal t [] b t a).mpr ⟨[], by simp, .nil⟩⟩
  · constructor
    · rintro ⟨b, m, a, rfl, h⟩
      cases h with
      | bol h =>
        obtain ⟨m', rfl, h'⟩ := (matches_literal t [] [] m a).mp (by simpa using h)
        cases h'
        exact ⟨a, by simp⟩
    · rintro ⟨a, rfl⟩
      exact ⟨[], t, a, rfl, .bol (by simpa using (matches_literal t [] [] t a).mpr ⟨[], by simp, .nil⟩)⟩
  · constructor
    · rintro ⟨b, m, a, rfl, h⟩
      obtain ⟨m', rfl, h'⟩ := (matches_literal t [.eol] b m a).mp h
      cases h'
      exact ⟨b, by simp⟩
    · rintro ⟨b, rfl⟩
      exact ⟨b, t, [], by simp, (matches_literal t [.eol] b t []).mpr ⟨[], by simp, .eol .nil⟩⟩
  · constructor
    · rintro ⟨b, m, a, rfl, h⟩
      cases h with
      | bol h =>
        obtain ⟨m', rfl, h'⟩ := (matches_literal t [.eol] [] m a).mp h
        cases h'
        simp
    · rintro rfl
      exact ⟨[], s, [], by simp, .bol ((matches_literal s [.eol] [] s []).mpr ⟨[], by simp, .eol .nil⟩)⟩

/-- **C109.** A text without special characters does not have to be quoted. -/
theorem C109_ordinary (t : Str) (h : ∀ c ∈ t, special c = false) : quote t = t := by
  induction t with
  | nil => rfl
  | cons c t ih =>
    have := ih fun x hx => h x (by simp [hx])
    simp only [quote, List.flatMap_cons, h c (by simp), Bool.false_eq_true, if_false, List.cons_append, List.nil_append, List.cons.injEq, true_and]
    exact this

/-- What the names of generated headers end with. -/
def genHpp : Str := ['.', 'g', 'e', 'n', '.', 'h', 'p', 'p']

/-- The items of the pattern for generated headers that is used by default. -/
theorem compile_generated : compile ".*\\.gen\\.hpp$".toList = .ok (.star .any :: literal genHpp ++ [.eol]) := by decide +kernel

/-- **C109.** The default pattern for generated headers matches the names that end with `.gen.hpp`. -/
theorem C109_generated : ∃ items, compile ".*\\.gen\\.hpp$".toList = .ok items ∧
    ∀ s, search items s = true ↔ genHpp <:+ s := by
  refine ⟨_, compile_generated, fun s => ?_⟩
  rw [search_iff]
  constructor
  · rintro ⟨b, m, a, rfl, h⟩
    obtain ⟨m₁, m₂, rfl, _, h'⟩ := matches_star.mp h
    obtain ⟨m', rfl, h''⟩ := (matches_literal _ [.eol] _ _ _).mp h'
    cases h''
    exact ⟨b ++ m₁, by simp⟩
  · rintro ⟨b, rfl⟩
    exact ⟨b, genHpp, [], by simp, .starDone ((matches_literal _ [.eol] _ _ _).mpr ⟨[], by simp, .eol .nil⟩)⟩

/-- **C109.** There is no regular expression that begins with an asterisk, also after `^`, or ends with a single backslash. -/
theorem C109_bad (s : Str) : compile ('*' :: s) = .bad ∧ compile ('^' :: '*' :: s) = .bad ∧
    ∀ t, (∀ c ∈ t, special c = false) → compile (t ++ ['\\']) = .bad := by
  refine ⟨rfl, rfl, fun t h => ?_⟩
  have := compileFrom_quote t ['\\'] []
  rw [C109_ordinary t h] at this
  exact this

/-! ## Examples -/

example : compile "^\\.".toList = .ok (.bol :: literal ['.']) := by decide +kernel
example : compile "^__".toList = .ok (.bol :: literal ['_', '_']) := by decide +kernel
example : search [.bol, .one (.chr 'a'), .star .any, .eol] "abc".toList = true := by decide +kernel
/-- A shell pattern is not a regular expression. -/
example : compile "*.tmp".toList = .bad := by decide +kernel
/-- In the middle, `^` and `$` are anchors too, so that nothing matches. -/
example : ∃ items, compile "a$b".toList = .ok items ∧ search items "a$b".toList = false := ⟨_, rfl, by decide +kernel⟩

end Maike.Tree.Regex
