import Verif.Kvs.Lemmas
import Verif.Text.Numbers

/-!
# Values as text (C98)

`store`, core/key_value_store/json_handle.hpp:296-310, passes a value to jansson's `json_dump_callback` with the flags `JSON_SORT_KEYS`, `JSON_ENCODE_ANY` and,
if the text is meant for humans, `JSON_INDENT(4)`. The result is the second argument of recipes (core/db/source_file_record.cpp:66-73, core/db/compiler.cpp:59-62
and 93-96), and what `--configdump` writes (core/bin/maike.cpp:247-253). Here, what jansson writes with these flags is modelled. Texts are sequences of
characters; it is not modelled how these are encoded as UTF-8. How floating point numbers are written is a parameter.

The specification is the grammar of RFC 8259, as a relation between texts and values.
-/

namespace Maike.Kvs.JsonText

/-! ## Model -/

/-- How floating point numbers are written (`jsonp_dtostr`) and read (`jsonp_strtod`). -/
structure Reals where
  print : Nat → List Char
  read : List Char → Nat

/-- A hexadecimal digit, as written by `%X`. -/
def hexDigit (n : Nat) : Char :=
  if n < 10 then Char.ofNat (48 + n) else Char.ofNat (55 + n)

/-- `%04X` for numbers less than 65536. -/
def hex4 (n : Nat) : List Char := [hexDigit (n / 4096 % 16), hexDigit (n / 256 % 16), hexDigit (n / 16 % 16), hexDigit (n % 16)]

/-- The body of the loop in jansson's `dump_string`. -/
def escape (c : Char) : List Char :=
  if c = '\\' then ['\\', '\\']
  else if c = '"' then ['\\', '"']
  else if c.toNat < 32 then
    if c.toNat = 8 then ['\\', 'b']
    else if c.toNat = 12 then ['\\', 'f']
    else if c.toNat = 10 then ['\\', 'n']
    else if c.toNat = 13 then ['\\', 'r']
    else if c.toNat = 9 then ['\\', 't']
    else '\\' :: 'u' :: hex4 c.toNat
  else [c]

/-- jansson's `dump_string`. -/
def dumpString (s : String) : List Char := '"' :: (s.toList.flatMap escape ++ ['"'])

/-- `%lld`. -/
def dumpInt (i : Int) : List Char := if i < 0 then '-' :: Nat.toDigits 10 (-i).toNat else Nat.toDigits 10 i.toNat

/-- jansson's `dump_indent`, with `JSON_INDENT(4)` iff `pretty`. -/
def indent (pretty : Bool) (depth : Nat) (space : Bool) : List Char :=
  if pretty then '\n' :: List.replicate (4 * depth) ' ' else if space then [' '] else []

mutual

/-- jansson's `do_dump`. The members of objects are written in the order of the list, see `sortKeys`. -/
def dumpValue (f : Reals) (pretty : Bool) (depth : Nat) : Json → List Char
  | .null => "null".toList
  | .bool true => "true".toList
  | .bool false => "false".toList
  | .int i => dumpInt i
  | .real b => f.print b
  | .str s => dumpString s
  | .arr vs => if vs.isEmpty then ['[', ']'] else '[' :: (dumpElems f pretty (depth + 1) true vs ++ indent pretty depth false ++ [']'])
  | .obj ms => if ms.isEmpty then ['{', '}'] else '{' :: (dumpMembers f pretty (depth + 1) true ms ++ indent pretty depth false ++ ['}'])

/-- The loop over the elements of an array. A comma is written after each element but the last one; here, this is done before each element but the first one. -/
def dumpElems (f : Reals) (pretty : Bool) (depth : Nat) (first : Bool) : List Json → List Char
  | [] => []
  | v :: vs => (if first then [] else [',']) ++ indent pretty depth (!first) ++ dumpValue f pretty depth v ++ dumpElems f pretty depth false vs

/-- One member. -/
def dumpMember (f : Reals) (pretty : Bool) (depth : Nat) : String × Json → List Char
  | (k, v) => dumpString k ++ [':', ' '] ++ dumpValue f pretty depth v

/-- The loop over the members of an object. -/
def dumpMembers (f : Reals) (pretty : Bool) (depth : Nat) (first : Bool) : List (String × Json) → List Char
  | [] => []
  | m :: ms => (if first then [] else [',']) ++ indent pretty depth (!first) ++ dumpMember f pretty depth m ++ dumpMembers f pretty depth false ms

end

/-- Insertion of a member before the first one with a greater key. -/
def insertKey (m : String × Json) : List (String × Json) → List (String × Json)
  | [] => [m]
  | n :: ms => if m.1 ≤ n.1 then m :: n :: ms else n :: insertKey m ms

/-- Sorting of members by keys (`qsort`). -/
def byKey : List (String × Json) → List (String × Json)
  | [] => []
  | m :: ms => insertKey m (byKey ms)

mutual

/-- `JSON_SORT_KEYS`: at each object, the keys are sorted by `compare_keys` before the members are written. As UTF-8 preserves the order of characters,
this is the order of strings. -/
def sortKeys : Json → Json
  | .arr vs => .arr (sortElems vs)
  | .obj ms => .obj (byKey (sortMembers ms))
  | .null => .null
  | .bool b => .bool b
  | .int i => .int i
  | .real b => .real b
  | .str s => .str s

/-- As `sortKeys`, for each element. -/
def sortElems : List Json → List Json
  | [] => []
  | v :: vs => sortKeys v :: sortElems vs

/-- As `sortKeys`, for a member. -/
def sortMember : String × Json → String × Json
  | (k, v) => (k, sortKeys v)

/-- As `sortKeys`, for the value of each member. -/
def sortMembers : List (String × Json) → List (String × Json)
  | [] => []
  | m :: ms => sortMember m :: sortMembers ms

end

/-- `store`, core/key_value_store/json_handle.hpp:296-310: what is passed to `write`, one after another. -/
def store (f : Reals) (pretty : Bool) (v : Json) : List Char := dumpValue f pretty 0 (sortKeys v)

/-! ## Specification: RFC 8259 -/

/-- `ws` -/
def Blank (w : List Char) : Prop := ∀ c ∈ w, c = ' ' ∨ c = '\t' ∨ c = '\n' ∨ c = '\r'

/-- `HEXDIG` -/
def hexValue (c : Char) : Option Nat :=
  if '0' ≤ c ∧ c ≤ '9' then some (c.toNat - 48)
  else if 'A' ≤ c ∧ c ≤ 'F' then some (c.toNat - 55)
  else if 'a' ≤ c ∧ c ≤ 'f' then some (c.toNat - 87)
  else none

/-- Four hexadecimal digits and their value. -/
def Hex (x : List Char) (n : Nat) : Prop :=
  ∃ a b c d a' b' c' d', x = [a, b, c, d] ∧ hexValue a = some a' ∧ hexValue b = some b' ∧ hexValue c = some c' ∧ hexValue d = some d' ∧
    n = 4096 * a' + 256 * b' + 16 * c' + d'

/-- What a character after a backslash stands for. -/
def simpleEscape : List (Char × Char) :=
  [('"', '"'), ('\\', '\\'), ('/', '/'), ('b', Char.ofNat 8), ('f', Char.ofNat 12), ('n', '\n'), ('r', '\r'), ('t', '\t')]

/-- `*char`: what is between quotation marks, and the characters that it stands for. -/
inductive Body : List Char → List Char → Prop where
  | nil : Body [] []
  | unescaped {c : Char} {x s : List Char} (h1 : 32 ≤ c.toNat) (h2 : c ≠ '"') (h3 : c ≠ '\\') (h : Body x s) : Body (c :: x) (c :: s)
  | simple {e c : Char} {x s : List Char} (he : (e, c) ∈ simpleEscape) (h : Body x s) : Body ('\\' :: e :: x) (c :: s)
  | code {u : List Char} {c : Char} {x s : List Char} (hu : Hex u c.toNat) (h : Body x s) : Body ('\\' :: 'u' :: (u ++ x)) (c :: s)
  | pair {u v : List Char} {m n : Nat} {c : Char} {x s : List Char} (hu : Hex u m) (hm : 0xD800 ≤ m ∧ m < 0xDC00) (hv : Hex v n)
      (hn : 0xDC00 ≤ n ∧ n < 0xE000) (hc : c.toNat = 0x10000 + 0x400 * (m - 0xD800) + (n - 0xDC00)) (h : Body x s) :
      Body ('\\' :: 'u' :: (u ++ ('\\' :: 'u' :: (v ++ x)))) (c :: s)

/-- `int`: no leading zeros. -/
def Digits (x : List Char) (n : Nat) : Prop :=
  x ≠ [] ∧ (∀ c ∈ x, c.isDigit) ∧ (x.head? = some '0' → x = ['0']) ∧ n = x.foldl (fun n c => 10 * n + (c.toNat - 48)) 0

/-- `[ minus ] int` -/
inductive Integer : List Char → Int → Prop where
  | nonneg {x : List Char} {n : Nat} (h : Digits x n) : Integer x n
  | neg {x : List Char} {n : Nat} (h : Digits x n) : Integer ('-' :: x) (-n)

/-- `frac` -/
def Frac (x : List Char) : Prop := ∃ ds, x = '.' :: ds ∧ ds ≠ [] ∧ ∀ c ∈ ds, c.isDigit

/-- `exp` -/
def Expo (x : List Char) : Prop :=
  ∃ e sign ds, x = e :: (sign ++ ds) ∧ (e = 'e' ∨ e = 'E') ∧ (sign = [] ∨ sign = ['+'] ∨ sign = ['-']) ∧ ds ≠ [] ∧ ∀ c ∈ ds, c.isDigit

/-- A `number` that is not an integer: it has a fraction, or an exponent, or both. -/
def RealText (x : List Char) : Prop :=
  ∃ i n r e, x = i ++ r ++ e ∧ Integer i n ∧ (Frac r ∧ e = [] ∨ r = [] ∧ Expo e ∨ Frac r ∧ Expo e)

mutual

/-- `value`: a text without surrounding blanks, and the value that it stands for. -/
inductive Value (f : Reals) : List Char → Json → Prop where
  | null : Value f "null".toList .null
  | true : Value f "true".toList (.bool true)
  | false : Value f "false".toList (.bool false)
  | int {x : List Char} {i : Int} (h : Integer x i) : Value f x (.int i)
  | real {x : List Char} (h : RealText x) : Value f x (.real (f.read x))
  | str {x : List Char} {s : String} (h : Body x s.toList) : Value f ('"' :: (x ++ ['"'])) (.str s)
  | empty {w : List Char} (hw : Blank w) : Value f ('[' :: (w ++ [']'])) (.arr [])
  | arr {x : List Char} {vs : List Json} (h : Elems f x vs) : Value f ('[' :: (x ++ [']'])) (.arr vs)
  | void {w : List Char} (hw : Blank w) : Value f ('{' :: (w ++ ['}'])) (.obj [])
  | obj {x : List Char} {ms : List (String × Json)} (h : Items f x ms) : Value f ('{' :: (x ++ ['}'])) (.obj ms)

/-- What is between brackets. -/
inductive Elems (f : Reals) : List Char → List Json → Prop where
  | last {w x w' : List Char} {v : Json} (h1 : Blank w) (h : Value f x v) (h2 : Blank w') : Elems f (w ++ (x ++ w')) [v]
  | more {w x w' y : List Char} {v : Json} {vs : List Json} (h1 : Blank w) (h : Value f x v) (h2 : Blank w') (hr : Elems f y vs) :
      Elems f (w ++ (x ++ (w' ++ ',' :: y))) (v :: vs)

/-- What is between braces. -/
inductive Items (f : Reals) : List Char → List (String × Json) → Prop where
  | last {w k w1 w2 x w' : List Char} {s : String} {v : Json} (h1 : Blank w) (hk : Body k s.toList) (hw1 : Blank w1) (hw2 : Blank w2)
      (h : Value f x v) (h2 : Blank w') : Items f (w ++ '"' :: (k ++ '"' :: (w1 ++ ':' :: (w2 ++ (x ++ w'))))) [(s, v)]
  | more {w k w1 w2 x w' y : List Char} {s : String} {v : Json} {ms : List (String × Json)} (h1 : Blank w) (hk : Body k s.toList) (hw1 : Blank w1)
      (hw2 : Blank w2) (h : Value f x v) (h2 : Blank w') (hr : Items f y ms) :
      Items f (w ++ '"' :: (k ++ '"' :: (w1 ++ ':' :: (w2 ++ (x ++ (w' ++ ',' :: y)))))) ((s, v) :: ms)

end

/-- `JSON-text` -/
def Reads (f : Reals) (text : List Char) (v : Json) : Prop := ∃ w x w', text = w ++ (x ++ w') ∧ Blank w ∧ Value f x v ∧ Blank w'

/-- What is assumed about floating point numbers: what is written has the form of a number, and is read as the same number. -/
def Reals.Ok (f : Reals) : Prop := ∀ b, RealText (f.print b) ∧ f.read (f.print b) = b

/-- No control characters. -/
def Printable (x : List Char) : Prop := ∀ c ∈ x, 32 ≤ c.toNat

mutual

/-- The same value, apart from the order of the members of objects, which is not significant. -/
inductive Same : Json → Json → Prop where
  | refl (v : Json) : Same v v
  | arr {xs ys : List Json} (h : SameElems xs ys) : Same (.arr xs) (.arr ys)
  | obj {ms ns : List (String × Json)} (h : SameMembers ms ns) : Same (.obj ms) (.obj ns)

/-- The same elements, in the same order. -/
inductive SameElems : List Json → List Json → Prop where
  | nil : SameElems [] []
  | cons {v w : Json} {vs ws : List Json} (h : Same v w) (hs : SameElems vs ws) : SameElems (v :: vs) (w :: ws)

/-- The same members, in any order. -/
inductive SameMembers : List (String × Json) → List (String × Json) → Prop where
  | nil : SameMembers [] []
  | cons {k : String} {v w : Json} {ms ns : List (String × Json)} (h : Same v w) (hs : SameMembers ms ns) : SameMembers ((k, v) :: ms) ((k, w) :: ns)
  | swap (a b : String × Json) (ms : List (String × Json)) : SameMembers (a :: b :: ms) (b :: a :: ms)
  | trans {l m n : List (String × Json)} (h1 : SameMembers l m) (h2 : SameMembers m n) : SameMembers l n

end

/-! ## Lemmas: texts stand for one value only -/

/-- What may follow a value. -/
def Stop (r : List Char) : Prop := ∀ c ∈ r.head?, c = ' ' ∨ c = '\t' ∨ c = '\n' ∨ c = '\r' ∨ c = ',' ∨ c = ']' ∨ c = '}'

theorem Hex.unique {x y : List Char} {m n : Nat} (hx : Hex x m) (hy : Hex y n) {r r' : List Char} (e : x ++ r = y ++ r') : x = y ∧ m = n ∧ r = r' := by
  obtain ⟨a, b, c, d, a', b', c', d', rfl, h1, h2, h3, h4, rfl⟩ := hx
  obtain ⟨A, B, C, D, A', B', C', D', rfl, g1, g2, g3, g4, rfl⟩ := hy
  simp only [List.cons_append, List.nil_append, List.cons.injEq] at e
  obtain ⟨rfl, rfl, rfl, rfl, rfl⟩ := e
  rw [h1] at g1; rw [h2] at g2; rw [h3] at g3; rw [h4] at g4
  simp only [Option.some.injEq] at g1 g2 g3 g4
  subst g1 g2 g3 g4
  exact ⟨rfl, rfl, rfl⟩

theorem simple_ne {e c : Char} (h : (e, c) ∈ simpleEscape) : e ≠ 'u' := by
  rintro rfl
  simp [simpleEscape] at h

theorem simple_unique {e c d : Char} (h : (e, c) ∈ simpleEscape) (h' : (e, d) ∈ simpleEscape) : c = d := by
  simp only [simpleEscape, List.mem_cons, Prod.mk.injEq, List.not_mem_nil, or_false] at h h'
  rcases h with ⟨rfl, rfl⟩ | ⟨rfl, rfl⟩ | ⟨rfl, rfl⟩ | ⟨rfl, rfl⟩ | ⟨rfl, rfl⟩ | ⟨rfl, rfl⟩ | ⟨rfl, rfl⟩ | ⟨rfl, rfl⟩ <;> (simp at h'; exact h'.symm)

theorem char_not_surrogate (c : Char) : ¬ (0xD800 ≤ c.toNat ∧ c.toNat < 0xE000) := by
  have := c.valid
  simp only [UInt32.isValidChar, Nat.isValidChar] at this
  have e : c.val.toNat = c.toNat := rfl
  omega

theorem char_eq {c d : Char} (h : c.toNat = d.toNat) : c = d := Char.toNat_inj.mp h

theorem Body.unique {x s : List Char} (hx : Body x s) : ∀ {y t r r' : List Char}, Body y t → x ++ '"' :: r = y ++ '"' :: r' → x = y ∧ s = t ∧ r = r' := by
  induction hx with
  | nil =>
    intro y t r r' hy e
    cases hy with
    | nil => simp at e; exact ⟨rfl, rfl, e⟩
    | unescaped _ h2 _ _ => simp at e; exact absurd e.1.symm h2
    | simple | code | pair => simp at e
  | @unescaped c x s h1 h2 h3 _ ih =>
    intro y t r r' hy e
    cases hy with
    | nil => simp at e; exact absurd e.1 h2
    | unescaped _ _ _ hy =>
      simp only [List.cons_append, List.cons.injEq] at e
      obtain ⟨rfl, e⟩ := e
      obtain ⟨rfl, rfl, rfl⟩ := ih hy e
      exact ⟨rfl, rfl, rfl⟩
    | simple | code | pair => simp at e; exact absurd e.1 h3
  | @simple a c x s he _ ih =>
    intro y t r r' hy e
    cases hy with
    | nil => simp at e
    | unescaped _ _ h3 _ => simp at e; exact absurd e.1.symm h3
    | simple he' hy =>
      simp only [List.cons_append, List.cons.injEq, true_and] at e
      obtain ⟨rfl, e⟩ := e
      obtain ⟨rfl, rfl, rfl⟩ := ih hy e
      exact ⟨rfl, by rw [simple_unique he he'], rfl⟩
    | code => simp at e; exact absurd e.1 (simple_ne he)
    | pair => simp at e; exact absurd e.1 (simple_ne he)
  | @code u c x s hu _ ih =>
    intro y t r r' hy e
    cases hy with
    | nil => simp at e
    | unescaped _ _ h3 _ => simp at e; exact absurd e.1.symm h3
    | simple he' hy => simp at e; exact absurd e.1.symm (simple_ne he')
    | code hu' hy =>
      simp only [List.cons_append, List.cons.injEq, true_and, List.append_assoc] at e
      obtain ⟨rfl, hn, e⟩ := hu.unique hu' e
      obtain ⟨rfl, rfl, rfl⟩ := ih hy e
      exact ⟨rfl, by rw [char_eq hn], rfl⟩
    | pair hu' hm =>
      simp only [List.cons_append, List.cons.injEq, true_and, List.append_assoc] at e
      obtain ⟨rfl, hn, e⟩ := hu.unique hu' e
      exact absurd (by rw [hn]; omega) (char_not_surrogate c)
  | @pair u v m n c x s hu hm hv hn hc _ ih =>
    intro y t r r' hy e
    cases hy with
    | nil => simp at e
    | unescaped _ _ h3 _ => simp at e; exact absurd e.1.symm h3
    | simple he' hy => simp at e; exact absurd e.1.symm (simple_ne he')
    | @code u' c' _ _ hu' hy =>
      simp only [List.cons_append, List.cons.injEq, true_and, List.append_assoc] at e
      obtain ⟨rfl, hn, e⟩ := hu.unique hu' e
      exact absurd (by rw [← hn]; omega) (char_not_surrogate c')
    | pair hu' hm' hv' hn' hc' hy =>
      simp only [List.cons_append, List.cons.injEq, true_and, List.append_assoc] at e
      obtain ⟨rfl, rfl, e⟩ := hu.unique hu' e
      simp only [List.cons.injEq, true_and] at e
      obtain ⟨rfl, rfl, e⟩ := hv.unique hv' e
      obtain ⟨rfl, rfl, rfl⟩ := ih hy e
      exact ⟨rfl, by rw [char_eq (hc.trans hc'.symm)], rfl⟩

/-- Characters of numbers. -/
def numeric (c : Char) : Bool := c.isDigit || c = '-' || c = '+' || c = '.' || c = 'e' || c = 'E'

theorem numeric_digit {c : Char} (h : c.isDigit) : numeric c = true := by simp [numeric, h]

theorem Integer.numeric {x : List Char} {i : Int} (h : Integer x i) : (∀ c ∈ x, numeric c = true) ∧ (∀ c ∈ x, c ≠ '.' ∧ c ≠ 'e' ∧ c ≠ 'E') ∧ x ≠ [] := by
  have key : ∀ {x : List Char} {n : Nat}, Digits x n → (∀ c ∈ x, JsonText.numeric c = true) ∧ (∀ c ∈ x, c ≠ '.' ∧ c ≠ 'e' ∧ c ≠ 'E') := by
    intro x n h
    refine ⟨fun c hc => numeric_digit (h.2.1 c hc), fun c hc => ?_⟩
    have := h.2.1 c hc
    refine ⟨?_, ?_, ?_⟩ <;> (rintro rfl; exact absurd this (by decide))
  cases h with
  | nonneg h => exact ⟨(key h).1, (key h).2, h.1⟩
  | neg h =>
    refine ⟨?_, ?_, by simp⟩
    · intro c hc
      rcases List.mem_cons.mp hc with rfl | hc
      · decide
      · exact (key h).1 c hc
    · intro c hc
      rcases List.mem_cons.mp hc with rfl | hc
      · decide
      · exact (key h).2 c hc

theorem RealText.numeric {x : List Char} (h : RealText x) : (∀ c ∈ x, numeric c = true) ∧ (∃ c ∈ x, c = '.' ∨ c = 'e' ∨ c = 'E') := by
  obtain ⟨i, n, r, e, rfl, hi, h⟩ := h
  have hr : Frac r → (∀ c ∈ r, JsonText.numeric c = true) ∧ '.' ∈ r := by
    rintro ⟨ds, rfl, _, hd⟩
    refine ⟨?_, by simp⟩
    intro c hc
    rcases List.mem_cons.mp hc with rfl | hc
    · decide
    · exact numeric_digit (hd c hc)
  have he : Expo e → (∀ c ∈ e, JsonText.numeric c = true) ∧ ∃ c ∈ e, c = 'e' ∨ c = 'E' := by
    rintro ⟨a, sign, ds, rfl, ha, hs, _, hd⟩
    refine ⟨?_, a, by simp, ha⟩
    intro c hc
    simp only [List.mem_cons, List.mem_append] at hc
    rcases hc with rfl | hc | hc
    · rcases ha with rfl | rfl <;> decide
    · rcases hs with rfl | rfl | rfl
      · cases hc
      · simp at hc; subst hc; decide
      · simp at hc; subst hc; decide
    · exact numeric_digit (hd c hc)
  have h0 := hi.numeric.1
  rcases h with ⟨h1, rfl⟩ | ⟨rfl, h1⟩ | ⟨h1, h2⟩
  · refine ⟨?_, '.', by simp [(hr h1).2], .inl rfl⟩
    intro c hc
    simp only [List.append_nil, List.mem_append] at hc
    exact hc.elim (h0 c) ((hr h1).1 c)
  · obtain ⟨c, hc, h3⟩ := (he h1).2
    refine ⟨?_, c, by simp [hc], .inr h3⟩
    intro c hc
    simp only [List.append_nil, List.mem_append] at hc
    exact hc.elim (h0 c) ((he h1).1 c)
  · refine ⟨?_, '.', by simp [(hr h1).2], .inl rfl⟩
    intro c hc
    simp only [List.mem_append] at hc
    exact hc.elim (fun h => h.elim (h0 c) ((hr h1).1 c)) ((he h2).1 c)

theorem RealText.ne_nil {x : List Char} (h : RealText x) : x ≠ [] := by
  obtain ⟨c, hc, _⟩ := h.numeric.2
  rintro rfl; cases hc

theorem Digits.unique {x : List Char} {m n : Nat} (h : Digits x m) (h' : Digits x n) : m = n := h.2.2.2.trans h'.2.2.2.symm

theorem Integer.unique {x : List Char} {i j : Int} (h : Integer x i) (h' : Integer x j) : i = j := by
  cases h with
  | nonneg h =>
    cases h' with
    | nonneg h' => rw [h.unique h']
    | neg h' => exact absurd (h.2.1 '-' (by simp)) (by decide)
  | neg h =>
    cases h' with
    | nonneg h' => exact absurd (h'.2.1 '-' (by simp)) (by decide)
    | neg h' => rw [h.unique h']

theorem stop_numeric {r : List Char} (h : Stop r) : ∀ c ∈ r.head?, numeric c = false := by
  intro c hc
  rcases h c hc with rfl | rfl | rfl | rfl | rfl | rfl | rfl <;> decide

theorem numeric_unique {x y r r' : List Char} (hx : ∀ c ∈ x, numeric c = true) (hy : ∀ c ∈ y, numeric c = true) (hr : Stop r) (hr' : Stop r')
    (e : x ++ r = y ++ r') : x = y ∧ r = r' := by
  have key : ∀ {x r : List Char}, (∀ c ∈ x, numeric c = true) → Stop r → (x ++ r).takeWhile numeric = x := by
    intro x r hx hr
    rw [List.takeWhile_append_of_pos hx]
    cases r with
    | nil => simp
    | cons c r => simp [stop_numeric hr c (by simp)]
  have h1 := key hx hr
  rw [e, key hy hr'] at h1
  subst h1
  exact ⟨rfl, List.append_cancel_left e⟩

theorem blank_unique {w w' r r' : List Char} (hw : Blank w) (hw' : Blank w') (hr : ∀ c ∈ r.head?, ¬ (c = ' ' ∨ c = '\t' ∨ c = '\n' ∨ c = '\r'))
    (hr' : ∀ c ∈ r'.head?, ¬ (c = ' ' ∨ c = '\t' ∨ c = '\n' ∨ c = '\r')) (e : w ++ r = w' ++ r') : w = w' ∧ r = r' := by
  let p : Char → Bool := fun c => decide (c = ' ' ∨ c = '\t' ∨ c = '\n' ∨ c = '\r')
  have key : ∀ {x r : List Char}, Blank x → (∀ c ∈ r.head?, ¬ (c = ' ' ∨ c = '\t' ∨ c = '\n' ∨ c = '\r')) → (x ++ r).takeWhile p = x := by
    intro x r hx hr
    rw [List.takeWhile_append_of_pos (fun c hc => by simp only [p]; exact decide_eq_true (hx c hc))]
    cases r with
    | nil => simp
    | cons c r =>
      have : p c = false := by simp only [p]; exact decide_eq_false (hr c (by simp))
      simp [this]
  have h1 := key hw hr
  rw [e, key hw' hr'] at h1
  subst h1
  exact ⟨rfl, List.append_cancel_left e⟩

/-- How values begin. -/
inductive Kind where
  | null | true | false | number | str | arr | obj
deriving DecidableEq

/-- The kind of value, by the first character. -/
def kindOf (c : Char) : Option Kind :=
  if c = 'n' then some .null
  else if c = 't' then some .true
  else if c = 'f' then some .false
  else if c = '"' then some .str
  else if c = '[' then some .arr
  else if c = '{' then some .obj
  else if c.isDigit || c = '-' then some .number
  else none

theorem kindOf_digit {c : Char} (h : c.isDigit) : kindOf c = some .number := by
  have key : ∀ d : Char, d.isDigit = false → c ≠ d := by rintro d hd rfl; rw [h] at hd; cases hd
  simp [kindOf, key 'n' (by decide), key 't' (by decide), key 'f' (by decide), key '"' (by decide), key '[' (by decide), key '{' (by decide), h]

theorem Integer.head {x : List Char} {i : Int} (h : Integer x i) : ∃ c y, x = c :: y ∧ kindOf c = some .number := by
  cases h with
  | nonneg h =>
    cases x with
    | nil => exact absurd rfl h.1
    | cons c y => exact ⟨c, y, rfl, kindOf_digit (h.2.1 c (by simp))⟩
  | neg h => exact ⟨'-', _, rfl, by decide⟩

/-- The kind of a value. -/
def kind : Json → Kind
  | .null => .null
  | .bool true => .true
  | .bool false => .false
  | .int _ => .number
  | .real _ => .number
  | .str _ => .str
  | .arr _ => .arr
  | .obj _ => .obj

theorem Value.head {f : Reals} {x : List Char} {v : Json} (h : Value f x v) : ∃ c y, x = c :: y ∧ kindOf c = some (kind v) := by
  cases h with
  | null => exact ⟨'n', _, rfl, by decide⟩
  | true => exact ⟨'t', _, rfl, by decide⟩
  | false => exact ⟨'f', _, rfl, by decide⟩
  | int h => exact h.head
  | real h =>
    obtain ⟨i, n, r, e, rfl, hi, _⟩ := h
    obtain ⟨c, y, rfl, hc⟩ := hi.head
    exact ⟨c, _, rfl, hc⟩
  | str => exact ⟨'"', _, rfl, by simp [kindOf, kind]⟩
  | empty | arr => exact ⟨'[', _, rfl, by simp [kindOf, kind]⟩
  | void | obj => exact ⟨'{', _, rfl, by simp [kindOf, kind]⟩

theorem kindOf_not_blank {c : Char} {k : Kind} (h : kindOf c = some k) : ¬ (c = ' ' ∨ c = '\t' ∨ c = '\n' ∨ c = '\r') ∧ c ≠ ']' ∧ c ≠ ',' := by
  refine ⟨?_, ?_, ?_⟩
  · rintro (rfl | rfl | rfl | rfl) <;> (revert h; cases k <;> decide)
  · rintro rfl; simp [show kindOf ']' = none from by decide] at h
  · rintro rfl; simp [show kindOf ',' = none from by decide] at h

theorem Value.head_not_blank {f : Reals} {x : List Char} {v : Json} (h : Value f x v) (r : List Char) :
    ∀ c ∈ (x ++ r).head?, ¬ (c = ' ' ∨ c = '\t' ∨ c = '\n' ∨ c = '\r') := by
  obtain ⟨c, y, rfl, hc⟩ := h.head
  intro d hd
  simp at hd
  subst hd
  exact (kindOf_not_blank hc).1

theorem Value.kind_eq {f : Reals} {x y r r' : List Char} {v w : Json} (h : Value f x v) (h' : Value f y w) (e : x ++ r = y ++ r') : kind v = kind w := by
  obtain ⟨c, x', rfl, hc⟩ := h.head
  obtain ⟨d, y', rfl, hd⟩ := h'.head
  simp only [List.cons_append, List.cons.injEq] at e
  rw [e.1, hd] at hc
  exact (Option.some.inj hc).symm

theorem stop_blank {w : List Char} (h : Blank w) {r : List Char} (hr : Stop r) : Stop (w ++ r) := by
  intro c hc
  cases w with
  | nil => exact hr c hc
  | cons d w =>
    simp at hc
    subst hc
    rcases h d (by simp) with rfl | rfl | rfl | rfl <;> simp

theorem stop_cons {c : Char} (h : c = ' ' ∨ c = '\t' ∨ c = '\n' ∨ c = '\r' ∨ c = ',' ∨ c = ']' ∨ c = '}') (r : List Char) : Stop (c :: r) := by
  intro d hd
  simp at hd
  subst hd
  exact h

theorem not_blank_cons {c : Char} (h : ¬ (c = ' ' ∨ c = '\t' ∨ c = '\n' ∨ c = '\r')) (r : List Char) :
    ∀ d ∈ (c :: r).head?, ¬ (d = ' ' ∨ d = '\t' ∨ d = '\n' ∨ d = '\r') := by
  intro d hd
  simp at hd
  subst hd
  exact h

/-- Nothing but blanks is between the brackets, or something else is. -/
theorem elems_not_blank {f : Reals} {x : List Char} {vs : List Json} (h : Elems f x vs) {w r r' : List Char} (hw : Blank w)
    (e : x ++ ']' :: r = w ++ ']' :: r') : False := by
  cases h with
  | last h1 h h2 =>
    simp only [List.append_assoc] at e
    obtain ⟨_, e⟩ := blank_unique h1 hw (h.head_not_blank _) (not_blank_cons (by decide) _) e
    obtain ⟨c, y, rfl, hc⟩ := h.head
    simp at e
    exact (kindOf_not_blank hc).2.1 e.1
  | more h1 h h2 hr =>
    simp only [List.append_assoc] at e
    obtain ⟨_, e⟩ := blank_unique h1 hw (h.head_not_blank _) (not_blank_cons (by decide) _) e
    obtain ⟨c, y, rfl, hc⟩ := h.head
    simp at e
    exact (kindOf_not_blank hc).2.1 e.1

theorem items_not_blank {f : Reals} {x : List Char} {ms : List (String × Json)} (h : Items f x ms) {w r r' : List Char} (hw : Blank w)
    (e : x ++ '}' :: r = w ++ '}' :: r') : False := by
  cases h with
  | last h1 h h2 =>
    simp only [List.append_assoc, List.cons_append] at e
    obtain ⟨_, e⟩ := blank_unique h1 hw (not_blank_cons (by decide) _) (not_blank_cons (by decide) _) e
    simp at e
  | more h1 h h2 hr =>
    simp only [List.append_assoc, List.cons_append] at e
    obtain ⟨_, e⟩ := blank_unique h1 hw (not_blank_cons (by decide) _) (not_blank_cons (by decide) _) e
    simp at e

mutual

theorem Value.unique {f : Reals} {x : List Char} {v : Json} (h : Value f x v) {y r r' : List Char} {w : Json} (h' : Value f y w) (hr : Stop r) (hr' : Stop r')
    (e : x ++ r = y ++ r') : v = w ∧ r = r' := by
  have hk := h.kind_eq h' e
  match h with
  | .null =>
    cases h' <;> simp only [kind, reduceCtorEq] at hk
    exact ⟨rfl, List.append_cancel_left e⟩
  | .true =>
    cases h' <;> simp only [kind, reduceCtorEq] at hk
    exact ⟨rfl, List.append_cancel_left e⟩
  | .false =>
    cases h' <;> simp only [kind, reduceCtorEq] at hk
    exact ⟨rfl, List.append_cancel_left e⟩
  | .int h =>
    cases h' <;> simp only [kind, reduceCtorEq] at hk
    case int h' =>
      obtain ⟨rfl, e'⟩ := numeric_unique h.numeric.1 h'.numeric.1 hr hr' e
      exact ⟨by rw [h.unique h'], e'⟩
    case real h' =>
      obtain ⟨rfl, e⟩ := numeric_unique h.numeric.1 h'.numeric.1 hr hr' e
      obtain ⟨c, hc, hd⟩ := h'.numeric.2
      have := h.numeric.2.1 c hc
      rcases hd with rfl | rfl | rfl <;> simp at this
  | .real h =>
    cases h' <;> simp only [kind, reduceCtorEq] at hk
    case real h' =>
      obtain ⟨rfl, e'⟩ := numeric_unique h.numeric.1 h'.numeric.1 hr hr' e
      exact ⟨rfl, e'⟩
    case int h' =>
      obtain ⟨rfl, e⟩ := numeric_unique h.numeric.1 h'.numeric.1 hr hr' e
      obtain ⟨c, hc, hd⟩ := h.numeric.2
      have := h'.numeric.2.1 c hc
      rcases hd with rfl | rfl | rfl <;> simp at this
  | .str h =>
    cases h' <;> simp only [kind, reduceCtorEq] at hk
    case str h' =>
      simp only [List.cons_append, List.append_assoc, List.nil_append, List.cons.injEq, true_and] at e
      obtain ⟨_, h2, e⟩ := h.unique h' e
      exact ⟨by rw [String.toList_inj.mp h2], e⟩
  | .empty hw =>
    cases h' <;> simp only [kind, reduceCtorEq] at hk
    case empty hw' =>
      simp only [List.cons_append, List.append_assoc, List.nil_append, List.cons.injEq, true_and] at e
      obtain ⟨_, e⟩ := blank_unique hw hw' (not_blank_cons (by decide) _) (not_blank_cons (by decide) _) e
      simp at e
      exact ⟨rfl, e⟩
    case arr h' =>
      simp only [List.cons_append, List.append_assoc, List.nil_append, List.cons.injEq, true_and] at e
      exact (elems_not_blank h' hw e.symm).elim
  | .arr h =>
    cases h' <;> simp only [kind, reduceCtorEq] at hk
    case empty hw' =>
      simp only [List.cons_append, List.append_assoc, List.nil_append, List.cons.injEq, true_and] at e
      exact (elems_not_blank h hw' e).elim
    case arr h' =>
      simp only [List.cons_append, List.append_assoc, List.nil_append, List.cons.injEq, true_and] at e
      obtain ⟨rfl, e⟩ := Elems.unique h h' e
      exact ⟨rfl, e⟩
  | .void hw =>
    cases h' <;> simp only [kind, reduceCtorEq] at hk
    case void hw' =>
      simp only [List.cons_append, List.append_assoc, List.nil_append, List.cons.injEq, true_and] at e
      obtain ⟨_, e⟩ := blank_unique hw hw' (not_blank_cons (by decide) _) (not_blank_cons (by decide) _) e
      simp at e
      exact ⟨rfl, e⟩
    case obj h' =>
      simp only [List.cons_append, List.append_assoc, List.nil_append, List.cons.injEq, true_and] at e
      exact (items_not_blank h' hw e.symm).elim
  | .obj h =>
    cases h' <;> simp only [kind, reduceCtorEq] at hk
    case void hw' =>
      simp only [List.cons_append, List.append_assoc, List.nil_append, List.cons.injEq, true_and] at e
      exact (items_not_blank h hw' e).elim
    case obj h' =>
      simp only [List.cons_append, List.append_assoc, List.nil_append, List.cons.injEq, true_and] at e
      obtain ⟨rfl, e⟩ := Items.unique h h' e
      exact ⟨rfl, e⟩

theorem Elems.unique {f : Reals} {x : List Char} {vs : List Json} (h : Elems f x vs) {y r r' : List Char} {ws : List Json} (h' : Elems f y ws)
    (e : x ++ ']' :: r = y ++ ']' :: r') : vs = ws ∧ r = r' := by
  match h with
  | .last h1 h h2 =>
    cases h' with
    | last g1 g g2 =>
      simp only [List.append_assoc] at e
      obtain ⟨_, e⟩ := blank_unique h1 g1 (h.head_not_blank _) (g.head_not_blank _) e
      obtain ⟨rfl, e⟩ := Value.unique h g (stop_blank h2 (stop_cons (by decide) _)) (stop_blank g2 (stop_cons (by decide) _)) e
      obtain ⟨_, e⟩ := blank_unique h2 g2 (not_blank_cons (by decide) _) (not_blank_cons (by decide) _) e
      simp at e
      exact ⟨rfl, e⟩
    | more g1 g g2 g3 =>
      simp only [List.append_assoc, List.cons_append] at e
      obtain ⟨_, e⟩ := blank_unique h1 g1 (h.head_not_blank _) (g.head_not_blank _) e
      obtain ⟨rfl, e⟩ := Value.unique h g (stop_blank h2 (stop_cons (by decide) _)) (stop_blank g2 (stop_cons (by decide) _)) e
      obtain ⟨_, e⟩ := blank_unique h2 g2 (not_blank_cons (by decide) _) (not_blank_cons (by decide) _) e
      simp at e
  | .more h1 h h2 h3 =>
    cases h' with
    | last g1 g g2 =>
      simp only [List.append_assoc, List.cons_append] at e
      obtain ⟨_, e⟩ := blank_unique h1 g1 (h.head_not_blank _) (g.head_not_blank _) e
      obtain ⟨rfl, e⟩ := Value.unique h g (stop_blank h2 (stop_cons (by decide) _)) (stop_blank g2 (stop_cons (by decide) _)) e
      obtain ⟨_, e⟩ := blank_unique h2 g2 (not_blank_cons (by decide) _) (not_blank_cons (by decide) _) e
      simp at e
    | more g1 g g2 g3 =>
      simp only [List.append_assoc, List.cons_append] at e
      obtain ⟨_, e⟩ := blank_unique h1 g1 (h.head_not_blank _) (g.head_not_blank _) e
      obtain ⟨rfl, e⟩ := Value.unique h g (stop_blank h2 (stop_cons (by decide) _)) (stop_blank g2 (stop_cons (by decide) _)) e
      obtain ⟨_, e⟩ := blank_unique h2 g2 (not_blank_cons (by decide) _) (not_blank_cons (by decide) _) e
      simp only [List.cons.injEq, true_and] at e
      obtain ⟨rfl, e⟩ := Elems.unique h3 g3 e
      exact ⟨rfl, e⟩

theorem Items.unique {f : Reals} {x : List Char} {ms : List (String × Json)} (h : Items f x ms) {y r r' : List Char} {ns : List (String × Json)}
    (h' : Items f y ns) (e : x ++ '}' :: r = y ++ '}' :: r') : ms = ns ∧ r = r' := by
  match h with
  | .last h1 hk hw1 hw2 h h2 =>
    cases h' with
    | last g1 gk gw1 gw2 g g2 =>
      simp only [List.append_assoc, List.cons_append] at e
      obtain ⟨_, e⟩ := blank_unique h1 g1 (not_blank_cons (by decide) _) (not_blank_cons (by decide) _) e
      simp only [List.cons.injEq, true_and] at e
      obtain ⟨_, hs, e⟩ := hk.unique gk e
      obtain ⟨_, e⟩ := blank_unique hw1 gw1 (not_blank_cons (by decide) _) (not_blank_cons (by decide) _) e
      simp only [List.cons.injEq, true_and] at e
      obtain ⟨_, e⟩ := blank_unique hw2 gw2 (h.head_not_blank _) (g.head_not_blank _) e
      obtain ⟨rfl, e⟩ := Value.unique h g (stop_blank h2 (stop_cons (by decide) _)) (stop_blank g2 (stop_cons (by decide) _)) e
      obtain ⟨_, e⟩ := blank_unique h2 g2 (not_blank_cons (by decide) _) (not_blank_cons (by decide) _) e
      simp at e
      exact ⟨by rw [String.toList_inj.mp hs], e⟩
    | more g1 gk gw1 gw2 g g2 g3 =>
      simp only [List.append_assoc, List.cons_append] at e
      obtain ⟨_, e⟩ := blank_unique h1 g1 (not_blank_cons (by decide) _) (not_blank_cons (by decide) _) e
      simp only [List.cons.injEq, true_and] at e
      obtain ⟨_, hs, e⟩ := hk.unique gk e
      obtain ⟨_, e⟩ := blank_unique hw1 gw1 (not_blank_cons (by decide) _) (not_blank_cons (by decide) _) e
      simp only [List.cons.injEq, true_and] at e
      obtain ⟨_, e⟩ := blank_unique hw2 gw2 (h.head_not_blank _) (g.head_not_blank _) e
      obtain ⟨rfl, e⟩ := Value.unique h g (stop_blank h2 (stop_cons (by decide) _)) (stop_blank g2 (stop_cons (by decide) _)) e
      obtain ⟨_, e⟩ := blank_unique h2 g2 (not_blank_cons (by decide) _) (not_blank_cons (by decide) _) e
      simp at e
  | .more h1 hk hw1 hw2 h h2 h3 =>
    cases h' with
    | last g1 gk gw1 gw2 g g2 =>
      simp only [List.append_assoc, List.cons_append] at e
      obtain ⟨_, e⟩ := blank_unique h1 g1 (not_blank_cons (by decide) _) (not_blank_cons (by decide) _) e
      simp only [List.cons.injEq, true_and] at e
      obtain ⟨_, hs, e⟩ := hk.unique gk e
      obtain ⟨_, e⟩ := blank_unique hw1 gw1 (not_blank_cons (by decide) _) (not_blank_cons (by decide) _) e
      simp only [List.cons.injEq, true_and] at e
      obtain ⟨_, e⟩ := blank_unique hw2 gw2 (h.head_not_blank _) (g.head_not_blank _) e
      obtain ⟨rfl, e⟩ := Value.unique h g (stop_blank h2 (stop_cons (by decide) _)) (stop_blank g2 (stop_cons (by decide) _)) e
      obtain ⟨_, e⟩ := blank_unique h2 g2 (not_blank_cons (by decide) _) (not_blank_cons (by decide) _) e
      simp at e
    | more g1 gk gw1 gw2 g g2 g3 =>
      simp only [List.append_assoc, List.cons_append] at e
      obtain ⟨_, e⟩ := blank_unique h1 g1 (not_blank_cons (by decide) _) (not_blank_cons (by decide) _) e
      simp only [List.cons.injEq, true_and] at e
      obtain ⟨_, hs, e⟩ := hk.unique gk e
      obtain ⟨_, e⟩ := blank_unique hw1 gw1 (not_blank_cons (by decide) _) (not_blank_cons (by decide) _) e
      simp only [List.cons.injEq, true_and] at e
      obtain ⟨_, e⟩ := blank_unique hw2 gw2 (h.head_not_blank _) (g.head_not_blank _) e
      obtain ⟨rfl, e⟩ := Value.unique h g (stop_blank h2 (stop_cons (by decide) _)) (stop_blank g2 (stop_cons (by decide) _)) e
      obtain ⟨_, e⟩ := blank_unique h2 g2 (not_blank_cons (by decide) _) (not_blank_cons (by decide) _) e
      simp only [List.cons.injEq, true_and] at e
      obtain ⟨rfl, e⟩ := Items.unique h3 g3 e
      exact ⟨by rw [String.toList_inj.mp hs], e⟩

end

/-! ## Lemmas: what is written -/

theorem char_le (a b : Char) : a ≤ b ↔ a.toNat ≤ b.toNat := Iff.rfl

theorem hexValue_hexDigit {n : Nat} (h : n < 16) : hexValue (hexDigit n) = some n := by
  have : n = 0 ∨ n = 1 ∨ n = 2 ∨ n = 3 ∨ n = 4 ∨ n = 5 ∨ n = 6 ∨ n = 7 ∨ n = 8 ∨ n = 9 ∨ n = 10 ∨ n = 11 ∨ n = 12 ∨ n = 13 ∨ n = 14 ∨ n = 15 := by omega
  rcases this with rfl | rfl | rfl | rfl | rfl | rfl | rfl | rfl | rfl | rfl | rfl | rfl | rfl | rfl | rfl | rfl <;> decide

theorem hex_hex4 {n : Nat} (h : n < 65536) : Hex (hex4 n) n :=
  ⟨_, _, _, _, n / 4096 % 16, n / 256 % 16, n / 16 % 16, n % 16, rfl, hexValue_hexDigit (by omega), hexValue_hexDigit (by omega), hexValue_hexDigit (by omega),
    hexValue_hexDigit (by omega), by omega⟩

theorem body_escape (c : Char) {x s : List Char} (h : Body x s) : Body (escape c ++ x) (c :: s) := by
  unfold escape
  split
  · rename_i e; subst e; exact .simple (by simp [simpleEscape]) h
  split
  · rename_i e; subst e; exact .simple (by simp [simpleEscape]) h
  rename_i h1 h2
  split
  · split
    · rename_i _ e
      have : c = Char.ofNat 8 := char_eq (by rw [e]; decide)
      exact .simple (by simp [simpleEscape, this]) h
    split
    · rename_i _ e
      have : c = Char.ofNat 12 := char_eq (by rw [e]; decide)
      exact .simple (by simp [simpleEscape, this]) h
    split
    · rename_i _ e
      have : c = '\n' := char_eq (by rw [e]; decide)
      exact .simple (by simp [simpleEscape, this]) h
    split
    · rename_i _ e
      have : c = '\r' := char_eq (by rw [e]; decide)
      exact .simple (by simp [simpleEscape, this]) h
    split
    · rename_i _ e
      have : c = '\t' := char_eq (by rw [e]; decide)
      exact .simple (by simp [simpleEscape, this]) h
    · exact .code (hex_hex4 (by omega)) h
  · exact .unescaped (by omega) h2 h1 h

theorem body_flatMap (s : List Char) : Body (s.flatMap escape) s := by
  induction s with
  | nil => exact .nil
  | cons c s ih => simpa using body_escape c ih

theorem value_dumpString {f : Reals} (s : String) : Value f (dumpString s) (.str s) := .str (body_flatMap s.toList)

theorem ofDigitChars_foldl (ds : List Char) (acc : Nat) :
    ds.foldl (fun n c => 10 * n + (c.toNat - 48)) acc = Nat.ofDigitChars 10 ds acc := by
  induction ds generalizing acc with
  | nil => rfl
  | cons c ds ih => rw [List.foldl_cons, Nat.ofDigitChars_cons, ih]; rfl

theorem digits_toDigits (n : Nat) : Digits (Nat.toDigits 10 n) n := by
  refine ⟨Nat.toDigits_ne_nil, fun c hc => Nat.isDigit_of_mem_toDigits (by decide) (by decide) hc, ?_, ?_⟩
  · intro h
    by_cases h0 : n = 0
    · subst h0; rfl
    · obtain ⟨c, r, e, _, h2⟩ := Text.Numbers.toDigits_head n (by omega)
      rw [e] at h
      simp at h
      exact absurd h h2
  · rw [ofDigitChars_foldl]; exact Nat.ofDigitChars_ten_toDigits.symm

theorem integer_dumpInt (i : Int) : Integer (dumpInt i) i := by
  unfold dumpInt
  split
  · have := Integer.neg (digits_toDigits (-i).toNat)
    have e : -((-i).toNat : Int) = i := by omega
    rwa [e] at this
  · have := Integer.nonneg (digits_toDigits i.toNat)
    have e : (i.toNat : Int) = i := by omega
    rwa [e] at this

theorem blank_indent (pretty : Bool) (d : Nat) (s : Bool) : Blank (indent pretty d s) := by
  intro c hc
  cases pretty <;> cases s <;> simp [indent] at hc <;> grind

theorem blank_nil : Blank [] := by intro c hc; cases hc

theorem elems_dump {f : Reals} {pretty : Bool} {d : Nat} (vs : List Json) (hv : ∀ v ∈ vs, Value f (dumpValue f pretty d v) v) :
    ∀ {v : Json}, Value f (dumpValue f pretty d v) v → ∀ {w w' : List Char}, Blank w → Blank w' →
      Elems f (w ++ (dumpValue f pretty d v ++ (dumpElems f pretty d false vs ++ w'))) (v :: vs) := by
  induction vs with
  | nil =>
    intro v h w w' h1 h2
    simpa [dumpElems] using Elems.last h1 h h2
  | cons u vs ih =>
    intro v h w w' h1 h2
    have := Elems.more h1 h blank_nil (ih (fun v hv' => hv v (by simp [hv'])) (hv u (by simp)) (blank_indent pretty d true) h2)
    simpa [dumpElems] using this

theorem items_dump {f : Reals} {pretty : Bool} {d : Nat} (ms : List (String × Json)) (hv : ∀ m ∈ ms, Value f (dumpValue f pretty d m.2) m.2) :
    ∀ {m : String × Json}, Value f (dumpValue f pretty d m.2) m.2 → ∀ {w w' : List Char}, Blank w → Blank w' →
      Items f (w ++ (dumpMember f pretty d m ++ (dumpMembers f pretty d false ms ++ w'))) (m :: ms) := by
  have sp : Blank [' '] := by intro c hc; simp at hc; exact .inl hc
  induction ms with
  | nil =>
    intro m h w w' h1 h2
    obtain ⟨k, v⟩ := m
    simpa [dumpMembers, dumpMember, dumpString] using Items.last h1 (body_flatMap k.toList) blank_nil sp h h2
  | cons u ms ih =>
    intro m h w w' h1 h2
    obtain ⟨k, v⟩ := m
    have := Items.more h1 (body_flatMap k.toList) blank_nil sp h blank_nil
      (ih (fun v hv' => hv v (by simp [hv'])) (hv u (by simp)) (blank_indent pretty d true) h2)
    simpa [dumpMembers, dumpMember, dumpString] using this

mutual

theorem value_dump {f : Reals} (hf : f.Ok) (pretty : Bool) (d : Nat) (v : Json) : Value f (dumpValue f pretty d v) v := by
  match v with
  | .null => rw [dumpValue]; exact .null
  | .bool true => rw [dumpValue]; exact .true
  | .bool false => rw [dumpValue]; exact .false
  | .int i => rw [dumpValue]; exact .int (integer_dumpInt i)
  | .real b =>
    rw [dumpValue]
    have := Value.real (f := f) (hf b).1
    rwa [(hf b).2] at this
  | .str s => rw [dumpValue]; exact value_dumpString s
  | .arr vs =>
    rw [dumpValue]
    match vs, values_dump hf pretty (d + 1) vs with
    | [], _ => exact .empty blank_nil
    | v :: vs, h =>
      have := Value.arr (elems_dump vs (fun u hu => h u (by simp [hu])) (h v (by simp)) (blank_indent pretty (d + 1) false) (blank_indent pretty d false))
      simpa [dumpElems] using this
  | .obj ms =>
    rw [dumpValue]
    match ms, members_dump hf pretty (d + 1) ms with
    | [], _ => exact .void blank_nil
    | m :: ms, h =>
      have := Value.obj (items_dump ms (fun u hu => h u (by simp [hu])) (h m (by simp)) (blank_indent pretty (d + 1) false) (blank_indent pretty d false))
      simpa [dumpMembers] using this

theorem values_dump {f : Reals} (hf : f.Ok) (pretty : Bool) (d : Nat) (vs : List Json) : ∀ v ∈ vs, Value f (dumpValue f pretty d v) v := by
  match vs with
  | [] => intro v hv; cases hv
  | v :: vs =>
    intro u hu
    rcases List.mem_cons.mp hu with e | hu
    · rw [e]; exact value_dump hf pretty d v
    · exact values_dump hf pretty d vs u hu

theorem member_dump {f : Reals} (hf : f.Ok) (pretty : Bool) (d : Nat) (m : String × Json) : Value f (dumpValue f pretty d m.2) m.2 := by
  match m with
  | (_, v) => exact value_dump hf pretty d v

theorem members_dump {f : Reals} (hf : f.Ok) (pretty : Bool) (d : Nat) (ms : List (String × Json)) : ∀ m ∈ ms, Value f (dumpValue f pretty d m.2) m.2 := by
  match ms with
  | [] => intro v hv; cases hv
  | m :: ms =>
    intro u hu
    rcases List.mem_cons.mp hu with e | hu
    · rw [e]; exact member_dump hf pretty d m
    · exact members_dump hf pretty d ms u hu

end

/-! ## Lemmas: the same value -/

mutual

theorem Same.symm {v w : Json} (h : Same v w) : Same w v := by
  match h with
  | .refl v => exact .refl v
  | .arr h => exact .arr (SameElems.symm h)
  | .obj h => exact .obj (SameMembers.symm h)

theorem SameElems.symm {vs ws : List Json} (h : SameElems vs ws) : SameElems ws vs := by
  match h with
  | .nil => exact .nil
  | .cons h hs => exact .cons (Same.symm h) (SameElems.symm hs)

theorem SameMembers.symm {ms ns : List (String × Json)} (h : SameMembers ms ns) : SameMembers ns ms := by
  match h with
  | .nil => exact .nil
  | .cons h hs => exact .cons (Same.symm h) (SameMembers.symm hs)
  | .swap a b ms => exact .swap b a ms
  | .trans h1 h2 => exact .trans (SameMembers.symm h2) (SameMembers.symm h1)

end

mutual

theorem Same.trans {u v w : Json} (h : Same u v) (h' : Same v w) : Same u w := by
  match h with
  | .refl v => exact h'
  | .arr h =>
    cases h' with
    | refl => exact .arr h
    | arr h' => exact .arr (SameElems.trans h h')
  | .obj h =>
    cases h' with
    | refl => exact .obj h
    | obj h' => exact .obj (.trans h h')

theorem SameElems.trans {us vs ws : List Json} (h : SameElems us vs) (h' : SameElems vs ws) : SameElems us ws := by
  match h with
  | .nil => exact h'
  | .cons h hs =>
    cases h' with
    | cons h' hs' => exact .cons (Same.trans h h') (SameElems.trans hs hs')

end

theorem SameMembers.refl (ms : List (String × Json)) : SameMembers ms ms := by
  induction ms with
  | nil => exact .nil
  | cons m ms ih => exact .cons (.refl m.2) ih

theorem SameMembers.of_perm {ms ns : List (String × Json)} (h : ms.Perm ns) : SameMembers ms ns := by
  induction h with
  | nil => exact .nil
  | cons m _ ih => exact .cons (.refl m.2) ih
  | swap a b ms => exact .swap b a ms
  | trans _ _ ih1 ih2 => exact .trans ih1 ih2

theorem SameMembers.keys_perm {ms ns : List (String × Json)} (h : SameMembers ms ns) : (keys ms).Perm (keys ns) := by
  match h with
  | .nil => exact .nil
  | .cons h hs => exact .cons _ (SameMembers.keys_perm hs)
  | .swap a b ms => exact .swap _ _ _
  | .trans h1 h2 => exact .trans (SameMembers.keys_perm h1) (SameMembers.keys_perm h2)

/-- Nothing, or the same value. -/
inductive SameOption : Option Json → Option Json → Prop where
  | none : SameOption none none
  | some {v w : Json} (h : Same v w) : SameOption (some v) (some w)

theorem SameOption.refl : (o : Option Json) → SameOption o o
  | .none => .none
  | .some v => .some (.refl v)

theorem SameOption.trans {a b c : Option Json} (h : SameOption a b) (h' : SameOption b c) : SameOption a c := by
  cases h with
  | none => exact h'
  | some h => cases h' with | some h' => exact .some (h.trans h')

theorem SameMembers.lookup {ms ns : List (String × Json)} (h : SameMembers ms ns) (hn : (keys ms).Nodup) (k : String) :
    SameOption (lookup k ms) (lookup k ns) := by
  match h with
  | .nil => exact .none
  | @SameMembers.cons k' v w ms ns h hs =>
    simp only [Kvs.lookup]
    split
    · exact .some h
    · exact SameMembers.lookup hs (List.nodup_cons.mp hn).2 k
  | .swap a b ms =>
    obtain ⟨k1, v1⟩ := a
    obtain ⟨k2, v2⟩ := b
    have : k1 ≠ k2 := by
      rintro rfl
      simp [keys] at hn
    simp only [Kvs.lookup]
    by_cases h1 : k1 = k
    · have h2 : k2 ≠ k := fun e => this (h1.trans e.symm)
      simp only [h1, h2, if_true, if_false]
      exact .refl _
    · simp only [h1, if_false]
      exact .refl _
  | .trans h1 h2 => exact (SameMembers.lookup h1 hn k).trans (SameMembers.lookup h2 (h1.keys_perm.nodup_iff.mp hn) k)

mutual

theorem Same.wellFormed {v w : Json} (h : Same v w) (hv : WellFormed v) : WellFormed w := by
  match h with
  | .refl v => exact hv
  | .arr h => cases hv with | arr hv => exact .arr (SameElems.wellFormed h hv)
  | .obj h => cases hv with | obj hn hv => exact .obj (h.keys_perm.nodup_iff.mp hn) (SameMembers.wellFormed h hv)

theorem SameElems.wellFormed {vs ws : List Json} (h : SameElems vs ws) (hv : ∀ v ∈ vs, WellFormed v) : ∀ v ∈ ws, WellFormed v := by
  match h with
  | .nil => exact hv
  | .cons h hs =>
    intro v hm
    rcases List.mem_cons.mp hm with e | hm
    · rw [e]; exact Same.wellFormed h (hv _ (by simp))
    · exact SameElems.wellFormed hs (fun u hu => hv u (by simp [hu])) v hm

theorem SameMembers.wellFormed {ms ns : List (String × Json)} (h : SameMembers ms ns) (hv : ∀ m ∈ ms, WellFormed m.2) : ∀ m ∈ ns, WellFormed m.2 := by
  match h with
  | .nil => exact hv
  | @SameMembers.cons k v w ms ns h hs =>
    intro u hm
    rcases List.mem_cons.mp hm with e | hm
    · rw [e]; exact Same.wellFormed h (hv (k, v) (by simp))
    · exact SameMembers.wellFormed hs (fun u hu => hv u (by simp [hu])) u hm
  | .swap a b ms =>
    intro m hm
    refine hv m ?_
    simp only [List.mem_cons] at hm ⊢
    rcases hm with h | h | h
    · exact .inr (.inl h)
    · exact .inl h
    · exact .inr (.inr h)
  | .trans h1 h2 => exact SameMembers.wellFormed h2 (SameMembers.wellFormed h1 hv)

end

theorem insertKey_perm (m : String × Json) (ms : List (String × Json)) : (insertKey m ms).Perm (m :: ms) := by
  induction ms with
  | nil => exact .refl _
  | cons n ms ih =>
    simp only [insertKey]
    split
    · exact .refl _
    · exact (List.Perm.cons n ih).trans (.swap _ _ _)

theorem byKey_perm (ms : List (String × Json)) : (byKey ms).Perm ms := by
  induction ms with
  | nil => exact .refl _
  | cons m ms ih => exact (insertKey_perm m _).trans (.cons m ih)

theorem insertKey_sorted (m : String × Json) {ms : List (String × Json)} (h : ms.Pairwise fun a b => a.1 ≤ b.1) :
    (insertKey m ms).Pairwise fun a b => a.1 ≤ b.1 := by
  induction ms with
  | nil => simp [insertKey]
  | cons n ms ih =>
    obtain ⟨h1, h2⟩ := List.pairwise_cons.mp h
    simp only [insertKey]
    split
    · rename_i hle
      refine List.pairwise_cons.mpr ⟨?_, h⟩
      intro x hx
      rcases List.mem_cons.mp hx with rfl | hx
      · exact hle
      · exact String.le_trans hle (h1 x hx)
    · rename_i hle
      refine List.pairwise_cons.mpr ⟨?_, ih h2⟩
      intro x hx
      rcases List.mem_cons.mp ((insertKey_perm m ms).mem_iff.mp hx) with rfl | hx
      · exact (String.le_total x.1 n.1).resolve_left hle
      · exact h1 x hx

theorem byKey_sorted (ms : List (String × Json)) : (byKey ms).Pairwise fun a b => a.1 ≤ b.1 := by
  induction ms with
  | nil => exact .nil
  | cons m ms ih => exact insertKey_sorted m ih

mutual

theorem same_sortKeys (v : Json) : Same v (sortKeys v) := by
  match v with
  | .null | .bool _ | .int _ | .real _ | .str _ => rw [sortKeys]; exact .refl _
  | .arr vs => rw [sortKeys]; exact .arr (same_sortElems vs)
  | .obj ms => rw [sortKeys]; exact .obj (.trans (same_sortMembers ms) (.of_perm (byKey_perm _).symm))

theorem same_sortElems (vs : List Json) : SameElems vs (sortElems vs) := by
  match vs with
  | [] => rw [sortElems]; exact .nil
  | v :: vs => rw [sortElems]; exact .cons (same_sortKeys v) (same_sortElems vs)

theorem same_sortMember (m : String × Json) : (sortMember m).1 = m.1 ∧ Same m.2 (sortMember m).2 := by
  match m with
  | (k, v) => rw [sortMember]; exact ⟨rfl, same_sortKeys v⟩

theorem same_sortMembers (ms : List (String × Json)) : SameMembers ms (sortMembers ms) := by
  match ms with
  | [] => rw [sortMembers]; exact .nil
  | m :: ms =>
    rw [sortMembers]
    have h := same_sortMember m
    have h2 := same_sortMembers ms
    rw [show sortMember m = (m.1, (sortMember m).2) by rw [← h.1]]
    exact .cons h.2 h2

end

theorem sorted_eq {ms ns : List (String × Json)} (h : ms.Perm ns) (hn : (keys ms).Nodup) : byKey ms = byKey ns := by
  have hp : (byKey ms).Perm (byKey ns) := (byKey_perm _).trans (h.trans (byKey_perm _).symm)
  refine List.Perm.eq_of_pairwise ?_ (byKey_sorted ms) (byKey_sorted ns) hp
  intro a b ha hb h1 h2
  have ha' : a ∈ ms := (byKey_perm _).mem_iff.mp ha
  have hb' : b ∈ ms := h.mem_iff.mpr ((byKey_perm _).mem_iff.mp hb)
  have e := String.le_antisymm h1 h2
  obtain ⟨k, v⟩ := a
  obtain ⟨k', w⟩ := b
  simp only at e
  subst e
  have e1 := lookup_of_mem hn ha'
  have e2 := lookup_of_mem hn hb'
  rw [e1] at e2
  injection e2 with e2
  rw [e2]

theorem sortMembers_keys (ms : List (String × Json)) : (keys ms).Perm (keys (sortMembers ms)) := (same_sortMembers ms).keys_perm

mutual

theorem Same.sorted {v w : Json} (h : Same v w) (hv : WellFormed v) : sortKeys v = sortKeys w := by
  match h with
  | .refl v => rfl
  | .arr h => cases hv with | arr hv => rw [sortKeys, sortKeys, SameElems.sorted h hv]
  | .obj h =>
    cases hv with
    | obj hn hv =>
      rw [sortKeys, sortKeys, sorted_eq (SameMembers.sorted h hv) ((sortMembers_keys _).nodup_iff.mp hn)]

theorem SameElems.sorted {vs ws : List Json} (h : SameElems vs ws) (hv : ∀ v ∈ vs, WellFormed v) : sortElems vs = sortElems ws := by
  match h with
  | .nil => rfl
  | .cons h hs => rw [sortElems, sortElems, Same.sorted h (hv _ (by simp)), SameElems.sorted hs (fun u hu => hv u (by simp [hu]))]

theorem SameMembers.sorted {ms ns : List (String × Json)} (h : SameMembers ms ns) (hv : ∀ m ∈ ms, WellFormed m.2) : (sortMembers ms).Perm (sortMembers ns) := by
  match h with
  | .nil => exact .refl _
  | @SameMembers.cons k v w ms ns h hs =>
    rw [sortMembers, sortMembers, sortMember, sortMember, Same.sorted h (hv (k, v) (by simp))]
    exact .cons _ (SameMembers.sorted hs (fun u hu => hv u (by simp [hu])))
  | .swap a b ms =>
    rw [sortMembers, sortMembers, sortMembers, sortMembers]
    exact .swap _ _ _
  | .trans h1 h2 => exact .trans (SameMembers.sorted h1 hv) (SameMembers.sorted h2 (SameMembers.wellFormed h1 hv))

end

/-! ## Lemmas: characters that are written -/

instance (x : List Char) : Decidable (Printable x) := inferInstanceAs (Decidable (∀ c ∈ x, 32 ≤ c.toNat))

theorem printable_append {x y : List Char} (hx : Printable x) (hy : Printable y) : Printable (x ++ y) := by
  intro c hc
  rcases List.mem_append.mp hc with h | h
  · exact hx c h
  · exact hy c h

theorem printable_cons {c : Char} {x : List Char} (hc : 32 ≤ c.toNat) (hx : Printable x) : Printable (c :: x) := by
  intro d hd
  rcases List.mem_cons.mp hd with rfl | h
  · exact hc
  · exact hx d h

theorem printable_nil : Printable [] := by intro c hc; cases hc

theorem printable_hexDigit {n : Nat} (h : n < 16) : 32 ≤ (hexDigit n).toNat := by
  have : n = 0 ∨ n = 1 ∨ n = 2 ∨ n = 3 ∨ n = 4 ∨ n = 5 ∨ n = 6 ∨ n = 7 ∨ n = 8 ∨ n = 9 ∨ n = 10 ∨ n = 11 ∨ n = 12 ∨ n = 13 ∨ n = 14 ∨ n = 15 := by omega
  rcases this with rfl | rfl | rfl | rfl | rfl | rfl | rfl | rfl | rfl | rfl | rfl | rfl | rfl | rfl | rfl | rfl <;> decide

theorem printable_escape (c : Char) : Printable (escape c) := by
  unfold escape
  split
  · decide
  split
  · decide
  split
  · split
    · decide
    split
    · decide
    split
    · decide
    split
    · decide
    split
    · decide
    · refine printable_cons (by decide) (printable_cons (by decide) ?_)
      intro d hd
      simp only [hex4, List.mem_cons, List.not_mem_nil, or_false] at hd
      rcases hd with rfl | rfl | rfl | rfl <;> exact printable_hexDigit (by omega)
  · exact printable_cons (by omega) printable_nil

theorem printable_dumpString (s : String) : Printable (dumpString s) := by
  refine printable_cons (by decide) (printable_append ?_ (by decide))
  intro c hc
  obtain ⟨d, _, h⟩ := List.mem_flatMap.mp hc
  exact printable_escape d c h

theorem printable_numeric {x : List Char} (h : ∀ c ∈ x, numeric c = true) : Printable x := by
  intro c hc
  have := h c hc
  simp only [numeric, Bool.or_eq_true, decide_eq_true_eq] at this
  rcases this with ((((h | rfl) | rfl) | rfl) | rfl) | rfl
  · simp only [Char.isDigit, Bool.and_eq_true, decide_eq_true_eq] at h
    have : (48 : Nat) ≤ c.toNat := h.1
    omega
  all_goals decide

theorem printable_indent (d : Nat) (s : Bool) : Printable (indent false d s) := by cases s <;> simp [indent, Printable]

mutual

theorem printable_value {f : Reals} (hf : f.Ok) (d : Nat) (v : Json) : Printable (dumpValue f false d v) := by
  match v with
  | .null => rw [dumpValue]; unfold Printable; decide
  | .bool true => rw [dumpValue]; unfold Printable; decide
  | .bool false => rw [dumpValue]; unfold Printable; decide
  | .int i => rw [dumpValue]; exact printable_numeric (integer_dumpInt i).numeric.1
  | .real b => rw [dumpValue]; exact printable_numeric (hf b).1.numeric.1
  | .str s => rw [dumpValue]; exact printable_dumpString s
  | .arr vs =>
    rw [dumpValue]
    split
    · decide
    · exact printable_cons (by decide) (printable_append (printable_append (printable_elems hf (d + 1) true vs) (printable_indent _ _)) (by decide))
  | .obj ms =>
    rw [dumpValue]
    split
    · decide
    · exact printable_cons (by decide) (printable_append (printable_append (printable_members hf (d + 1) true ms) (printable_indent _ _)) (by decide))

theorem printable_elems {f : Reals} (hf : f.Ok) (d : Nat) (first : Bool) (vs : List Json) : Printable (dumpElems f false d first vs) := by
  match vs with
  | [] => rw [dumpElems]; exact printable_nil
  | v :: vs =>
    rw [dumpElems]
    refine printable_append (printable_append (printable_append ?_ (printable_indent _ _)) (printable_value hf d v)) (printable_elems hf d false vs)
    cases first <;> decide

theorem printable_member {f : Reals} (hf : f.Ok) (d : Nat) (m : String × Json) : Printable (dumpMember f false d m) := by
  match m with
  | (k, v) => rw [dumpMember]; exact printable_append (printable_append (printable_dumpString k) (by decide)) (printable_value hf d v)

theorem printable_members {f : Reals} (hf : f.Ok) (d : Nat) (first : Bool) (ms : List (String × Json)) : Printable (dumpMembers f false d first ms) := by
  match ms with
  | [] => rw [dumpMembers]; exact printable_nil
  | m :: ms =>
    rw [dumpMembers]
    refine printable_append (printable_append (printable_append ?_ (printable_indent _ _)) (printable_member hf d m)) (printable_members hf d false ms)
    cases first <;> decide

end

/-! ## Theorems -/

/-- A text stands for one value only. -/
theorem Reads.unique {f : Reals} {text : List Char} {v w : Json} (h : Reads f text v) (h' : Reads f text w) : v = w := by
  obtain ⟨a, x, b, rfl, ha, hx, hb⟩ := h
  obtain ⟨a', y, b', e, ha', hy, hb'⟩ := h'
  obtain ⟨_, e⟩ := blank_unique ha ha' (hx.head_not_blank _) (hy.head_not_blank _) e
  have st : ∀ {l : List Char}, Blank l → Stop l := fun h => by simpa using stop_blank h (r := []) (by intro c hc; cases hc)
  exact (hx.unique hy (st hb) (st hb') e).1

theorem reads_store {f : Reals} (hf : f.Ok) (pretty : Bool) (v : Json) : Reads f (store f pretty v) (sortKeys v) :=
  ⟨[], _, [], by simp [store], blank_nil, value_dump hf pretty 0 (sortKeys v), blank_nil⟩

/-- **C98.** What is written is a JSON text, and stands for the value that has been passed. -/
theorem C98_reads {f : Reals} (hf : f.Ok) (pretty : Bool) (v : Json) : ∃ w, Reads f (store f pretty v) w ∧ Same v w :=
  ⟨sortKeys v, reads_store hf pretty v, same_sortKeys v⟩

/-- **C98.** It does not stand for anything else: whoever reads it according to the standard gets that value. -/
theorem C98_only {f : Reals} (hf : f.Ok) {pretty : Bool} {v w : Json} (h : Reads f (store f pretty v) w) : Same v w := by
  rw [h.unique (reads_store hf pretty v)]
  exact same_sortKeys v

/-- **C98.** The value that is read has each key once, if this holds for the value that has been passed; so it does not matter what is done about duplicates. -/
theorem C98_keys {f : Reals} (hf : f.Ok) {pretty : Bool} {v w : Json} (hv : WellFormed v) (h : Reads f (store f pretty v) w) : WellFormed w :=
  (C98_only hf h).wellFormed hv

/-- **C98.** Different values lead to different texts. -/
theorem C98_injective {f : Reals} (hf : f.Ok) {pretty : Bool} {v w : Json} (h : store f pretty v = store f pretty w) : Same v w :=
  C98_only hf (h ▸ reads_store hf pretty w) |>.trans (same_sortKeys w).symm

/-- **C98.** The text depends on the value only, and not on the order in which members have been added. -/
theorem C98_canonical (f : Reals) (pretty : Bool) {v w : Json} (hv : WellFormed v) (h : Same v w) : store f pretty v = store f pretty w := by
  rw [store, store, h.sorted hv]

/-- **C98.** The layout makes no difference for the reader. -/
theorem C98_layout {f : Reals} (hf : f.Ok) (v w : Json) : Reads f (store f true v) w ↔ Reads f (store f false v) w := by
  constructor <;> intro h
  · rw [h.unique (reads_store hf true v)]; exact reads_store hf false v
  · rw [h.unique (reads_store hf false v)]; exact reads_store hf true v

/-- **C98.** Without layout, the text has no control characters, whatever is in the strings. In particular it contains neither a zero, which would end an argument
of a process, nor a line break. -/
theorem C98_printable {f : Reals} (hf : f.Ok) (v : Json) : Printable (store f false v) := printable_value hf 0 _

/-! ## Examples -/

namespace Examples

/-- Numbers with a zero after the point. -/
def reals : Reals where
  print b := Nat.toDigits 10 b ++ ['.', '0']
  read x := Nat.ofDigitChars 10 (x.take (x.length - 2)) 0

theorem reals_ok : reals.Ok := by
  intro b
  refine ⟨⟨_, _, ['.', '0'], [], by simp [reals], .nonneg (digits_toDigits b), .inl ⟨⟨['0'], rfl, by simp, by decide⟩, rfl⟩⟩, ?_⟩
  simp [reals]

/-- A value with a string that contains characters which have to be escaped. -/
def value : Json := .obj [("targets", .arr [.str "a\"b\\c\n", .str "d\x01"]), ("deps", .obj []), ("id", .int (-10)), ("flags", .arr [.null, .bool true])]

example : store reals false value =
    "{\"deps\": {}, \"flags\": [null, true], \"id\": -10, \"targets\": [\"a\\\"b\\\\c\\n\", \"d\\u0001\"]}".toList := by decide +kernel

example : store reals true (.obj [("b", .arr [.int 1, .obj []]), ("a", .arr [])]) =
    "{\n    \"a\": [],\n    \"b\": [\n        1,\n        {}\n    ]\n}".toList := by decide +kernel

/-- Other texts stand for values, too. -/
example : Reads reals " [ \"\\u0041\\ud83d\\ude00\" , -0 ]\n".toList (.arr [.str "A😀", .int 0]) := by
  refine ⟨[' '], "[ \"\\u0041\\ud83d\\ude00\" , -0 ]".toList, ['\n'], by decide, by simp [Blank], ?_, by simp [Blank]⟩
  refine .arr (x := " \"\\u0041\\ud83d\\ude00\" , -0 ".toList) ?_
  have body : Body "\\u0041\\ud83d\\ude00".toList "A😀".toList := by
    refine .code (u := "0041".toList) ⟨_, _, _, _, 0, 0, 4, 1, rfl, by decide, by decide, by decide, by decide, by decide⟩ ?_
    exact .pair (u := "d83d".toList) (v := "de00".toList) (m := 0xd83d) (n := 0xde00)
      ⟨_, _, _, _, 13, 8, 3, 13, rfl, by decide, by decide, by decide, by decide, by decide⟩ (by decide)
      ⟨_, _, _, _, 13, 14, 0, 0, rfl, by decide, by decide, by decide, by decide, by decide⟩ (by decide) (by decide) .nil
  refine .more (w := [' ']) (w' := [' ']) (x := "\"\\u0041\\ud83d\\ude00\"".toList) (y := " -0 ".toList) (by simp [Blank]) (.str body) (by simp [Blank]) ?_
  refine .last (w := [' ']) (w' := [' ']) (x := "-0".toList) (by simp [Blank]) (.int ?_) (by simp [Blank])
  have : Digits ['0'] 0 := ⟨by simp, by decide, by decide, rfl⟩
  exact .neg this

example : ∃ w, Reads reals (store reals false value) w ∧ Same value w := C98_reads reals_ok false value

end Examples

end Maike.Kvs.JsonText
