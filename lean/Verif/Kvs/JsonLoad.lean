import Verif.Kvs.Model

/-!
# Reading JSON from a stream (C73)

core/key_value_store/json_handle.cpp. The decoder is jansson's `json_load_callback`; it is a parameter here.
-/

namespace Maike.Kvs.JsonLoad

/-! ## Model -/

/-- The bytes after which `ReadHelper::fetch` returns, core/key_value_store/json_handle.cpp:51. -/
def isStop (c : UInt8) : Bool := c = '}'.toUInt8 || c = ']'.toUInt8 || c = ' '.toUInt8

/-- The condition in `hasNonWhitespace`, core/key_value_store/json_handle.cpp:23-29. `char` is signed, so bytes from 128 on are less
than zero. -/
def isBlank (c : UInt8) : Bool := c.toNat < 128 && c.toNat ≤ 32

/-- The loop in `ReadHelper::fetch`, core/key_value_store/json_handle.cpp:38-52. `buf` has been written already; the input is what `getchar` is going
to return, see `Io/Buffers.lean`. At the end of the input, zero is returned and what has been written is lost. -/
def fetchLoop (n : Nat) : List UInt8 → List UInt8 → List UInt8 × List UInt8
  | buf, input =>
    if buf.length = n then (buf, input)
    else
      match input with
      | [] => ([], [])
      | c :: input => if isStop c then (buf ++ [c], input) else fetchLoop n (buf ++ [c]) input
termination_by _ input => input.length

/-- `ReadHelper::fetch`, core/key_value_store/json_handle.cpp:38-57. -/
def fetch (n : Nat) (input : List UInt8) : List UInt8 × List UInt8 := fetchLoop n [] input

/-- A decoder. After each block of bytes it has either finished, with a value or with an error, or needs more; and `atEnd` tells what it does when there
is no more. `json_load_callback` asks for bytes until the value is complete: `JSON_DISABLE_EOF_CHECK`, core/key_value_store/json_handle.cpp:83. -/
structure Decoder (V : Type) where
  decide : List UInt8 → Option (Option V)
  atEnd : List UInt8 → Option V

/-- How `jsonLoad` ends. -/
inductive Outcome (V : Type) where
  | value (v : V)
  /-- a handle without a value; this is treated like an object without members -/
  | nothing
  /-- exception `DecodeError` -/
  | error
deriving DecidableEq

/-- Lines 87-90 of core/key_value_store/json_handle.cpp. -/
def finish {V : Type} (r : Option V) (hasData : Bool) : Outcome V :=
  match r with
  | some v => .value v
  | none => if hasData then .error else .nothing

/-- `json_load_callback` calling `fetch`. `text` has been passed to the decoder already. -/
def loadLoop {V : Type} (d : Decoder V) (n : Nat) : Nat → List UInt8 → List UInt8 → Bool → Outcome V
  | 0, text, _, hasData => finish (d.atEnd text) hasData
  | fuel + 1, text, input, hasData =>
    match d.decide text with
    | some r => finish r hasData
    | none =>
      let (block, rest) := fetch n input
      if block = [] then finish (d.atEnd text) hasData
      else loadLoop d n fuel (text ++ block) rest (hasData || block.any fun c => !isBlank c)

/-- `jsonLoad`, core/key_value_store/json_handle.cpp:71-91; `n` is the size of jansson's buffer. The input gets shorter with each block, so its length
is enough fuel. -/
def jsonLoad {V : Type} (d : Decoder V) (n : Nat) (input : List UInt8) : Outcome V := loadLoop d n (input.length + 1) [] input false

/-! ## Specification -/

/-- What is assumed about the decoder: it does not change its mind, and does not complain about blanks. -/
structure Decoder.Ok {V : Type} (d : Decoder V) : Prop where
  prefix_ : ∀ a b r, d.decide a = some r → d.decide (a ++ b) = some r
  blank : ∀ a, (∀ c ∈ a, isBlank c = true) → d.decide a = none

/-! ## Lemmas -/

variable {V : Type}

/-- What `fetch` does: it passes on the beginning of the input, unless there are less than `n` bytes, none of them a closing bracket
or space. -/
theorem fetchLoop_spec (n : Nat) (buf input : List UInt8) (hb : buf.length ≤ n) :
    ((fetchLoop n buf input).1 = [] ∧ buf.length + input.length < n ∧ ∀ c ∈ input, isStop c = false) ∨
    (buf ++ input = (fetchLoop n buf input).1 ++ (fetchLoop n buf input).2 ∧ buf <+: (fetchLoop n buf input).1 ∧
      (buf.length < n → buf.length < (fetchLoop n buf input).1.length)) := by
  induction input generalizing buf with
  | nil =>
    unfold fetchLoop
    split
    · right; exact ⟨rfl, List.prefix_refl _, fun h => by omega⟩
    · left; exact ⟨rfl, by simp; omega, by simp⟩
  | cons c input ih =>
    unfold fetchLoop
    split
    · right; exact ⟨rfl, List.prefix_refl _, fun h => by omega⟩
    · rename_i hne
      simp only
      split
      · right
        exact ⟨by simp, List.prefix_append _ _, fun _ => by simp⟩
      · rename_i hc
        rcases ih (buf ++ [c]) (by simp; omega) with ⟨h1, h2, h3⟩ | ⟨h1, h2, h3⟩
        · left
          refine ⟨h1, by simp at h2 ⊢; omega, ?_⟩
          intro x hx
          rcases List.mem_cons.mp hx with rfl | hx
          · simpa using hc
          · exact h3 x hx
        · right
          refine ⟨by rw [← h1]; simp, (List.prefix_append _ _).trans h2, fun _ => ?_⟩
          have := h2.length_le
          simp at this
          omega

theorem fetch_spec (n : Nat) (hn : 0 < n) (input : List UInt8) :
    ((fetch n input).1 = [] ∧ input.length < n ∧ ∀ c ∈ input, isStop c = false) ∨
    (input = (fetch n input).1 ++ (fetch n input).2 ∧ (fetch n input).1 ≠ []) := by
  rcases fetchLoop_spec n [] input (by simp) with ⟨h1, h2, h3⟩ | ⟨h1, _, h3⟩
  · left; exact ⟨h1, by simpa using h2, h3⟩
  · right
    refine ⟨h1, ?_⟩
    intro e
    have := h3 (by simpa using hn)
    rw [show fetchLoop n [] input = fetch n input from rfl, e] at this
    simp at this

/-- The loop, in terms of the whole text: either the decoder decides, after a block, or it gets everything but a
remainder without closing brackets and spaces. -/
theorem loadLoop_spec (d : Decoder V) (n : Nat) (hn : 0 < n) (fuel : Nat) (text input : List UInt8) (hf : input.length < fuel) :
    ∃ a b, input = a ++ b ∧
      ((∃ r, d.decide (text ++ a) = some r ∧
          ∀ hasData, loadLoop d n fuel text input hasData = finish r (hasData || a.any fun c => !isBlank c)) ∨
       (b.length < n ∧ (∀ c ∈ b, isStop c = false) ∧ d.decide (text ++ a) = none ∧
          ∀ hasData, loadLoop d n fuel text input hasData = finish (d.atEnd (text ++ a)) (hasData || a.any fun c => !isBlank c))) := by
  induction fuel generalizing text input with
  | zero => omega
  | succ fuel ih =>
    cases hd : d.decide text with
    | some r =>
      refine ⟨[], input, rfl, .inl ⟨r, by simpa using hd, ?_⟩⟩
      intro hasData
      simp [loadLoop, hd]
    | none =>
      rcases fetch_spec n hn input with ⟨h1, h2, h3⟩ | ⟨h1, h2⟩
      · refine ⟨[], input, rfl, .inr ⟨h2, h3, by simpa using hd, ?_⟩⟩
        intro hasData
        simp [loadLoop, hd, h1]
      · rcases hx : fetch n input with ⟨block, rest⟩
        rw [hx] at h1 h2
        simp only at h1 h2
        have hlen : rest.length < fuel := by
          have := congrArg List.length h1
          have : 0 < block.length := List.length_pos_iff.mpr h2
          simp at *
          omega
        obtain ⟨a, b, hab, h⟩ := ih (text ++ block) rest hlen
        have hloop : ∀ hasData, loadLoop d n (fuel + 1) text input hasData =
            loadLoop d n fuel (text ++ block) rest (hasData || block.any fun c => !isBlank c) := by
          intro hasData
          simp [loadLoop, hd, hx, h2]
        refine ⟨block ++ a, b, by rw [h1, hab, List.append_assoc], ?_⟩
        rcases h with ⟨r, h3, h4⟩ | ⟨h3, h4, h5, h6⟩
        · left
          refine ⟨r, by rw [← List.append_assoc]; exact h3, ?_⟩
          intro hasData
          rw [hloop, h4, List.any_append, Bool.or_assoc]
        · right
          refine ⟨h3, h4, by rw [← List.append_assoc]; exact h5, ?_⟩
          intro hasData
          rw [hloop, h6, List.any_append, Bool.or_assoc, List.append_assoc]

/-- If the decoder decides on a beginning of the text, then it decides the same on every longer one. -/
theorem decide_unique (d : Decoder V) (hd : d.Ok) {a b a' b' : List UInt8} {r r' : Option V} (he : a ++ b = a' ++ b')
    (h : d.decide a = some r) (h' : d.decide a' = some r') : r = r' := by
  have h1 := hd.prefix_ a b r h
  have h2 := hd.prefix_ a' b' r' h'
  rw [he, h2] at h1
  injection h1 with h1
  exact h1.symm

/-! ## C73 -/

theorem document (d : Decoder V) (hd : d.Ok) (n : Nat) (hn : 0 < n) (doc rest : List UInt8) (r : Option V)
    (hdoc : d.decide doc = some r) (hend : ∃ c, doc.getLast? = some c ∧ isStop c = true) :
    jsonLoad d n (doc ++ rest) = finish r true := by
  obtain ⟨a, b, hab, h⟩ := loadLoop_spec d n hn ((doc ++ rest).length + 1) [] (doc ++ rest) (by omega)
  rcases h with ⟨r', h1, h2⟩ | ⟨h1, h2, h3, h4⟩
  · simp only [List.nil_append] at h1
    have := decide_unique d hd hab hdoc h1
    subst this
    unfold jsonLoad
    rw [h2]
    cases r with
    | some v => simp [finish]
    | none =>
      have : (a.any fun c => !isBlank c) = true := by
        rw [List.any_eq_true]
        apply Classical.byContradiction
        intro hno
        have := hd.blank a (fun c hc => by
          cases hb : isBlank c
          · exact absurd ⟨c, hc, by simp [hb]⟩ hno
          · rfl)
        rw [this] at h1
        cases h1
      simp [finish, this]
  · -- the document is part of what has been passed on
    exfalso
    simp only [List.nil_append] at h3
    obtain ⟨c, hc, hs⟩ := hend
    rcases List.append_eq_append_iff.mp hab with ⟨x, e1, e2⟩ | ⟨x, e1, e2⟩
    · rw [e1, hd.prefix_ doc x r hdoc] at h3; cases h3
    · rcases List.eq_nil_or_concat x with rfl | ⟨l, y, rfl⟩
      · rw [List.append_nil] at e1
        rw [← e1, hdoc] at h3; cases h3
      · rw [List.concat_eq_append] at e1 e2
        rw [e1] at hc
        simp only [List.getLast?_append, List.getLast?_singleton, Option.some_or, Option.some.injEq] at hc
        have := h2 y (by rw [e2]; simp)
        rw [hc, hs] at this
        cases this

/-- C73: A document that ends with a closing bracket is decoded, whatever follows, and whatever the size of the buffer is. -/
theorem C73_document (d : Decoder V) (hd : d.Ok) (n : Nat) (hn : 0 < n) (doc rest : List UInt8) (v : V) (hdoc : d.decide doc = some (some v))
    (hend : doc.getLast? = some '}'.toUInt8 ∨ doc.getLast? = some ']'.toUInt8) : jsonLoad d n (doc ++ rest) = .value v :=
  document d hd n hn doc rest _ hdoc (by rcases hend with h | h <;> exact ⟨_, h, by decide⟩)

/-- C73: If the decoder rejects a text that ends with a closing bracket or a space, then this is reported. -/
theorem C73_malformed (d : Decoder V) (hd : d.Ok) (n : Nat) (hn : 0 < n) (doc rest : List UInt8) (hdoc : d.decide doc = some none)
    (hend : ∃ c, doc.getLast? = some c ∧ (c = '}'.toUInt8 ∨ c = ']'.toUInt8 ∨ c = ' '.toUInt8)) : jsonLoad d n (doc ++ rest) = .error :=
  document d hd n hn doc rest _ hdoc (by obtain ⟨c, h, rfl | rfl | rfl⟩ := hend <;> exact ⟨_, h, by decide⟩)

/-- C73: A text without any value: if there is nothing but blanks, then no error is reported. -/
theorem C73_blank (d : Decoder V) (hd : d.Ok) (hend : ∀ a, (∀ c ∈ a, isBlank c = true) → d.atEnd a = none) (n : Nat) (hn : 0 < n)
    (text : List UInt8) (h : ∀ c ∈ text, isBlank c = true) : jsonLoad d n text = .nothing := by
  obtain ⟨a, b, hab, hx⟩ := loadLoop_spec d n hn (text.length + 1) [] text (by omega)
  have ha : ∀ c ∈ a, isBlank c = true := fun c hc => h c (by rw [hab]; simp [hc])
  rcases hx with ⟨r, h1, _⟩ | ⟨_, _, _, h4⟩
  · simp only [List.nil_append] at h1
    rw [hd.blank a ha] at h1; cases h1
  · unfold jsonLoad
    rw [h4, List.nil_append, hend a ha]
    have : (a.any fun c => !isBlank c) = false := by
      rw [Bool.eq_false_iff]
      intro e
      obtain ⟨c, hc, hb⟩ := List.any_eq_true.mp e
      rw [ha c hc] at hb; cases hb
    simp [finish, this]

/-- C73: A text that breaks off is reported, if a bracket or a space follows some byte that is not blank. -/
theorem C73_truncated (d : Decoder V) (hd : d.Ok) (n : Nat) (hn : 0 < n) (pre post : List UInt8) (c s : UInt8) (mid : List UInt8)
    (hc : isBlank c = false) (hs : s = '}'.toUInt8 ∨ s = ']'.toUInt8 ∨ s = ' '.toUInt8)
    (hnone : ∀ a b v, pre ++ c :: mid ++ s :: post = a ++ b → d.decide a ≠ some (some v) ∧ d.atEnd a ≠ some v) :
    jsonLoad d n (pre ++ c :: mid ++ s :: post) = .error := by
  have hs : isStop s = true := by rcases hs with rfl | rfl | rfl <;> decide
  obtain ⟨a, b, hab, hx⟩ := loadLoop_spec d n hn ((pre ++ c :: mid ++ s :: post).length + 1) [] (pre ++ c :: mid ++ s :: post) (by omega)
  rcases hx with ⟨r, h1, h2⟩ | ⟨h1, h2, h3, h4⟩
  · simp only [List.nil_append] at h1
    cases r with
    | some v => exact absurd h1 (hnone a b v hab).1
    | none =>
      unfold jsonLoad
      rw [h2]
      have : (a.any fun c => !isBlank c) = true := by
        rw [List.any_eq_true]
        apply Classical.byContradiction
        intro hno
        have := hd.blank a (fun c hc => by
          cases hb : isBlank c
          · exact absurd ⟨c, hc, by simp [hb]⟩ hno
          · rfl)
        rw [this] at h1
        cases h1
      simp [finish, this]
  · unfold jsonLoad
    rw [h4, List.nil_append]
    have hin : c ∈ a := by
      rcases List.append_eq_append_iff.mp hab with ⟨x, e1, e2⟩ | ⟨x, e1, e2⟩
      · rw [e1]; simp
      · cases x with
        | nil => rw [List.append_nil] at e1; rw [← e1]; simp
        | cons y l =>
          have := h2 s (by rw [e2]; simp)
          rw [hs] at this
          cases this
    have hany : (a.any fun c => !isBlank c) = true := List.any_eq_true.mpr ⟨c, hin, by simp [hc]⟩
    cases he : d.atEnd a with
    | some v => exact absurd he (hnone a b v hab).2
    | none => simp [finish, hany]

/-- C73: A text without closing brackets and spaces that fits into the buffer is ignored, even if it is not blank; so is a document which is a
single number or a string without spaces. -/
theorem C73_ignored (d : Decoder V) (hd : d.Ok) (hend : d.atEnd [] = none) (n : Nat) (text : List UInt8) (hlen : text.length < n)
    (h : ∀ c ∈ text, isStop c = false) : jsonLoad d n text = .nothing := by
  rcases fetch_spec n (by omega) text with ⟨h1, _, _⟩ | ⟨h1, h2⟩
  · unfold jsonLoad
    have : d.decide [] = none := hd.blank [] (by simp)
    simp [loadLoop, this, h1, hend, finish]
  · exfalso
    have key : ∀ (buf input : List UInt8), buf.length + input.length < n → (∀ c ∈ input, isStop c = false) →
        (fetchLoop n buf input).1 = [] := by
      intro buf input
      induction input generalizing buf with
      | nil => intro h _; unfold fetchLoop; rw [if_neg (by simp at h; omega)]
      | cons c input ih =>
        intro h hs
        unfold fetchLoop
        rw [if_neg (by simp at h; omega)]
        simp only [hs c (by simp), Bool.false_eq_true, if_false]
        exact ih _ (by simp at h ⊢; omega) (fun x hx => hs x (by simp [hx]))
    exact h2 (key [] text (by simpa using hlen) h)

/-! ## Examples -/

/-- A decoder for documents of the form `{…}`, without nesting, where blanks may come first. -/
def braces : Decoder (List UInt8) where
  decide t :=
    match t.dropWhile isBlank with
    | [] => none
    | c :: l => if c = '{'.toUInt8 then (if '}'.toUInt8 ∈ l then some (some (l.takeWhile (· ≠ '}'.toUInt8))) else none) else some none
  atEnd _ := none

theorem takeWhile_append_mem (l b : List UInt8) (x : UInt8) (h : x ∈ l) : (l ++ b).takeWhile (· ≠ x) = l.takeWhile (· ≠ x) := by
  induction l with
  | nil => cases h
  | cons c l ih =>
    simp only [List.cons_append, List.takeWhile_cons]
    by_cases e : c = x
    · simp [e]
    · rw [ih (by rcases List.mem_cons.mp h with h | h; exact absurd h.symm e; exact h)]

theorem braces_ok : braces.Ok := by
  constructor
  · intro a b r h
    unfold braces at h ⊢
    simp only at h ⊢
    cases hd : a.dropWhile isBlank with
    | nil => rw [hd] at h; cases h
    | cons c l =>
      have : (a ++ b).dropWhile isBlank = c :: (l ++ b) := by
        rw [List.dropWhile_append, hd]; rfl
      rw [hd] at h
      rw [this]
      simp only at h ⊢
      split at h
      · rename_i hc
        split at h
        · rename_i hm
          rw [if_pos hc, if_pos (List.mem_append_left _ hm), takeWhile_append_mem _ _ _ hm]
          exact h
        · cases h
      · rename_i hc
        rw [if_neg hc]; exact h
  · intro a h
    have : a.dropWhile isBlank = [] := by
      induction a with
      | nil => rfl
      | cons c l ih => rw [List.dropWhile_cons, if_pos (h c (by simp)), ih (fun x hx => h x (by simp [hx]))]
    simp [braces, this]

/-- The bytes of a text. -/
def bytes (s : List Char) : List UInt8 := s.map Char.toUInt8

example : jsonLoad braces 1024 (bytes ['\n', '{', 'a', ' ', 'b', '}', '\n']) = .value (bytes ['a', ' ', 'b']) :=
  C73_document braces braces_ok 1024 (by decide) (bytes ['\n', '{', 'a', ' ', 'b', '}']) (bytes ['\n'])
    (bytes ['a', ' ', 'b']) (by decide) (by decide)

example : jsonLoad braces 4 (bytes ['x', 'y', 'z', 'w', 'v', ' ']) = .error :=
  C73_malformed braces braces_ok 4 (by decide) (bytes ['x', 'y', 'z', 'w', 'v', ' ']) [] (by decide) ⟨_, rfl, by decide⟩

example : jsonLoad braces 1024 (bytes ['{', '"', 'a', '"', ':', '[', '1', ']']) = .error :=
  C73_truncated braces braces_ok 1024 (by decide) [] [] '{'.toUInt8 ']'.toUInt8 (bytes ['"', 'a', '"', ':', '[', '1']) (by decide) (by decide) (by
    intro a b v h
    refine ⟨?_, by simp [braces]⟩
    intro he
    have := braces_ok.prefix_ a b _ he
    rw [← h] at this
    rw [show braces.decide _ = none by decide] at this
    cases this)

example : jsonLoad braces 1024 (bytes ['\n', '\n']) = .nothing := C73_blank braces braces_ok (fun _ _ => rfl) 1024 (by decide) _ (by decide)

/-- Malformed tags that are ignored. -/
example : jsonLoad braces 1024 (bytes ['t', 'a', 'r', 'g', 'e', 't', '\n']) = .nothing :=
  C73_ignored braces braces_ok rfl 1024 _ (by decide) (by decide)

end Maike.Kvs.JsonLoad
