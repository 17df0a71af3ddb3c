import Verif.Kvs.JsonTextUses
import Verif.Kvs.RecipeOutput

/-!
# JSON documents in files and in the output of recipes (C100)

In `JsonLoad.lean`, the decoder is a parameter. Here, it is assumed to follow RFC 8259 (see the grammar in `JsonText.lean`), as jansson does apart from the limits
given by `Fits`, and documents are sequences of bytes in UTF-8.
-/

namespace Maike.Kvs.JsonText

open JsonLoad

/-! ## Specification -/

/-- The bytes of a text. -/
def utf8 (x : List Char) : List UInt8 := x.flatMap String.utf8EncodeChar

/-- What jansson accepts with the flags `JSON_DISABLE_EOF_CHECK`, `JSON_DECODE_ANY` and `JSON_REJECT_DUPLICATES`, core/key_value_store/json_handle.cpp:75-85, beyond the
grammar: integers are in the range of `json_int_t`, there is no zero in strings, keys are different, and values are not nested deeper than a given depth. -/
inductive Fits : Nat → Json → Prop where
  | null {d : Nat} : Fits (d + 1) .null
  | bool {d : Nat} (b : Bool) : Fits (d + 1) (.bool b)
  | int {d : Nat} {i : Int} (h : -9223372036854775808 ≤ i ∧ i ≤ 9223372036854775807) : Fits (d + 1) (.int i)
  | real {d : Nat} (b : Nat) : Fits (d + 1) (.real b)
  | str {d : Nat} {s : String} (h : Char.ofNat 0 ∉ s.toList) : Fits (d + 1) (.str s)
  | arr {d : Nat} {vs : List Json} (h : ∀ v ∈ vs, Fits d v) : Fits (d + 1) (.arr vs)
  | obj {d : Nat} {ms : List (String × Json)} (hn : (ms.map Prod.fst).Nodup) (hk : ∀ m ∈ ms, Char.ofNat 0 ∉ m.1.toList) (h : ∀ m ∈ ms, Fits d m.2) :
      Fits (d + 1) (.obj ms)

/-- `JSON_PARSER_MAX_DEPTH` -/
def maxDepth : Nat := 2048

/-- An array or an object. -/
def Composite (v : Json) : Prop := (∃ vs, v = .arr vs) ∨ ∃ ms, v = .obj ms

/-- The decoder follows the standard: a document is decoded when its last byte has been passed. -/
structure Standard (f : Reals) (d : Decoder Json) : Prop where
  ok : d.Ok
  value : ∀ w x v, Blank w → Value f x v → Composite v → Fits maxDepth v → d.decide (utf8 (w ++ x)) = some (some v)
  fits : ∀ t v, d.decide t = some (some v) ∨ d.atEnd t = some v → Fits maxDepth v

/-! ## Lemmas -/

theorem utf8_append (x y : List Char) : utf8 (x ++ y) = utf8 x ++ utf8 y := List.flatMap_append

theorem Value.last {f : Reals} {x : List Char} {v : Json} (h : Value f x v) (hc : Composite v) : ∃ y, x = y ++ ['}'] ∨ x = y ++ [']'] := by
  rcases hc with ⟨vs, rfl⟩ | ⟨ms, rfl⟩
  · cases h with
    | empty => exact ⟨'[' :: _, .inr rfl⟩
    | arr => exact ⟨'[' :: _, .inr rfl⟩
  · cases h with
    | void => exact ⟨'{' :: _, .inl rfl⟩
    | obj => exact ⟨'{' :: _, .inl rfl⟩

theorem utf8_last {f : Reals} {w x : List Char} {v : Json} (h : Value f x v) (hc : Composite v) :
    (utf8 (w ++ x)).getLast? = some '}'.toUInt8 ∨ (utf8 (w ++ x)).getLast? = some ']'.toUInt8 := by
  obtain ⟨y, rfl | rfl⟩ := h.last hc
  · left
    rw [← List.append_assoc, utf8_append, show utf8 ['}'] = ['}'.toUInt8] by decide, List.getLast?_append]
    rfl
  · right
    rw [← List.append_assoc, utf8_append, show utf8 [']'] = [']'.toUInt8] by decide, List.getLast?_append]
    rfl

theorem Fits.pos {d : Nat} {v : Json} (h : Fits d v) : ∃ e, d = e + 1 := by
  cases h <;> exact ⟨_, rfl⟩

mutual

theorem Same.fits {v w : Json} (h : Same v w) {d : Nat} (hv : Fits d v) : Fits d w := by
  match h with
  | .refl v => exact hv
  | .arr h => cases hv with | arr hv => exact .arr (SameElems.fits h hv)
  | .obj h =>
    cases hv with
    | obj hn hk hv =>
      refine .obj (h.keys_perm.nodup_iff.mp hn) ?_ (SameMembers.fits h hv)
      intro m hm
      have : m.1 ∈ keys _ := h.keys_perm.mem_iff.mpr (List.mem_map.mpr ⟨m, hm, rfl⟩)
      obtain ⟨m', hm', e⟩ := List.mem_map.mp this
      rw [← e]; exact hk m' hm'

theorem SameElems.fits {vs ws : List Json} (h : SameElems vs ws) {d : Nat} (hv : ∀ v ∈ vs, Fits d v) : ∀ v ∈ ws, Fits d v := by
  match h with
  | .nil => exact hv
  | .cons h hs =>
    intro v hm
    rcases List.mem_cons.mp hm with e | hm
    · rw [e]; exact Same.fits h (hv _ (by simp))
    · exact SameElems.fits hs (fun u hu => hv u (by simp [hu])) v hm

theorem SameMembers.fits {ms ns : List (String × Json)} (h : SameMembers ms ns) {d : Nat} (hv : ∀ m ∈ ms, Fits d m.2) : ∀ m ∈ ns, Fits d m.2 := by
  match h with
  | .nil => exact hv
  | @SameMembers.cons k v w ms ns h hs =>
    intro u hm
    rcases List.mem_cons.mp hm with e | hm
    · rw [e]; exact Same.fits h (hv (k, v) (by simp))
    · exact SameMembers.fits hs (fun u hu => hv u (by simp [hu])) u hm
  | .swap a b ms =>
    intro m hm
    refine hv m ?_
    simp only [List.mem_cons] at hm ⊢
    rcases hm with h | h | h
    · exact .inr (.inl h)
    · exact .inl h
    · exact .inr (.inr h)
  | .trans h1 h2 => exact SameMembers.fits h2 (SameMembers.fits h1 hv)

end

theorem Same.composite {v w : Json} (h : Same v w) (hc : Composite v) : Composite w := by
  cases h with
  | refl => exact hc
  | arr => exact .inl ⟨_, rfl⟩
  | obj => exact .inr ⟨_, rfl⟩

theorem loadLoop_value {V : Type} {P : V → Prop} {d : Decoder V} (hd : ∀ t v, d.decide t = some (some v) ∨ d.atEnd t = some v → P v) {n fuel : Nat}
    {text input : List UInt8} {b : Bool} {v : V} (h : loadLoop d n fuel text input b = .value v) : P v := by
  have hf : ∀ {r : Option V} {b : Bool}, finish r b = .value v → r = some v := by
    intro r b h
    cases r with
    | none => cases b <;> simp [finish] at h
    | some w => simp only [finish, Outcome.value.injEq] at h; rw [h]
  induction fuel generalizing text input b with
  | zero => exact hd text v (.inr (hf h))
  | succ fuel ih =>
    simp only [loadLoop] at h
    cases e : d.decide text with
    | some r =>
      simp only [e] at h
      exact hd text v (.inl (by rw [e, hf h]))
    | none =>
      simp only [e] at h
      split at h
      · exact hd text v (.inr (hf h))
      · exact ih h

/-! ## Theorems -/

/-- **C100.** A document that stands for an array or an object is loaded as this value, whatever blanks come first, whatever follows, and whatever the size of the
buffer is. -/
theorem C100_document {f : Reals} {d : Decoder Json} (hd : Standard f d) {n : Nat} (hn : 0 < n) {w x : List Char} {v : Json} (hw : Blank w) (hx : Value f x v)
    (hc : Composite v) (hv : Fits maxDepth v) (rest : List UInt8) : jsonLoad d n (utf8 (w ++ x) ++ rest) = .value v :=
  C73_document d hd.ok n hn _ rest v (hd.value w x v hw hx hc hv) (utf8_last hx hc)

/-- **C100.** What has been written by `store` is loaded as the same value. -/
theorem C100_roundTrip {f : Reals} (hf : f.Ok) {d : Decoder Json} (hd : Standard f d) {n : Nat} (hn : 0 < n) {v : Json} (hc : Composite v) (hv : Fits maxDepth v)
    (pretty : Bool) (rest : List UInt8) : ∃ w, jsonLoad d n (utf8 (store f pretty v) ++ rest) = .value w ∧ Same v w := by
  have hs := same_sortKeys v
  exact ⟨sortKeys v, C100_document hd hn (w := []) blank_nil (value_dump hf pretty 0 (sortKeys v)) (hs.composite hc) (hs.fits hv) rest, hs⟩

/-- **C100.** A document of at most 4096 bytes that is printed by a recipe is loaded as the value it stands for; longer output is subject to C74. -/
theorem C100_output {f : Reals} {d : Decoder Json} (hd : Standard f d) {n : Nat} (hn : 0 < n) {w x : List Char} {v : Json} (hw : Blank w) (hx : Value f x v)
    (hc : Composite v) (hv : Fits maxDepth v) (hlen : (utf8 (w ++ x)).length ≤ 4096) (rest : List UInt8) :
    ∃ steps, readOutput d n (utf8 (w ++ x) ++ rest) steps = some (.value v) :=
  C74_short_partial d hd.ok n hn _ rest _ (hd.value w x v hw hx hc hv) (utf8_last hx hc) hlen

/-! ## Examples: there is such a decoder -/

namespace Examples

theorem utf8_cons_inj {c e : Char} {r r' : List UInt8} (h : String.utf8EncodeChar c ++ r = String.utf8EncodeChar e ++ r') : c = e ∧ r = r' := by
  have h1 := ByteArray.utf8DecodeChar?_utf8EncodeChar_append (b := r.toByteArray) (c := c)
  have h2 := ByteArray.utf8DecodeChar?_utf8EncodeChar_append (b := r'.toByteArray) (c := e)
  rw [← List.toByteArray_append, h, List.toByteArray_append, h2] at h1
  simp only [Option.some.injEq] at h1
  subst h1
  exact ⟨rfl, List.append_cancel_left h⟩

/-- One of two texts continues the other one if this holds for their bytes. -/
theorem utf8_prefix {x y : List Char} {r r' : List UInt8} (h : utf8 x ++ r = utf8 y ++ r') : (∃ z, x = y ++ z) ∨ ∃ z, y = x ++ z := by
  induction x generalizing y with
  | nil => exact .inr ⟨y, rfl⟩
  | cons c x ih =>
    cases y with
    | nil => exact .inl ⟨c :: x, rfl⟩
    | cons e y =>
      simp only [utf8, List.flatMap_cons, List.append_assoc] at h
      obtain ⟨rfl, h'⟩ := utf8_cons_inj h
      rcases ih h' with ⟨z, rfl⟩ | ⟨z, rfl⟩
      · exact .inl ⟨z, rfl⟩
      · exact .inr ⟨z, rfl⟩

/-- After an array or an object, anything may follow. -/
theorem composite_unique {f : Reals} {x y r r' : List Char} {v u : Json} (hx : Value f x v) (hy : Value f y u) (hc : Composite v)
    (e : x ++ r = y ++ r') : v = u := by
  have hk := hx.kind_eq hy e
  rcases hc with ⟨vs, rfl⟩ | ⟨ms, rfl⟩
  · cases hx with
    | empty hw =>
      cases hy <;> simp only [kind, reduceCtorEq] at hk
      case empty => rfl
      case arr h' =>
        simp only [List.cons_append, List.append_assoc, List.nil_append, List.cons.injEq, true_and] at e
        exact (elems_not_blank h' hw e.symm).elim
    | arr h =>
      cases hy <;> simp only [kind, reduceCtorEq] at hk
      case empty hw' =>
        simp only [List.cons_append, List.append_assoc, List.nil_append, List.cons.injEq, true_and] at e
        exact (elems_not_blank h hw' e).elim
      case arr h' =>
        simp only [List.cons_append, List.append_assoc, List.nil_append, List.cons.injEq, true_and] at e
        rw [(h.unique h' e).1]
  · cases hx with
    | void hw =>
      cases hy <;> simp only [kind, reduceCtorEq] at hk
      case void => rfl
      case obj h' =>
        simp only [List.cons_append, List.append_assoc, List.nil_append, List.cons.injEq, true_and] at e
        exact (items_not_blank h' hw e.symm).elim
    | obj h =>
      cases hy <;> simp only [kind, reduceCtorEq] at hk
      case void hw' =>
        simp only [List.cons_append, List.append_assoc, List.nil_append, List.cons.injEq, true_and] at e
        exact (items_not_blank h hw' e).elim
      case obj h' =>
        simp only [List.cons_append, List.append_assoc, List.nil_append, List.cons.injEq, true_and] at e
        rw [(h.unique h' e).1]

/-- The bytes begin with a document that stands for the value. -/
def Begins (f : Reals) (t : List UInt8) (v : Json) : Prop :=
  ∃ w x r, t = utf8 (w ++ x) ++ r ∧ Blank w ∧ Value f x v ∧ Composite v ∧ Fits maxDepth v

theorem Begins.unique {f : Reals} {t : List UInt8} {v u : Json} (h : Begins f t v) (h' : Begins f t u) : v = u := by
  obtain ⟨w, x, r, rfl, hw, hx, hc, _⟩ := h
  obtain ⟨w', y, r', e, hw', hy, hc', _⟩ := h'
  have key : ∀ z z' : List Char, w ++ x ++ z = w' ++ y ++ z' → v = u := by
    intro z z' e
    simp only [List.append_assoc] at e
    obtain ⟨_, e⟩ := blank_unique hw hw' (hx.head_not_blank _) (hy.head_not_blank _) e
    exact composite_unique hx hy hc e
  rcases utf8_prefix e with ⟨z, e⟩ | ⟨z, e⟩
  · exact key [] z (by simpa using e)
  · exact key z [] (by simpa using e.symm)

open Classical in
/-- A decoder that decides as soon as there is an array or an object. -/
noncomputable def standard (f : Reals) : Decoder Json where
  decide t := if h : ∃ v, Begins f t v then some (some h.choose) else none
  atEnd _ := none

theorem standard_iff {f : Reals} {t : List UInt8} {v : Json} (h : Begins f t v) : (standard f).decide t = some (some v) := by
  unfold standard
  have h' : ∃ v, Begins f t v := ⟨v, h⟩
  simp only [dif_pos h', Option.some.injEq]
  exact h'.choose_spec.unique h

theorem standard_standard (f : Reals) : Standard f (standard f) where
  ok := by
    constructor
    · intro a b r h
      by_cases hv : ∃ v, Begins f a v
      · obtain ⟨v, hv⟩ := hv
        rw [standard_iff hv] at h
        obtain ⟨w, x, r', rfl, hw, hx, hc, hf⟩ := hv
        rw [← h]
        exact standard_iff ⟨w, x, r' ++ b, by simp, hw, hx, hc, hf⟩
      · simp [standard, hv] at h
    · intro a ha
      have : ¬ ∃ v, Begins f a v := by
        rintro ⟨v, w, x, r, rfl, hw, hx, hc, _⟩
        rcases utf8_last (w := w) hx hc with h | h
        · have := ha '}'.toUInt8 (List.mem_append.mpr (.inl (List.mem_of_getLast? h)))
          exact absurd this (by decide)
        · have := ha ']'.toUInt8 (List.mem_append.mpr (.inl (List.mem_of_getLast? h)))
          exact absurd this (by decide)
      simp [standard, this]
  value w x v hw hx hc hv := standard_iff ⟨w, x, [], by simp, hw, hx, hc, hv⟩
  fits t v h := by
    rcases h with h | h
    · by_cases hv : ∃ v, Begins f t v
      · obtain ⟨u, hu⟩ := hv
        rw [standard_iff hu] at h
        simp only [Option.some.injEq] at h
        subst h
        obtain ⟨_, _, _, _, _, _, _, h⟩ := hu
        exact h
      · simp [standard, hv] at h
    · simp [standard] at h

/-- The value in the examples of `JsonText.lean` fits. -/
theorem value_fits : Fits maxDepth value := by
  refine .obj (by decide) (by decide) ?_
  intro m hm
  simp only [List.mem_cons, List.not_mem_nil, or_false] at hm
  rcases hm with rfl | rfl | rfl | rfl
  · refine .arr ?_
    intro v hv
    simp only [List.mem_cons, List.not_mem_nil, or_false] at hv
    rcases hv with rfl | rfl <;> exact .str (by decide)
  · exact .obj (by decide) (by decide) (by simp)
  · exact .int (by decide)
  · refine .arr ?_
    intro v hv
    simp only [List.mem_cons, List.not_mem_nil, or_false] at hv
    rcases hv with rfl | rfl
    · exact .null
    · exact .bool _

example : ∃ w, jsonLoad (standard reals) 1024 (utf8 (store reals true value) ++ [10, 10]) = .value w ∧ Same value w :=
  C100_roundTrip reals_ok (standard_standard reals) (by decide) (.inr ⟨_, rfl⟩) value_fits true _

end Examples

end Maike.Kvs.JsonText
