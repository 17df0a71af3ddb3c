/-!
# Build ids

Model of core/build/id.cpp. A `char` is a byte, a `std::byte` is a `UInt8`, a `char const*` is the list of bytes before its
terminating NUL (NUL bytes in the list end the string early, too). `none` stands for an exception.

Not modelled: `Id::Id()`, which draws random bytes.
-/

namespace Maike.Text.BuildId

/-- `to_nibble`, core/build/id.cpp:18-28. -/
def toNibble (c : UInt8) : Option UInt8 :=
  if 48 ≤ c ∧ c ≤ 57 then some (c - 48)
  else
    let m := c &&& ~~~0x20
    if 65 ≤ m ∧ m ≤ 70 then some (10 + m - 65) else none

/-- The loop of `Id::Id(char const*)`, core/build/id.cpp:35-53. `val` is not initialised in C++; it is not read before it has been
assigned. -/
def parseLoop : List UInt8 → Nat → UInt8 → List UInt8 → Option (List UInt8)
  | [], _, _, bytes => some bytes
  | c :: cs, k, val, bytes =>
    if c = 0 ∨ k = 64 then some bytes
    else
      match toNibble c with
      | none => none
      | some nibble =>
        if k % 2 = 1 then parseLoop cs (k + 1) (val ||| nibble) (bytes.set (k / 2) (val ||| nibble))
        else parseLoop cs (k + 1) (nibble <<< 4) bytes

/-- `Id::Id(char const*)`, core/build/id.cpp:31-54. -/
def parse (s : List UInt8) : Option (List UInt8) := parseLoop s 0 0 (List.replicate 32 0)

/-- `val_lut`, core/build/id.cpp:62-63. -/
def lut : List UInt8 := [48, 49, 50, 51, 52, 53, 54, 55, 56, 57, 97, 98, 99, 100, 101, 102]

/-- `toString`, core/build/id.cpp:56-72. -/
def print (bytes : List UInt8) : List UInt8 :=
  bytes.flatMap fun (val : UInt8) => [lut.getD ((val &&& 0xf0) >>> 4).toNat 0, lut.getD (val &&& 0x0f).toNat 0]

/-! ## Specification -/

/-- The value of a hexadecimal digit, in upper or lower case. -/
def hexValue (c : UInt8) : Option UInt8 :=
  if '0'.toUInt8 ≤ c ∧ c ≤ '9'.toUInt8 then some (c - '0'.toUInt8)
  else if 'a'.toUInt8 ≤ c ∧ c ≤ 'f'.toUInt8 then some (c - 'a'.toUInt8 + 10)
  else if 'A'.toUInt8 ≤ c ∧ c ≤ 'F'.toUInt8 then some (c - 'A'.toUInt8 + 10)
  else none

/-- A digit as printed. -/
def IsLowerHex (c : UInt8) : Prop :=
  ('0'.toUInt8 ≤ c ∧ c ≤ '9'.toUInt8) ∨ ('a'.toUInt8 ≤ c ∧ c ≤ 'f'.toUInt8)

/-- The part of a string that is looked at: what precedes a NUL, at most 64 characters. -/
def significant (s : List UInt8) : List UInt8 := (s.takeWhile (· ≠ 0)).take 64

/-- Bytes made of pairs of digits. -/
def pairs : List UInt8 → List UInt8
  | hi :: lo :: r => (hi * 16 + lo) :: pairs r
  | _ => []

/-! ## Lemmas -/

theorem byte_cases {p : UInt8 → Prop} (h : ∀ n : Fin 256, p (UInt8.ofNat n)) (c : UInt8) : p c := by
  have := h ⟨c.toNat, c.toNat_lt⟩
  simpa using this

theorem toNibble_eq : ∀ c, toNibble c = hexValue c := byte_cases (by decide +kernel)

theorem hexValue_lt : ∀ c n, hexValue c = some n → n < 16 := by
  intro c
  apply byte_cases (p := fun c => ∀ n, hexValue c = some n → n < 16)
  decide +kernel

theorem or_nibble (a b : UInt8) (ha : a < 16) (hb : b < 16) : (a <<< 4) ||| b = a * 16 + b := by
  have : ∀ i j : Fin 16, ((UInt8.ofNat i) <<< 4) ||| (UInt8.ofNat j) = UInt8.ofNat i * 16 + UInt8.ofNat j := by decide +kernel
  have := this ⟨a.toNat, ha⟩ ⟨b.toNat, hb⟩
  simpa using this

theorem set_replicate (p : List UInt8) (m : Nat) (v : UInt8) :
    (p ++ List.replicate (m + 1) 0).set p.length v = (p ++ [v]) ++ List.replicate m 0 := by
  rw [List.set_append_right _ _ (by omega)]
  simp [List.replicate_succ]

theorem parseLoop_eq (cs : List UInt8) (p : List UInt8) (val : UInt8) (m : Nat) (hm : p.length + m = 32) :
    parseLoop cs (2 * p.length) val (p ++ List.replicate m 0) =
      (((cs.takeWhile (· ≠ 0)).take (2 * m)).mapM hexValue).map fun ns =>
        (p ++ pairs ns) ++ List.replicate (32 - (p ++ pairs ns).length) 0 := by
  match cs with
  | [] =>
    simp [parseLoop, pairs]
    omega
  | c :: cs =>
    unfold parseLoop
    by_cases hc : c = 0
    · subst hc
      simp [pairs]
      omega
    · by_cases hk : m = 0
      · subst hk
        have : 2 * p.length = 64 := by omega
        simp [this, pairs]
        omega
      · have hk' : 2 * p.length ≠ 64 := by omega
        rw [if_neg (by simp [hc, hk'])]
        obtain ⟨m', rfl⟩ : ∃ m', m = m' + 1 := ⟨m - 1, by omega⟩
        rw [toNibble_eq]
        have h2 : 2 * (m' + 1) = 2 * m' + 1 + 1 := by omega
        have ht : (c :: cs).takeWhile (· ≠ 0) = c :: cs.takeWhile (· ≠ 0) := by simp [hc]
        rw [ht, h2, List.take_succ_cons]
        cases hh : hexValue c with
        | none => simp [List.mapM_cons, hh]
        | some n =>
          have hmod : 2 * p.length % 2 ≠ 1 := by omega
          simp only [hmod, if_false]
          match cs with
          | [] =>
            simp [parseLoop, List.mapM_cons, hh, pairs]
            omega
          | d :: ds =>
            unfold parseLoop
            by_cases hd : d = 0
            · subst hd
              simp [List.mapM_cons, hh, pairs]
              omega
            · have hk2 : 2 * p.length + 1 ≠ 64 := by omega
              rw [if_neg (by simp [hd, hk2]), toNibble_eq]
              have ht : (d :: ds).takeWhile (· ≠ 0) = d :: ds.takeWhile (· ≠ 0) := by simp [hd]
              rw [ht, List.take_succ_cons]
              cases hh' : hexValue d with
              | none => simp [List.mapM_cons, hh, hh']
              | some n' =>
                have h1 : (2 * p.length + 1) % 2 = 1 := by omega
                have h3 : (2 * p.length + 1) / 2 = p.length := by omega
                simp only [h1, if_true, h3]
                rw [or_nibble n n' (hexValue_lt _ _ hh) (hexValue_lt _ _ hh'), set_replicate]
                have ih := parseLoop_eq ds (p ++ [n * 16 + n']) (n * 16 + n') m' (by simp; omega)
                have h4 : 2 * p.length + 1 + 1 = 2 * (p ++ [n * 16 + n']).length := by simp; omega
                rw [h4, ih]
                simp only [List.mapM_cons, hh, hh']
                cases (ds.takeWhile (· ≠ 0)).take (2 * m') |>.mapM hexValue with
                | none => simp
                | some ns => simp [pairs]
termination_by cs.length

theorem print_byte (b : UInt8) :
    hexValue (lut.getD ((b &&& 0xf0) >>> 4).toNat 0) = some (b / 16) ∧
    hexValue (lut.getD (b &&& 0x0f).toNat 0) = some (b % 16) ∧
    b / 16 * 16 + b % 16 = b := by
  apply byte_cases (p := fun b => hexValue (lut.getD ((b &&& 0xf0) >>> 4).toNat 0) = some (b / 16) ∧
    hexValue (lut.getD (b &&& 0x0f).toNat 0) = some (b % 16) ∧ b / 16 * 16 + b % 16 = b)
  decide +kernel

theorem print_byte_lower (b : UInt8) :
    IsLowerHex (lut.getD ((b &&& 0xf0) >>> 4).toNat 0) ∧ IsLowerHex (lut.getD (b &&& 0x0f).toNat 0) := by
  apply byte_cases (p := fun b => IsLowerHex (lut.getD ((b &&& 0xf0) >>> 4).toNat 0) ∧ IsLowerHex (lut.getD (b &&& 0x0f).toNat 0))
  unfold IsLowerHex
  decide +kernel

theorem print_length (bytes : List UInt8) : (print bytes).length = 2 * bytes.length := by
  induction bytes with
  | nil => rfl
  | cons b bytes ih => simp only [print, List.flatMap_cons, List.length_append] at ih ⊢; rw [ih]; simp; omega

theorem print_digits (bytes : List UInt8) : ∀ c ∈ print bytes, IsLowerHex c := by
  intro c hc
  simp only [print, List.mem_flatMap, List.mem_cons, List.not_mem_nil, or_false] at hc
  obtain ⟨b, -, rfl | rfl⟩ := hc
  · exact (print_byte_lower b).1
  · exact (print_byte_lower b).2

theorem print_values (bytes : List UInt8) :
    ∃ ns, (print bytes).mapM hexValue = some ns ∧ pairs ns = bytes := by
  induction bytes with
  | nil => exact ⟨[], rfl, rfl⟩
  | cons b bytes ih =>
    obtain ⟨ns, h1, h2⟩ := ih
    have hb := print_byte b
    refine ⟨b / 16 :: b % 16 :: ns, ?_, by simp [pairs, hb.2.2, h2]⟩
    have : print (b :: bytes) = _ :: _ :: print bytes := rfl
    rw [this, List.mapM_cons, List.mapM_cons, hb.1, hb.2.1, h1]
    rfl

theorem takeWhile_all {p : UInt8 → Bool} {l : List UInt8} (h : ∀ c ∈ l, p c) : l.takeWhile p = l := by
  induction l with
  | nil => rfl
  | cons a l ih => simp [h a (by simp), ih fun c hc => h c (by simp [hc])]

theorem significant_print (bytes : List UInt8) (h : bytes.length = 32) : significant (print bytes) = print bytes := by
  have h0 : ∀ c ∈ print bytes, (fun c : UInt8 => decide (c ≠ 0)) c := by
    intro c hc
    have := print_digits bytes c hc
    have hz : ¬ IsLowerHex 0 := by unfold IsLowerHex; decide
    simp
    rintro rfl
    exact hz this
  unfold significant
  rw [takeWhile_all h0, List.take_of_length_le]
  rw [print_length]; omega

/-! ## Theorems -/

/-- **C29** (general form). How a string is understood: the first 64 characters (or all of them, if there are less) must be hexadecimal
digits; each pair of these makes one byte; the other bytes are zero. -/
theorem C29_parse (s : List UInt8) :
    parse s = ((significant s).mapM hexValue).map fun ns => pairs ns ++ List.replicate (32 - (pairs ns).length) 0 := by
  have := parseLoop_eq s [] 0 32 rfl
  simpa [parse, significant] using this

/-- **C29.** An id is recovered from its string representation. -/
theorem C29_roundTrip (bytes : List UInt8) (h : bytes.length = 32) : parse (print bytes) = some bytes := by
  obtain ⟨ns, h1, h2⟩ := print_values bytes
  rw [C29_parse, significant_print bytes h, h1]
  simp [h2, h]

/-- **C29.** The representation has 64 hexadecimal digits in lower case. -/
theorem C29_format (bytes : List UInt8) (h : bytes.length = 32) :
    (print bytes).length = 64 ∧ ∀ c ∈ print bytes, IsLowerHex c :=
  ⟨by rw [print_length, h], print_digits bytes⟩

/-- **C29.** Different ids have different representations. -/
theorem C29_injective (a b : List UInt8) (ha : a.length = 32) (hb : b.length = 32) (h : print a = print b) : a = b := by
  have h1 := C29_roundTrip a ha
  rw [h, C29_roundTrip b hb] at h1
  exact (Option.some.inj h1).symm

/-- A string is rejected iff one of its significant characters is no hexadecimal digit. -/
theorem C29_rejects (s : List UInt8) : parse s = none ↔ ∃ c ∈ significant s, hexValue c = none := by
  rw [C29_parse, Option.map_eq_none_iff]
  generalize significant s = l
  induction l with
  | nil => simp
  | cons c l ih =>
    rw [List.mapM_cons]
    cases hc : hexValue c with
    | none => simp [hc]
    | some n =>
      cases hl : l.mapM hexValue with
      | none => simpa [hc, hl] using ih
      | some ns => simpa [hc, hl] using ih

/-- Contrary to the documentation ("64 hexadecimal digits"), shorter and longer strings are accepted. Hence ids which look different are
the same: a trailing single digit and everything after 64 digits is ignored, and missing digits are zero. -/
theorem C29_overlong (bytes rest : List UInt8) (h : bytes.length = 32) : parse (print bytes ++ rest) = some bytes := by
  rw [← C29_roundTrip bytes h, C29_parse, C29_parse]
  congr 2
  have hl := print_length bytes
  rw [h] at hl
  rw [significant_print bytes h]
  unfold significant
  have h0 : ∀ c ∈ print bytes, (fun c : UInt8 => decide (c ≠ 0)) c := by
    intro c hc
    have := print_digits bytes c hc
    have hz : ¬ IsLowerHex 0 := by unfold IsLowerHex; decide
    simp
    rintro rfl
    exact hz this
  rw [List.takeWhile_append_of_pos h0, List.take_append_of_le_length (by omega), List.take_of_length_le (by omega)]

theorem C29_short : parse [] = some (List.replicate 32 0) ∧ parse ['f'.toUInt8] = some (List.replicate 32 0) := by decide

section Examples

example : ((List.range 32).map UInt8.ofNat).length = 32 := by decide

example : parse ("0A1b".toList.map Char.toUInt8) = some (10 :: 27 :: List.replicate 30 0) := by decide

example : parse ("0g".toList.map Char.toUInt8) = none := by decide

end Examples

end Maike.Text.BuildId
