/-!
# Numbers in text

Model of core/sched/thread_count.cpp, core/utils/mem_status.cpp and core/utils/system_time_stamp.cpp, together with a model of the
functions `atoi`, `atoll` and `strtoll` of the C library (as implemented by glibc for 64-bit systems).
-/

namespace Maike.Text.Numbers

/-! ### The C library -/

/-- `isspace` in the C locale. -/
def isSpace (c : Char) : Bool := c = ' ' || c = '\t' || c = '\n' || c = '\x0b' || c = '\x0c' || c = '\r'

/-- The range of `long long`. -/
def maxLL : Int := 9223372036854775807
def minLL : Int := -9223372036854775808

/-- Conversion to `long long` as in `strtoll`: values out of range are replaced by the limit. -/
def clamp (v : Int) : Int := if v > maxLL then maxLL else if v < minLL then minLL else v

/-- The value of the longest sequence of decimal digits at the beginning. -/
def leadingNat (s : List Char) : Nat := Nat.ofDigitChars 10 (s.takeWhile Char.isDigit) 0

/-- `atoll(s)`, i.e. `strtoll(s, NULL, 10)`. -/
def atoll (s : List Char) : Int :=
  match s.dropWhile isSpace with
  | '-' :: r => clamp (-(leadingNat r : Int))
  | '+' :: r => clamp (leadingNat r)
  | r => clamp (leadingNat r)

/-- `atoi(s)`, i.e. `(int)strtol(s, NULL, 10)`: the value is reduced modulo 2^32. -/
def atoi (s : List Char) : Int := (atoll s).bmod 4294967296

/-! ### Thread count -/

/-- `ThreadCount::ThreadCount(char const*)`, core/sched/thread_count.cpp:18-27. The result is `m_val`, `none` stands for an exception. -/
def threadCount (s : List Char) : Option Int :=
  if s = "auto".toList then some (-1)
  else if atoi s < 1 then none
  else some (atoi s)

/-- `ThreadCount::value`, core/sched/thread_count.hpp:26-29; `nprocs` is the result of `get_nprocs`. -/
def threadCountValue (nprocs m : Int) : Int := if m < 0 then max nprocs 1 else m

/-- `ThreadCount::toString`, core/sched/thread_count.cpp:11-16. -/
def threadCountToString (m : Int) : List Char := if m < 0 then "auto".toList else Nat.toDigits 10 m.toNat

/-! ### Time stamps -/

/-- The value of a digit in bases up to 16. -/
def digitValue (c : Char) : Option Nat :=
  if '0' ≤ c ∧ c ≤ '9' then some (c.toNat - '0'.toNat)
  else if 'a' ≤ c ∧ c ≤ 'f' then some (c.toNat - 'a'.toNat + 10)
  else if 'A' ≤ c ∧ c ≤ 'F' then some (c.toNat - 'A'.toNat + 10)
  else none

/-- Whether `c` is a digit in base `b`. -/
def isDigitIn (b : Nat) (c : Char) : Bool :=
  match digitValue c with
  | some d => d < b
  | none => false

/-- The value of a sequence of digits in base `b`. -/
def valueIn (b : Nat) (ds : List Char) : Nat := ds.foldl (fun acc c => b * acc + (digitValue c).getD 0) 0

/-- Digits and base, as found by `strtoll(s, &end, 0)` after blanks and sign: `0x` must be followed by a hexadecimal digit. The last
component is what remains. `none` if there is no digit. -/
def scanDigits (s : List Char) : Option (Nat × List Char × List Char) :=
  let dec (b : Nat) (s : List Char) := (b, s.takeWhile (isDigitIn b), s.dropWhile (isDigitIn b))
  match s with
  | [] => none
  | '0' :: x :: d :: r =>
    if (x = 'x' ∨ x = 'X') ∧ isDigitIn 16 d then some (dec 16 (d :: r)) else some (dec 8 ('0' :: x :: d :: r))
  | '0' :: r => some (dec 8 ('0' :: r))
  | c :: r => if isDigitIn 10 c then some (dec 10 (c :: r)) else none

/-- The sign, as recognised by `strtoll`: whether the value is negated, and what follows. -/
def scanSign : List Char → Bool × List Char
  | '-' :: r => (true, r)
  | '+' :: r => (false, r)
  | r => (false, r)

/-- The value with its sign. -/
def signed (neg : Bool) (n : Nat) : Int := if neg then -(n : Int) else n

/-- `strtoll(s, &end, 0)`: the value, whether it is out of range (`errno == ERANGE`), and what `end` points to. -/
def strtoll0 (s : List Char) : Int × Bool × List Char :=
  let sr := scanSign (s.dropWhile isSpace)
  match scanDigits sr.2 with
  | none => (0, false, s)
  | some (b, ds, fin) =>
    let v := signed sr.1 (valueIn b ds)
    (clamp v, decide (v > maxLL ∨ v < minLL), fin)

/-- `SystemTimeStamp::SystemTimeStamp(char const*)`, core/utils/system_time_stamp.cpp:13-22: the argument of `from_time_t`. `none` stands
for an exception. -/
def timeStamp (s : List Char) : Option Int :=
  let (v, range, fin) := strtoll0 s
  if fin ≠ [] ∨ range then none else some v

/-! ### Available memory -/

/-- `State`, core/utils/mem_status.cpp:19-24. -/
inductive MemState where
  | key
  | value
  | skip
deriving DecidableEq

/-- The key searched for. -/
def availableKey : List Char := "MemAvailable".toList

/-- `get_mem_avail`, core/utils/mem_status.cpp:17-69. `cells` is the rest of the array, `dist` the number of steps to `buffer_end`
(`none` if it lies before `buffer`, so that it is never reached), `acc` what lies between `pos_0` and `buffer`, reversed. `none` is the
result if the end of the array is passed (undefined behaviour). -/
def memLoop : List Char → Option Nat → MemState → List Char → Option Nat
  | _, some 0, _, _ => some 0
  | [], _, _, _ => none
  | c :: cells, dist, st, acc =>
    let dist := dist.map (· - 1)
    match st with
    | .key =>
      if c = ':' then
        if (c :: acc).reverse = availableKey ++ [':'] then memLoop cells dist .value []
        else memLoop cells dist .skip (c :: acc)
      else memLoop cells dist .key (c :: acc)
    | .value =>
      if c = '\n' then some ((1024 * ((atoll acc.reverse) % 18446744073709551616).toNat) % 18446744073709551616)
      else memLoop cells dist .value (c :: acc)
    | .skip =>
      if c = '\n' then memLoop cells dist .key [] else memLoop cells dist .skip (c :: acc)

/-- `getMemAvail`, core/utils/mem_status.cpp:73-80; `file` is the content of /proc/meminfo, `none` if it cannot be opened. Then `pread`
gives -1, and `buffer_end` lies before the buffer. -/
def getMemAvail (file : Option (List Char)) : Option Nat :=
  match file with
  | some s =>
    let data := s.take 4096
    memLoop (data ++ List.replicate (4096 - data.length) '\x00') (some data.length) .key []
  | none => memLoop (List.replicate 4096 '\x00') none .key []

/-! ## Specification -/

/-- A number in the notation of C: the prefix and the digits in base `b`. -/
inductive CNumber : (b : Nat) → (pre ds : List Char) → Prop
  | dec (c : Char) (ds : List Char) : c ≠ '0' → (∀ d ∈ c :: ds, isDigitIn 10 d) → CNumber 10 [] (c :: ds)
  | oct (ds : List Char) : (∀ d ∈ ds, isDigitIn 8 d) → CNumber 8 [] ('0' :: ds)
  | hex (x : Char) (ds : List Char) : x = 'x' ∨ x = 'X' → ds ≠ [] → (∀ d ∈ ds, isDigitIn 16 d) → CNumber 16 ['0', x] ds

/-- The signs. -/
inductive Sign : (neg : Bool) → List Char → Prop
  | none : Sign false []
  | plus : Sign false ['+']
  | minus : Sign true ['-']

/-- A line of /proc/meminfo: a key, blanks, a number, and possibly a unit. -/
structure MemLine where
  key : List Char
  blanks : Nat
  number : Nat
  unit : List Char

/-- The text of a line. -/
def MemLine.text (l : MemLine) : List Char :=
  l.key ++ ':' :: (List.replicate l.blanks ' ' ++ Nat.toDigits 10 l.number ++ l.unit) ++ ['\n']

/-- Keys contain neither a colon nor a newline, units no newline, and do not continue the number. -/
structure MemLine.Proper (l : MemLine) : Prop where
  key : ':' ∉ l.key ∧ '\n' ∉ l.key
  unit : '\n' ∉ l.unit ∧ ∀ c ∈ l.unit.head?, ¬ c.isDigit

/-! ## Lemmas -/

theorem dropWhile_none {p : Char → Bool} {s : List Char} (h : ∀ c ∈ s.head?, p c = false) : s.dropWhile p = s := by
  cases s with
  | nil => rfl
  | cons c s => simp [h c (by simp)]

theorem takeWhile_digits (ds : List Char) (r : List Char) (h : ∀ c ∈ ds, c.isDigit) (hr : ∀ c ∈ r.head?, c.isDigit = false) :
    (ds ++ r).takeWhile Char.isDigit = ds := by
  rw [List.takeWhile_append_of_pos h]
  cases r with
  | nil => simp
  | cons c r => simp [hr c (by simp)]

theorem leadingNat_toDigits (n : Nat) (r : List Char) (hr : ∀ c ∈ r.head?, c.isDigit = false) :
    leadingNat (Nat.toDigits 10 n ++ r) = n := by
  unfold leadingNat
  rw [takeWhile_digits _ _ (fun c hc => Nat.isDigit_of_mem_toDigits (n := n) (b := 10) (by decide) (by decide) hc) hr]
  exact Nat.ofDigitChars_ten_toDigits

theorem digit_not_space {c : Char} (h : c.isDigit) : isSpace c = false ∧ c ≠ '-' ∧ c ≠ '+' := by
  refine ⟨?_, ?_, ?_⟩
  · unfold isSpace
    simp only [Bool.or_eq_false_iff, decide_eq_false_iff_not]
    refine ⟨⟨⟨⟨⟨?_, ?_⟩, ?_⟩, ?_⟩, ?_⟩, ?_⟩ <;> (rintro rfl; revert h; decide)
  · rintro rfl; revert h; decide
  · rintro rfl; revert h; decide

theorem toDigits_cons (n : Nat) : ∃ c r, Nat.toDigits 10 n = c :: r ∧ c.isDigit := by
  cases h : Nat.toDigits 10 n with
  | nil => exact absurd h Nat.toDigits_ne_nil
  | cons c r => exact ⟨c, r, rfl, Nat.isDigit_of_mem_toDigits (n := n) (b := 10) (by decide) (by decide) (by rw [h]; simp)⟩

theorem atoll_digits (k n : Nat) (r : List Char) (hr : ∀ c ∈ r.head?, c.isDigit = false) :
    atoll (List.replicate k ' ' ++ Nat.toDigits 10 n ++ r) = clamp n := by
  have hdrop : (List.replicate k ' ' ++ Nat.toDigits 10 n ++ r).dropWhile isSpace = Nat.toDigits 10 n ++ r := by
    rw [List.append_assoc]
    induction k with
    | zero =>
      obtain ⟨c, t, e, hc⟩ := toDigits_cons n
      simp [e, (digit_not_space hc).1]
    | succ k ih => simpa [List.replicate_succ, isSpace] using ih
  unfold atoll
  rw [hdrop]
  have hl := leadingNat_toDigits n r hr
  obtain ⟨c, t, e, hc⟩ := toDigits_cons n
  rw [e] at hl ⊢
  have h2 := digit_not_space hc
  split
  · rename_i e'; simp at e'; exact absurd e'.1 h2.2.1
  · rename_i e'; simp at e'; exact absurd e'.1 h2.2.2
  · rw [hl]

theorem atoi_digits (n : Nat) (r : List Char) (hr : ∀ c ∈ r.head?, c.isDigit = false) :
    atoi (Nat.toDigits 10 n ++ r) = (clamp n).bmod 4294967296 := by
  have := atoll_digits 0 n r hr
  simp at this
  rw [atoi, this]

theorem ne_auto (n : Nat) (r : List Char) : Nat.toDigits 10 n ++ r ≠ "auto".toList := by
  obtain ⟨c, t, e, hc⟩ := toDigits_cons n
  rw [e]
  intro h
  have : c = 'a' := by
    have := congrArg List.head? h
    simpa using this
  subst this
  exact absurd hc (by decide)

/-! ## Thread count: theorems -/

/-- **C53.** The number of workers is positive, whatever is given on the command line and whatever the system tells. -/
theorem C53_positive (s : List Char) (m nprocs : Int) (h : threadCount s = some m) : 1 ≤ threadCountValue nprocs m := by
  unfold threadCount at h
  unfold threadCountValue
  split at h
  · cases h; simp; omega
  · split at h
    · cases h
    · cases h; split <;> omega

/-- **C53**, for the default. -/
theorem C53_default (nprocs : Int) : 1 ≤ threadCountValue nprocs (-1) := by
  unfold threadCountValue
  simp
  omega

/-- A positive decimal number in the range of `int` is taken as it is. -/
theorem C53_decimal (n : Nat) (h1 : 1 ≤ n) (h2 : n ≤ 2147483647) : threadCount (Nat.toDigits 10 n) = some (n : Int) := by
  have ha := atoi_digits n [] (by simp)
  have hn := ne_auto n []
  simp only [List.append_nil] at ha hn
  have : (clamp n).bmod 4294967296 = n := by
    unfold clamp maxLL minLL
    rw [if_neg (by omega), if_neg (by omega)]
    exact Int.bmod_eq_of_le (by omega) (by omega)
  rw [threadCount, if_neg hn, ha, this, if_neg (by omega)]

/-- Printing and parsing: for each value there can be, the printed value is read back as the same value. -/
theorem C53_roundTrip (s : List Char) (m : Int) (h : threadCount s = some m) : threadCount (threadCountToString m) = some m := by
  have hm : m = -1 ∨ (1 ≤ m ∧ m ≤ 2147483647) := by
    unfold threadCount at h
    split at h
    · cases h; exact .inl rfl
    · split at h
      · cases h
      · cases h
        right
        refine ⟨by omega, ?_⟩
        have := Int.bmod_lt (x := atoll s) (m := 4294967296) (by decide)
        unfold atoi
        omega
  rcases hm with rfl | ⟨h1, h2⟩
  · rfl
  · have := C53_decimal m.toNat (by omega) (by omega)
    rw [threadCountToString, if_neg (by omega), this]
    congr 1
    omega

/-- Garbage after the number is ignored, and numbers which are too large wrap around. -/
theorem C53_sloppy : threadCount "4x".toList = some 4 ∧ threadCount "4294967297".toList = some 1 ∧
    threadCount "2147483648".toList = none ∧ threadCount "x".toList = none ∧ threadCount "0".toList = none ∧
    threadCount "-3".toList = none := by decide +kernel

/-- **C53.** What becomes of decimal numbers in general: they are reduced modulo 2^32, unless they are out of the range of `long long`, in which case they are treated as -1. -/
theorem C53_wraps (n : Nat) (r : List Char) (hr : ∀ c ∈ r.head?, c.isDigit = false) :
    atoi (Nat.toDigits 10 n ++ r) = if n ≤ 9223372036854775807 then (n : Int).bmod 4294967296 else -1 := by
  rw [atoi_digits n r hr]
  by_cases h : n ≤ 9223372036854775807
  · rw [if_pos h, clamp, if_neg (by simp [maxLL]; omega), if_neg (by simp [minLL])]
  · rw [if_neg h, clamp, if_pos (by simp [maxLL]; omega)]
    decide

/-! ## Time stamps: theorems -/

theorem takeWhile_self {p : Char → Bool} {l : List Char} (h : ∀ c ∈ l, p c) : l.takeWhile p = l ∧ l.dropWhile p = [] := by
  induction l with
  | nil => exact ⟨rfl, rfl⟩
  | cons c l ih =>
    obtain ⟨h1, h2⟩ := ih fun c hc => h c (by simp [hc])
    have hc := h c (by simp)
    simp [hc, h1, h2]

theorem of_dropWhile_nil {p : Char → Bool} {l : List Char} (h : l.dropWhile p = []) : l.takeWhile p = l ∧ ∀ c ∈ l, p c := by
  induction l with
  | nil => simp
  | cons c l ih =>
    by_cases hc : p c
    · rw [List.dropWhile_cons_of_pos hc] at h
      obtain ⟨h1, h2⟩ := ih h
      rw [List.takeWhile_cons_of_pos hc, h1]
      exact ⟨rfl, by simpa using ⟨hc, h2⟩⟩
    · rw [List.dropWhile_cons_of_neg hc] at h
      cases h

theorem scanDigits_iff (t : List Char) (b : Nat) (ds : List Char) :
    scanDigits t = some (b, ds, []) ↔ ∃ pre, CNumber b pre ds ∧ t = pre ++ ds := by
  constructor
  · intro ht
    unfold scanDigits at ht
    dsimp only at ht
    split at ht
    · cases ht
    · split at ht
      · simp only [Option.some.injEq, Prod.mk.injEq] at ht
        obtain ⟨rfl, rfl, hd⟩ := ht
        rename_i x d r hx
        obtain ⟨h1, h2⟩ := of_dropWhile_nil hd
        rw [h1]
        exact ⟨_, .hex x _ hx.1 (by simp) h2, rfl⟩
      · simp only [Option.some.injEq, Prod.mk.injEq] at ht
        obtain ⟨rfl, rfl, hd⟩ := ht
        obtain ⟨h1, h2⟩ := of_dropWhile_nil hd
        rw [h1]
        exact ⟨_, .oct _ fun d hd => h2 d (List.mem_cons_of_mem _ hd), rfl⟩
    · simp only [Option.some.injEq, Prod.mk.injEq] at ht
      obtain ⟨rfl, rfl, hd⟩ := ht
      obtain ⟨h1, h2⟩ := of_dropWhile_nil hd
      rw [h1]
      exact ⟨_, .oct _ fun d hd => h2 d (List.mem_cons_of_mem _ hd), rfl⟩
    · rename_i c r hn1 hn2
      split at ht
      · simp only [Option.some.injEq, Prod.mk.injEq] at ht
        obtain ⟨rfl, rfl, hd⟩ := ht
        obtain ⟨h1, h2⟩ := of_dropWhile_nil hd
        rw [h1]
        refine ⟨_, .dec c r ?_ h2, rfl⟩
        rintro rfl
        exact hn2 rfl
      · cases ht
  · rintro ⟨pre, hn, rfl⟩
    unfold scanDigits
    dsimp only
    cases hn with
    | dec c r h0 h =>
      simp only [List.nil_append]
      split
      · rename_i e; cases e
      · rename_i e; injection e with e1 _; exact absurd e1 h0
      · rename_i e; injection e with e1 _; exact absurd e1 h0
      · rename_i e
        cases e
        rw [if_pos (h _ (by simp)), (takeWhile_self h).1, (takeWhile_self h).2]
    | oct r h =>
      have h' : ∀ d ∈ '0' :: r, isDigitIn 8 d := by simpa using ⟨by decide, h⟩
      simp only [List.nil_append]
      split
      · rename_i e; cases e
      · rename_i e
        cases e
        have hx := h _ (List.mem_cons_self)
        rw [if_neg, (takeWhile_self h').1, (takeWhile_self h').2]
        rintro ⟨rfl | rfl, _⟩ <;> exact absurd hx (by decide)
      · rename_i e
        cases e
        rw [(takeWhile_self h').1, (takeWhile_self h').2]
      · rename_i hn1 hn2 e
        cases e
        exact absurd rfl (hn2 )
    | hex x _ hx hr h =>
      cases ds with
      | nil => exact absurd rfl hr
      | cons d r =>
        simp only [List.cons_append, List.nil_append]
        rw [if_pos ⟨hx, h _ (by simp)⟩, (takeWhile_self h).1, (takeWhile_self h).2]

theorem CNumber.head {b : Nat} {pre ds : List Char} (h : CNumber b pre ds) :
    ∃ c r, pre ++ ds = c :: r ∧ isSpace c = false ∧ c ≠ '-' ∧ c ≠ '+' := by
  cases h with
  | dec c r h0 h =>
    refine ⟨c, r, rfl, ?_⟩
    have hc := h c (by simp)
    refine ⟨?_, ?_, ?_⟩
    · unfold isSpace
      simp only [Bool.or_eq_false_iff, decide_eq_false_iff_not]
      refine ⟨⟨⟨⟨⟨?_, ?_⟩, ?_⟩, ?_⟩, ?_⟩, ?_⟩ <;> (rintro rfl; revert hc; decide)
    · rintro rfl; revert hc; decide
    · rintro rfl; revert hc; decide
  | oct r h => exact ⟨'0', r, rfl, by decide, by decide, by decide⟩
  | hex x => exact ⟨'0', x :: ds, rfl, by decide, by decide, by decide⟩

theorem scanSign_spec (r : List Char) : ∃ sg, Sign (scanSign r).1 sg ∧ r = sg ++ (scanSign r).2 := by
  unfold scanSign
  split
  · exact ⟨_, .minus, rfl⟩
  · exact ⟨_, .plus, rfl⟩
  · exact ⟨_, .none, rfl⟩

theorem scanSign_of {neg : Bool} {sg r : List Char} (h : Sign neg sg) (hr : ∀ c ∈ r.head?, c ≠ '-' ∧ c ≠ '+') :
    scanSign (sg ++ r) = (neg, r) := by
  cases h with
  | none =>
    simp only [List.nil_append]
    unfold scanSign
    split
    · exact absurd rfl (hr '-' (by simp)).1
    · exact absurd rfl (hr '+' (by simp)).2
    · rfl
  | plus => rfl
  | minus => rfl

/-- **C62.** What is accepted as time stamp, and with which value: blanks, a sign, and a number in the notation of C (base 10, base 8 if
it begins with `0` and base 16 if it begins with `0x`) and nothing else, with a value that can be represented. Besides, the empty string
is accepted. -/
theorem C62_accepted (s : List Char) (v : Int) :
    timeStamp s = some v ↔
      (s = [] ∧ v = 0) ∨
      ∃ blanks sg pre ds b neg, s = blanks ++ sg ++ pre ++ ds ∧ (∀ c ∈ blanks, isSpace c) ∧ Sign neg sg ∧ CNumber b pre ds ∧
        v = signed neg (valueIn b ds) ∧ minLL ≤ v ∧ v ≤ maxLL := by
  constructor
  · intro h
    unfold timeStamp strtoll0 at h
    dsimp only at h
    obtain ⟨sg, hsg, he⟩ := scanSign_spec (s.dropWhile isSpace)
    generalize scanSign (s.dropWhile isSpace) = x at *
    obtain ⟨neg, rest⟩ := x
    simp only at h hsg he
    cases hs : scanDigits rest with
    | none =>
      rw [hs] at h
      simp only at h
      split at h
      · cases h
      · rename_i hc
        simp only [not_or, Decidable.not_not] at hc
        simp only [Option.some.injEq] at h
        exact .inl ⟨hc.1, h.symm⟩
    | some x =>
      obtain ⟨b, ds, fin⟩ := x
      rw [hs] at h
      simp only at h
      split at h
      · cases h
      · rename_i hc
        simp only [not_or, Decidable.not_not, decide_eq_true_eq] at hc
        obtain ⟨hfin, hr⟩ := hc
        subst hfin
        obtain ⟨pre, hn, rfl⟩ := (scanDigits_iff _ _ _).mp hs
        simp only [Option.some.injEq] at h
        unfold clamp at h
        rw [if_neg hr.1, if_neg hr.2] at h
        refine .inr ⟨s.takeWhile isSpace, sg, pre, ds, b, neg, ?_, ?_, hsg, hn, h.symm, by rw [← h]; omega, by rw [← h]; omega⟩
        · have := List.takeWhile_append_dropWhile (p := isSpace) (l := s)
          rw [he] at this
          simpa using this.symm
        · intro c hc
          have : ∀ l : List Char, ∀ c ∈ l.takeWhile isSpace, isSpace c := by
            intro l
            induction l with
            | nil => simp
            | cons a l ih =>
              intro c hc
              by_cases ha : isSpace a
              · rw [List.takeWhile_cons_of_pos ha] at hc
                rcases List.mem_cons.mp hc with rfl | hc
                · exact ha
                · exact ih c hc
              · rw [List.takeWhile_cons_of_neg ha] at hc
                cases hc
          exact this _ c hc
  · rintro (⟨rfl, rfl⟩ | ⟨blanks, sg, pre, ds, b, neg, rfl, hb, hsg, hn, rfl, hmin, hmax⟩)
    · rfl
    · obtain ⟨c, r, e, h1, h2, h3⟩ := hn.head
      have hdrop : (blanks ++ sg ++ pre ++ ds).dropWhile isSpace = sg ++ (pre ++ ds) := by
        rw [List.append_assoc, List.append_assoc, List.dropWhile_append_of_pos hb]
        cases hsg with
        | none => rw [e]; simp [h1]
        | plus => simp [isSpace]
        | minus => simp [isSpace]
      have hscan := scanSign_of (r := pre ++ ds) hsg (by rw [e]; intro d hd; cases hd; exact ⟨h2, h3⟩)
      have hd := (scanDigits_iff (pre ++ ds) b ds).mpr ⟨pre, hn, rfl⟩
      unfold timeStamp strtoll0
      dsimp only
      rw [hdrop, hscan]
      simp only [hd]
      have h4 : ¬ (signed neg (valueIn b ds) > maxLL) := by omega
      have h5 : ¬ (signed neg (valueIn b ds) < minLL) := by omega
      unfold clamp
      rw [if_neg h4, if_neg h5, if_neg]
      simp [h4, h5]

theorem isDigitIn_ten {c : Char} (h : c.isDigit) : isDigitIn 10 c ∧ digitValue c = some (c.toNat - '0'.toNat) := by
  have h' : '0' ≤ c ∧ c ≤ '9' := by
    simp only [Char.isDigit, Bool.and_eq_true, decide_eq_true_eq] at h
    exact h
  have hv : digitValue c = some (c.toNat - '0'.toNat) := by unfold digitValue; rw [if_pos h']
  refine ⟨?_, hv⟩
  unfold isDigitIn
  rw [hv]
  have : c.toNat ≤ '9'.toNat := h'.2
  simp only [decide_eq_true_eq]
  have h9 : '9'.toNat = 57 := rfl
  have h0 : '0'.toNat = 48 := rfl
  omega

theorem valueIn_ten (ds : List Char) (h : ∀ c ∈ ds, c.isDigit) (acc : Nat) :
    ds.foldl (fun acc c => 10 * acc + (digitValue c).getD 0) acc = Nat.ofDigitChars 10 ds acc := by
  induction ds generalizing acc with
  | nil => rfl
  | cons c ds ih =>
    rw [List.foldl_cons, Nat.ofDigitChars_cons, ih fun c hc => h c (by simp [hc]), (isDigitIn_ten (h c (by simp))).2]
    rfl

theorem toDigits_head (n : Nat) (h : 0 < n) : ∃ c r, Nat.toDigits 10 n = c :: r ∧ c.isDigit ∧ c ≠ '0' := by
  induction n using Nat.strongRecOn with
  | _ n ih =>
    by_cases hn : n < 10
    · refine ⟨_, _, Nat.toDigits_of_lt_base hn, ?_, ?_⟩
      · have : n = 1 ∨ n = 2 ∨ n = 3 ∨ n = 4 ∨ n = 5 ∨ n = 6 ∨ n = 7 ∨ n = 8 ∨ n = 9 := by omega
        rcases this with rfl | rfl | rfl | rfl | rfl | rfl | rfl | rfl | rfl <;> decide
      · have : n = 1 ∨ n = 2 ∨ n = 3 ∨ n = 4 ∨ n = 5 ∨ n = 6 ∨ n = 7 ∨ n = 8 ∨ n = 9 := by omega
        rcases this with rfl | rfl | rfl | rfl | rfl | rfl | rfl | rfl | rfl <;> decide
    · obtain ⟨c, r, e, h1, h2⟩ := ih (n / 10) (by omega) (by omega)
      rw [Nat.toDigits_of_base_le (by decide) (by omega), e]
      exact ⟨c, _, rfl, h1, h2⟩

/-- **C62.** A number of seconds in decimal notation is taken as it is. -/
theorem C62_decimal (n : Nat) (h1 : 0 < n) (h2 : (n : Int) ≤ maxLL) : timeStamp (Nat.toDigits 10 n) = some (n : Int) := by
  obtain ⟨c, r, e, hc, h0⟩ := toDigits_head n h1
  have hall : ∀ d ∈ Nat.toDigits 10 n, d.isDigit := fun d hd => Nat.isDigit_of_mem_toDigits (by decide) (by decide) hd
  have hval := Nat.ofDigitChars_ten_toDigits (n := n)
  rw [e] at hall hval ⊢
  refine (C62_accepted _ _).mpr (.inr ⟨[], [], [], c :: r, 10, false, rfl, by simp, .none,
    .dec c r h0 fun d hd => (isDigitIn_ten (hall d hd)).1, ?_, by unfold minLL; omega, h2⟩)
  unfold signed valueIn
  rw [valueIn_ten _ hall, hval]
  rfl

theorem C62_rejected : timeStamp "12x".toList = none ∧ timeStamp "x".toList = none ∧ timeStamp "-".toList = none ∧
    timeStamp "9223372036854775808".toList = none ∧ timeStamp "12 ".toList = none := by decide +kernel

/-- Surprises: a leading zero means octal, and the empty string is accepted. -/
theorem C62_surprises : timeStamp "010".toList = some 8 ∧ timeStamp [] = some 0 ∧ timeStamp "0x10".toList = some 16 ∧
    timeStamp "09".toList = none := by decide +kernel

/-! ## Available memory: theorems -/

theorem memLoop_skip (l cells : List Char) (n : Nat) (acc : List Char) (h : '\n' ∉ l) :
    memLoop (l ++ '\n' :: cells) (some (l.length + (n + 1))) .skip acc = memLoop cells (some n) .key [] := by
  induction l generalizing acc with
  | nil => simp [memLoop]
  | cons c l ih =>
    have hc : c ≠ '\n' := fun e => h (by simp [e])
    rw [List.length_cons, show l.length + 1 + (n + 1) = (l.length + (n + 1)) + 1 from by omega]
    simp only [List.cons_append, memLoop, hc, if_false, Option.map_some, Nat.add_sub_cancel]
    exact ih _ fun e => h (by simp [e])

theorem memLoop_value (l cells : List Char) (n : Nat) (acc : List Char) (h : '\n' ∉ l) :
    memLoop (l ++ '\n' :: cells) (some (l.length + (n + 1))) .value acc =
      some ((1024 * ((atoll (acc.reverse ++ l)) % 18446744073709551616).toNat) % 18446744073709551616) := by
  induction l generalizing acc with
  | nil => simp [memLoop]
  | cons c l ih =>
    have hc : c ≠ '\n' := fun e => h (by simp [e])
    rw [List.length_cons, show l.length + 1 + (n + 1) = (l.length + (n + 1)) + 1 from by omega]
    simp only [List.cons_append, memLoop, hc, if_false, Option.map_some, Nat.add_sub_cancel]
    rw [ih _ fun e => h (by simp [e])]
    simp

theorem memLoop_key (k cells : List Char) (n : Nat) (acc : List Char) (h : ':' ∉ k) :
    memLoop (k ++ ':' :: cells) (some (k.length + (n + 1))) .key acc =
      if acc.reverse ++ k = availableKey then memLoop cells (some n) .value []
      else memLoop cells (some n) .skip (':' :: (k.reverse ++ acc)) := by
  induction k generalizing acc with
  | nil =>
    simp only [List.nil_append, List.length_nil, Nat.zero_add, memLoop, if_true, Option.map_some, Nat.add_sub_cancel,
      List.append_nil, List.reverse_nil]
    have : (':' :: acc).reverse = availableKey ++ [':'] ↔ acc.reverse = availableKey := by
      rw [List.reverse_cons]
      exact List.append_left_inj _
    by_cases ha : acc.reverse = availableKey
    · rw [if_pos (this.mpr ha), if_pos ha]
    · rw [if_neg (fun h => ha (this.mp h)), if_neg ha]
  | cons c k ih =>
    have hc : c ≠ ':' := fun e => h (by simp [e])
    rw [List.length_cons, show k.length + 1 + (n + 1) = (k.length + (n + 1)) + 1 from by omega]
    simp only [List.cons_append, memLoop, hc, if_false, Option.map_some, Nat.add_sub_cancel]
    rw [ih _ fun e => h (by simp [e])]
    simp

theorem digits_no_newline (n : Nat) : '\n' ∉ Nat.toDigits 10 n := fun h =>
  absurd (Nat.isDigit_of_mem_toDigits (n := n) (by decide) (by decide) h) (by decide)

theorem memLoop_lines (lines : List MemLine) (hp : ∀ l ∈ lines, l.Proper) (pad : List Char) :
    memLoop (lines.flatMap MemLine.text ++ pad) (some (lines.flatMap MemLine.text).length) .key [] =
      some (match lines.find? (fun l => l.key = availableKey) with
        | none => 0
        | some l => (1024 * ((clamp l.number) % 18446744073709551616).toNat) % 18446744073709551616) := by
  induction lines with
  | nil =>
    simp only [List.flatMap_nil, List.length_nil, List.find?_nil]
    unfold memLoop
    cases pad <;> rfl
  | cons l lines ih =>
    have hl := hp l (by simp)
    have ih := ih fun l hl => hp l (by simp [hl])
    generalize ht : lines.flatMap MemLine.text = t at ih
    let val := List.replicate l.blanks ' ' ++ Nat.toDigits 10 l.number ++ l.unit
    have hval : '\n' ∉ val := by
      simp only [val, List.mem_append, List.mem_replicate, not_or]
      exact ⟨⟨by simp, digits_no_newline _⟩, hl.unit.1⟩
    have htext : (l :: lines).flatMap MemLine.text ++ pad = l.key ++ ':' :: (val ++ '\n' :: (t ++ pad)) := by
      rw [List.flatMap_cons, ht]
      simp [MemLine.text, val]
    have hlen : ((l :: lines).flatMap MemLine.text).length = l.key.length + ((val.length + (t.length + 1)) + 1) := by
      rw [List.flatMap_cons, ht]
      simp only [MemLine.text, val, List.length_append, List.length_cons, List.length_nil]
      omega
    rw [htext, hlen, memLoop_key _ _ _ _ hl.key.1, show ([] : List Char).reverse ++ l.key = l.key from rfl]
    by_cases hk : l.key = availableKey
    · rw [if_pos hk, memLoop_value _ _ _ _ hval, List.find?_cons_of_pos (by simp [hk])]
      have := atoll_digits l.blanks l.number l.unit (by
        intro c hc
        have := hl.unit.2 c hc
        simpa using this)
      simp only [List.reverse_nil, List.nil_append, val, this]
    · rw [if_neg hk, memLoop_skip _ _ _ _ hval, List.find?_cons_of_neg (by simp [hk]), ih]

/-- **C57.** If /proc/meminfo consists of proper lines and fits in the buffer, then the result is 1024 times the number in the first
line with the key `MemAvailable` (`availableKey`), wherever it is, and 0 if there is no such line. -/
theorem C57_memAvail (lines : List MemLine) (hp : ∀ l ∈ lines, l.Proper) (hlen : (lines.flatMap MemLine.text).length ≤ 4096) :
    (∀ l, lines.find? (fun l => l.key = availableKey) = some l → 1024 * l.number < 18446744073709551616 →
      getMemAvail (some (lines.flatMap MemLine.text)) = some (1024 * l.number)) ∧
    ((∀ l ∈ lines, l.key ≠ availableKey) → getMemAvail (some (lines.flatMap MemLine.text)) = some 0) := by
  have h := memLoop_lines lines hp (List.replicate (4096 - (lines.flatMap MemLine.text).length) '\x00')
  have hget : getMemAvail (some (lines.flatMap MemLine.text)) = memLoop (lines.flatMap MemLine.text ++
      List.replicate (4096 - (lines.flatMap MemLine.text).length) '\x00') (some (lines.flatMap MemLine.text).length) .key [] := by
    simp only [getMemAvail, List.take_of_length_le hlen]
  rw [hget, h]
  constructor
  · intro l hl hlt
    rw [hl]
    simp only [Option.some.injEq]
    have : clamp l.number = l.number := by
      unfold clamp maxLL minLL
      rw [if_neg (by omega), if_neg (by omega)]
    rw [this]
    omega
  · intro hn
    have : lines.find? (fun l => l.key = availableKey) = none := by
      rw [List.find?_eq_none]
      intro l hl
      simpa using hn l hl
    rw [this]

theorem memLoop_nul (n : Nat) (acc : List Char) : memLoop (List.replicate n '\x00') none .key acc = none := by
  induction n generalizing acc with
  | zero => rfl
  | succ n ih =>
    rw [List.replicate_succ]
    simp only [memLoop, Option.map_none]
    rw [if_neg (by decide)]
    exact ih _

/-- If /proc/meminfo cannot be opened the loop runs past the end of its buffer. -/
theorem C57_open_fails : getMemAvail none = none := memLoop_nul _ _

section Examples

def exampleMeminfo : List MemLine :=
  [⟨"MemTotal".toList, 7, 16318452, " kB".toList⟩, ⟨"MemFree".toList, 9, 123, " kB".toList⟩,
   ⟨"MemAvailable".toList, 3, 8132000, " kB".toList⟩, ⟨"HugePages_Total".toList, 7, 0, []⟩]

example : ∀ l ∈ exampleMeminfo, l.Proper := by
  intro l hl
  simp only [exampleMeminfo, List.mem_cons, List.not_mem_nil, or_false] at hl
  rcases hl with rfl | rfl | rfl | rfl <;> exact ⟨by decide +kernel, by decide +kernel⟩

example : exampleMeminfo.flatMap MemLine.text =
    "MemTotal:       16318452 kB\nMemFree:         123 kB\nMemAvailable:   8132000 kB\nHugePages_Total:       0\n".toList := by
  decide +kernel

example : getMemAvail (some (exampleMeminfo.flatMap MemLine.text)) = some (1024 * 8132000) := by decide +kernel

example : timeStamp "1700000000".toList = some 1700000000 ∧ timeStamp "-1".toList = some (-1) := by decide +kernel

end Examples

end Maike.Text.Numbers
