import Verif.Kvs.JsonLoad
import Verif.Io.Buffers

/-!
# Reading the output of a recipe (C74)

`jsonLoad` on an arbitrary source (core/key_value_store/json_handle.cpp with core/io/input_buffer.hpp), and the source that
is used for the output of recipes (core/db/compiler.cpp).
-/

namespace Maike.Kvs.JsonLoad

open Maike.Io

variable {V σ : Type}

/-! ## Model -/

/-- `ReadHelper::fetch`, core/key_value_store/json_handle.cpp:38-57, on an `InputBuffer` of size `cap`. `buf` has been
written already. `none` if `read` never returns. -/
def fetchFrom (s : Source σ) (cap n : Nat) (buf : List UInt8) (b : InputBuffer σ) : Option (List UInt8 × InputBuffer σ) :=
  if buf.length ≥ n then some (buf, b)
  else
    match b.getchar s cap with
    | none => none
    | some (c, b) =>
      if c = -1 then some ([], b)
      else
        let c := UInt8.ofNat c.toNat
        if isStop c then some (buf ++ [c], b) else fetchFrom s cap n (buf ++ [c]) b
termination_by n - buf.length
decreasing_by simp; omega

/-- `json_load_callback`, calling `fetch` at most `fuel` times. `none` if it has not returned by then. -/
def loadFrom (d : Decoder V) (s : Source σ) (cap n : Nat) : Nat → List UInt8 → InputBuffer σ → Bool → Option (Outcome V)
  | 0, _, _, _ => none
  | fuel + 1, text, b, hasData =>
    match d.decide text with
    | some r => some (finish r hasData)
    | none =>
      match fetchFrom s cap n [] b with
      | none => none
      | some (block, b) =>
        if block = [] then some (finish (d.atEnd text) hasData)
        else loadFrom d s cap n fuel (text ++ block) b (hasData || block.any fun c => !isBlank c)

/-- `jsonLoad`, core/key_value_store/json_handle.cpp:71-91, on any source; the size of the `InputBuffer` is the default argument in
core/io/input_buffer.hpp:12. `n` is the size of jansson's buffer. -/
def jsonLoadFrom (d : Decoder V) (s : Source σ) (n : Nat) (st : σ) (fuel : Nat) : Option (Outcome V) :=
  loadFrom d s 4096 n fuel [] (InputBuffer.mk' st) false

/-- `BufferReader`, core/db/compiler.cpp:39-43. -/
structure BufferReader where
  buffer : List UInt8
  readOffset : Nat

/-- `read(BufferReader&, ...)`, core/db/compiler.cpp:45-52. The offset is not updated. -/
def bufferReader : Source BufferReader where
  read n r :=
    let bytesLeft := r.buffer.length - r.readOffset
    let bytesToRead := min n bytesLeft
    some (some ((r.buffer.drop r.readOffset).take bytesToRead), r)

/-- Evaluating the output of a recipe, core/db/compiler.cpp:83-84 and 118-123. Empty output counts as an object without members. -/
def readOutput (d : Decoder V) (n : Nat) (output : List UInt8) (fuel : Nat) : Option (Outcome V) :=
  if output.length ≠ 0 then jsonLoadFrom d bufferReader n ⟨output, 0⟩ fuel else some .nothing

/-! ## Lemmas -/

theorem toNat_ne_neg (c : UInt8) : ((c.toNat : Int)) ≠ -1 := by omega

/-- The buffer provides the bytes of the list, and then anything. -/
inductive Provides (s : Source σ) (cap : Nat) : InputBuffer σ → List UInt8 → Prop where
  | nil (b) : Provides s cap b []
  | cons (b b' c l) : b.getchar s cap = some ((c.toNat : Int), b') → Provides s cap b' l → Provides s cap b (c :: l)

theorem fetchFrom_provides (s : Source σ) (cap n : Nat) (buf : List UInt8) (b : InputBuffer σ) (l : List UInt8) (h : Provides s cap b l)
    (hstop : ∃ c ∈ l, isStop c = true) (hb : buf.length < n) :
    ∃ block rest b', fetchFrom s cap n buf b = some (buf ++ block, b') ∧ block ≠ [] ∧ l = block ++ rest ∧ Provides s cap b' rest := by
  induction l generalizing buf b with
  | nil => obtain ⟨c, hc, _⟩ := hstop; cases hc
  | cons c l ih =>
    cases h with
    | cons _ b' _ _ hg hp =>
      unfold fetchFrom
      rw [if_neg (by omega), hg]
      simp only
      rw [if_neg (toNat_ne_neg c)]
      simp only [Int.toNat_natCast, UInt8.ofNat_toNat]
      split
      · exact ⟨[c], l, b', rfl, by simp, rfl, hp⟩
      · rename_i hc
        by_cases hn : (buf ++ [c]).length < n
        · have hs : ∃ c ∈ l, isStop c = true := by
            obtain ⟨x, hx, hx2⟩ := hstop
            rcases List.mem_cons.mp hx with rfl | hx
            · exact absurd hx2 hc
            · exact ⟨x, hx, hx2⟩
          obtain ⟨block, rest, b'', h1, h2, h3, h4⟩ := ih (buf ++ [c]) b' hp hs hn
          exact ⟨c :: block, rest, b'', by rw [h1]; simp, by simp, by rw [h3]; rfl, h4⟩
        · refine ⟨[c], l, b', ?_, by simp, rfl, hp⟩
          unfold fetchFrom
          rw [if_pos (by omega)]

theorem any_of_decided (d : Decoder V) (hd : d.Ok) {a : List UInt8} {r : Option V} (h : d.decide a = some r) :
    (a.any fun c => !isBlank c) = true := by
  rw [List.any_eq_true]
  apply Classical.byContradiction
  intro hno
  have := hd.blank a (fun c hc => by
    cases hb : isBlank c
    · exact absurd ⟨c, hc, by simp [hb]⟩ hno
    · rfl)
  rw [this] at h
  cases h

/-- A document that ends with a stop byte is decoded, if the source provides it. -/
theorem loadFrom_provides (d : Decoder V) (hd : d.Ok) (s : Source σ) (cap n : Nat) (hn : 0 < n) (doc : List UInt8) (r : Option V)
    (hdoc : d.decide doc = some r) (hend : ∃ c, doc.getLast? = some c ∧ isStop c = true) (fuel : Nat) :
    ∀ (text l : List UInt8) (b : InputBuffer σ), text ++ l = doc → l.length < fuel → Provides s cap b l →
      loadFrom d s cap n fuel text b (text.any fun c => !isBlank c) = some (finish r true) := by
  induction fuel with
  | zero => intro _ _ _ _ h; omega
  | succ fuel ih =>
    intro text l b he hl hp
    cases ht : d.decide text with
    | some r' =>
      have : r = r' := decide_unique d hd (a := doc) (b := []) (a' := text) (b' := l) (by simp [he]) hdoc ht
      subst this
      simp [loadFrom, ht, any_of_decided d hd ht]
    | none =>
      have hne : l ≠ [] := by
        rintro rfl
        rw [List.append_nil] at he
        rw [he, hdoc] at ht
        cases ht
      have hstop : ∃ c ∈ l, isStop c = true := by
        obtain ⟨c, hc, hs⟩ := hend
        obtain ⟨l', x, rfl⟩ : ∃ l' x, l = l' ++ [x] := ⟨l.dropLast, l.getLast hne, (List.dropLast_concat_getLast hne).symm⟩
        rw [← he, ← List.append_assoc, List.getLast?_concat] at hc
        injection hc with hc
        exact ⟨c, by simp [hc], hs⟩
      obtain ⟨block, rest, b', h1, h2, h3, h4⟩ := fetchFrom_provides s cap n [] b l hp hstop (by simpa using hn)
      simp only [loadFrom, ht, h1, List.nil_append, h2, if_false]
      rw [← List.any_append]
      refine ih (text ++ block) rest b' (by rw [← he, h3, List.append_assoc]) ?_ h4
      have := List.length_pos_iff.mpr h2
      rw [h3] at hl
      simp at hl
      omega

/-- Sources that provide a finite sequence of bytes. -/
def Reads (R : σ → List UInt8 → Prop) (b : InputBuffer σ) (bs : List UInt8) : Prop := ∃ rest, R b.src rest ∧ bs = b.buf ++ rest

theorem reads_getchar {s : Source σ} {cap : Nat} {R : σ → List UInt8 → Prop} (hs : Streams s cap R) (b : InputBuffer σ) (bs : List UInt8)
    (h : Reads R b bs) :
    match bs with
    | [] => ∃ b', b.getchar s cap = some (-1, b') ∧ Reads R b' []
    | c :: l => ∃ b', b.getchar s cap = some ((c.toNat : Int), b') ∧ Reads R b' l := by
  rcases b with ⟨buf, st⟩
  obtain ⟨rest, hR, rfl⟩ := h
  cases buf with
  | cons c buf => exact ⟨⟨buf, st⟩, rfl, rest, hR, rfl⟩
  | nil =>
    obtain ⟨r, st', hr, hm⟩ := hs st rest hR
    rcases r with _ | _ | ⟨c, chunk⟩
    · obtain ⟨rfl, hR'⟩ := hm
      exact ⟨⟨[], st'⟩, by simp [InputBuffer.getchar, hr], [], hR', rfl⟩
    · obtain ⟨rfl, hR'⟩ := hm
      exact ⟨⟨[], st'⟩, by simp [InputBuffer.getchar, hr], [], hR', rfl⟩
    · obtain ⟨bs', rfl, hR'⟩ := hm
      exact ⟨⟨chunk, st'⟩, by simp [InputBuffer.getchar, hr], bs', hR', rfl⟩

theorem fetchFrom_reads {s : Source σ} {cap : Nat} {R : σ → List UInt8 → Prop} (hs : Streams s cap R) (n : Nat) (bs buf : List UInt8)
    (b : InputBuffer σ) (hb : buf.length ≤ n) (h : Reads R b bs) :
    ∃ b', fetchFrom s cap n buf b = some ((fetchLoop n buf bs).1, b') ∧ Reads R b' (fetchLoop n buf bs).2 := by
  induction bs generalizing buf b with
  | nil =>
    unfold fetchFrom fetchLoop
    by_cases hl : buf.length = n
    · rw [if_pos (by omega), if_pos hl]; exact ⟨b, rfl, h⟩
    · obtain ⟨b', h1, h2⟩ := reads_getchar hs b [] h
      rw [if_neg (by omega), if_neg hl, h1]
      exact ⟨b', by simp, h2⟩
  | cons c bs ih =>
    unfold fetchFrom fetchLoop
    by_cases hl : buf.length = n
    · rw [if_pos (by omega), if_pos hl]; exact ⟨b, rfl, h⟩
    · obtain ⟨b', h1, h2⟩ := reads_getchar hs b (c :: bs) h
      rw [if_neg (by omega), if_neg hl, h1]
      simp only
      rw [if_neg (toNat_ne_neg c)]
      simp only [Int.toNat_natCast, UInt8.ofNat_toNat]
      split
      · exact ⟨b', rfl, h2⟩
      · exact ih (buf ++ [c]) b' (by simp; omega) h2

theorem loadFrom_reads (d : Decoder V) {s : Source σ} {cap : Nat} {R : σ → List UInt8 → Prop} (hs : Streams s cap R) (n : Nat) (hn : 0 < n)
    (fuel : Nat) : ∀ (text bs : List UInt8) (b : InputBuffer σ) (hasData : Bool), bs.length < fuel → Reads R b bs →
      loadFrom d s cap n fuel text b hasData = some (loadLoop d n fuel text bs hasData) := by
  induction fuel with
  | zero => intro _ _ _ _ h; omega
  | succ fuel ih =>
    intro text bs b hasData hl h
    unfold loadFrom loadLoop
    cases ht : d.decide text with
    | some r => rfl
    | none =>
      simp only
      obtain ⟨b', h1, h2⟩ := fetchFrom_reads hs n bs [] b (by simp) h
      rw [h1]
      simp only
      rw [show fetchLoop n [] bs = fetch n bs from rfl] at *
      by_cases hb : (fetch n bs).1 = []
      · simp [hb]
      · rw [if_neg hb, if_neg hb]
        refine ih _ _ _ _ ?_ h2
        rcases fetch_spec n hn bs with ⟨h3, _⟩ | ⟨h3, _⟩
        · exact absurd h3 hb
        · have := congrArg List.length h3
          have := List.length_pos_iff.mpr hb
          simp only [List.length_append] at *
          omega

/-! ## C73, for any source -/

/-- C73: If the source provides the bytes of `bs` in pieces of any size, then what is loaded depends on these bytes only; it is what the theorems above are
about. -/
theorem C73_any_source (d : Decoder V) {s : Source σ} {R : σ → List UInt8 → Prop} (hs : Streams s 4096 R) (n : Nat) (hn : 0 < n) {st : σ}
    {bs : List UInt8} (h : R st bs) : ∃ steps, ∀ fuel, steps ≤ fuel → jsonLoadFrom d s n st fuel = some (jsonLoad d n bs) := by
  refine ⟨bs.length + 1, fun fuel hf => ?_⟩
  have e := fun f (hf : bs.length < f) => loadFrom_reads d hs n hn f [] bs (InputBuffer.mk' st) false hf ⟨bs, h, rfl⟩
  unfold jsonLoadFrom jsonLoad
  rw [e fuel (by omega)]
  congr 1
  -- more steps than necessary do not matter
  have key : ∀ f g (text input : List UInt8) (hasData : Bool), input.length < f → input.length < g →
      loadLoop d n f text input hasData = loadLoop d n g text input hasData := by
    intro f
    induction f with
    | zero => intro _ _ _ _ h; omega
    | succ f ih =>
      intro g text input hasData hf hg
      cases g with
      | zero => omega
      | succ g =>
        unfold loadLoop
        cases hdt : d.decide text with
        | some r => rfl
        | none =>
          rcases hx : fetch n input with ⟨block, rest⟩
          simp only
          split
          · rfl
          · rename_i hb
            rcases fetch_spec n hn input with ⟨h1, _⟩ | ⟨h1, _⟩
            · rw [hx] at h1; exact absurd h1 hb
            · rw [hx] at h1
              have := congrArg List.length h1
              have := List.length_pos_iff.mpr hb
              simp only [List.length_append] at *
              exact ih _ _ _ _ (by omega) (by omega)
  exact key _ _ _ _ _ (by omega) (by omega)

/-! ## C74 -/

theorem provides_buf (s : Source σ) (cap : Nat) (l more : List UInt8) (st : σ) : Provides s cap ⟨l ++ more, st⟩ l := by
  induction l with
  | nil => exact .nil _
  | cons c l ih => exact .cons _ ⟨l ++ more, st⟩ c l rfl ih

theorem bufferReader_read (cap : Nat) (out : List UInt8) : bufferReader.read cap ⟨out, 0⟩ = some (some (out.take cap), ⟨out, 0⟩) := by
  have : out.take (min cap out.length) = out.take cap := by
    rw [List.take_eq_take_iff]; omega
  simp [bufferReader, this]

theorem bufferReader_getchar (out : List UInt8) (buf : List UInt8) :
    (⟨buf, ⟨out, 0⟩⟩ : InputBuffer BufferReader).getchar bufferReader 4096 =
      match buf with
      | c :: rest => some ((c.toNat : Int), ⟨rest, ⟨out, 0⟩⟩)
      | [] =>
        match out.take 4096 with
        | c :: rest => some ((c.toNat : Int), ⟨rest, ⟨out, 0⟩⟩)
        | [] => some (-1, ⟨[], ⟨out, 0⟩⟩) := by
  cases buf with
  | cons c rest => rfl
  | nil =>
    simp only [InputBuffer.getchar, bufferReader_read]
    cases out.take 4096 <;> rfl

/-- C74, the part that holds: if the document which the recipe prints ends with a closing bracket within the first 4096 bytes, then it
is decoded, or reported if malformed, whatever the recipe prints after it.

Missing: longer documents, and output without a complete document; see `C74_long` and `C74_never_ends`. -/
theorem C74_short_partial (d : Decoder V) (hd : d.Ok) (n : Nat) (hn : 0 < n) (doc rest : List UInt8) (r : Option V) (hdoc : d.decide doc = some r)
    (hend : doc.getLast? = some '}'.toUInt8 ∨ doc.getLast? = some ']'.toUInt8) (hlen : doc.length ≤ 4096) :
    ∃ steps, readOutput d n (doc ++ rest) steps = some (match r with | some v => .value v | none => .error) := by
  have hstop : ∃ c, doc.getLast? = some c ∧ isStop c = true := by rcases hend with h | h <;> exact ⟨_, h, by decide⟩
  have hne : doc ≠ [] := by rintro rfl; obtain ⟨c, h, _⟩ := hstop; cases h
  refine ⟨doc.length + 1, ?_⟩
  unfold readOutput jsonLoadFrom
  rw [if_pos (by have := List.length_pos_iff.mpr hne; rw [List.length_append]; omega)]
  have htake : (doc ++ rest).take 4096 = doc ++ rest.take (4096 - doc.length) := by
    rw [List.take_append, List.take_of_length_le hlen]
  have hp : Provides bufferReader 4096 (InputBuffer.mk' ⟨doc ++ rest, 0⟩) doc := by
    cases doc with
    | nil => exact absurd rfl hne
    | cons c l =>
      refine .cons _ ⟨l ++ rest.take (4096 - (c :: l).length), ⟨c :: l ++ rest, 0⟩⟩ c l ?_ (provides_buf _ _ _ _ _)
      rw [InputBuffer.mk', bufferReader_getchar, htake]
      rfl
  rw [show false = ([] : List UInt8).any (fun c => !isBlank c) from rfl,
    loadFrom_provides d hd bufferReader 4096 n hn doc r hdoc hstop (doc.length + 1) [] doc _ rfl (by omega) hp]
  cases r <;> rfl

theorem fetchFrom_mem (out : List UInt8) (hout : out ≠ []) (n : Nat) (P : UInt8 → Prop) (hP : ∀ c ∈ out, P c) :
    ∀ (k : Nat) (buf : List UInt8) (rest : List UInt8), n - buf.length = k → (∀ c ∈ buf, P c) → (∀ c ∈ rest, P c) → (buf = [] → 0 < n) →
      ∃ block rest', fetchFrom bufferReader 4096 n buf ⟨rest, ⟨out, 0⟩⟩ = some (block, ⟨rest', ⟨out, 0⟩⟩) ∧ block ≠ [] ∧
        (∀ c ∈ block, P c) ∧ (∀ c ∈ rest', P c) ∧ block.head? = (buf ++ rest ++ out).head? := by
  have htake : ∃ c l, out.take 4096 = c :: l ∧ ∀ x ∈ c :: l, P x := by
    cases h : out.take 4096 with
    | nil => simp at h; exact absurd h hout
    | cons c l => exact ⟨c, l, rfl, fun x hx => hP x (List.take_subset 4096 out (by rw [h]; exact hx))⟩
  obtain ⟨c0, l0, hc0, hP0⟩ := htake
  intro k
  induction k with
  | zero =>
    intro buf rest hk hb hr hn
    unfold fetchFrom
    rw [if_pos (by omega)]
    have hne : buf ≠ [] := fun e => by have := hn e; subst e; simp at hk; omega
    refine ⟨buf, rest, rfl, hne, hb, hr, ?_⟩
    cases buf with
    | nil => exact absurd rfl hne
    | cons c buf => rfl
  | succ k ih =>
    intro buf rest hk hb hr hn
    unfold fetchFrom
    rw [if_neg (by omega), bufferReader_getchar]
    have step : ∀ (c : UInt8) (l : List UInt8), P c → (∀ x ∈ l, P x) →
        ∃ block rest', (if isStop (UInt8.ofNat ((c.toNat : Int)).toNat) = true then
            some (buf ++ [UInt8.ofNat ((c.toNat : Int)).toNat], (⟨l, ⟨out, 0⟩⟩ : InputBuffer BufferReader))
          else fetchFrom bufferReader 4096 n (buf ++ [UInt8.ofNat ((c.toNat : Int)).toNat]) ⟨l, ⟨out, 0⟩⟩) = some (block, ⟨rest', ⟨out, 0⟩⟩) ∧
          block ≠ [] ∧ (∀ c ∈ block, P c) ∧ (∀ c ∈ rest', P c) ∧ block.head? = (buf ++ [c]).head? := by
      intro c l hc hl
      have hb' : ∀ x ∈ buf ++ [c], P x := by
        intro x hx
        rcases List.mem_append.mp hx with hx | hx
        · exact hb x hx
        · rw [List.mem_singleton.mp hx]; exact hc
      simp only [Int.toNat_natCast, UInt8.ofNat_toNat]
      split
      · exact ⟨buf ++ [c], l, rfl, by simp, hb', hl, rfl⟩
      · obtain ⟨block, rest', h1, h2, h3, h4, h5⟩ := ih (buf ++ [c]) l (by simp; omega) hb' hl (by simp)
        exact ⟨block, rest', h1, h2, h3, h4, by rw [h5]; cases buf <;> rfl⟩
    cases rest with
    | cons c l =>
      simp only
      rw [if_neg (toNat_ne_neg c)]
      obtain ⟨block, rest', h1, h2, h3, h4, h5⟩ := step c l (hr c (by simp)) (fun x hx => hr x (by simp [hx]))
      exact ⟨block, rest', h1, h2, h3, h4, by rw [h5]; cases buf <;> rfl⟩
    | nil =>
      rw [hc0]
      simp only
      rw [if_neg (toNat_ne_neg c0)]
      obtain ⟨block, rest', h1, h2, h3, h4, h5⟩ := step c0 l0 (hP0 c0 (by simp)) (fun x hx => hP0 x (by simp [hx]))
      refine ⟨block, rest', h1, h2, h3, h4, ?_⟩
      rw [h5]
      cases buf with
      | cons c buf => rfl
      | nil =>
        cases out with
        | nil => exact absurd rfl hout
        | cons x out => simp only [List.take_succ_cons, List.cons.injEq] at hc0; simp [hc0.1]

/-- Reading goes on for ever, if the decoder does not decide on any sequence of the bytes in the output that begins like the output. -/
theorem never_ends (d : Decoder V) (n : Nat) (hn : 0 < n) (out : List UInt8) (hout : out ≠ []) (P : UInt8 → Prop) (hP : ∀ c ∈ out, P c)
    (h : ∀ a, (∀ c ∈ a, P c) → (a ≠ [] → a.head? = out.head?) → d.decide a = none) (fuel : Nat) : readOutput d n out fuel = none := by
  unfold readOutput jsonLoadFrom
  rw [if_pos (by have := List.length_pos_iff.mpr hout; omega)]
  have key : ∀ (fuel : Nat) (text rest : List UInt8) (hasData : Bool), (∀ c ∈ text, P c) → (∀ c ∈ rest, P c) →
      (text ≠ [] → text.head? = out.head?) → (text = [] → rest = []) →
      loadFrom d bufferReader 4096 n fuel text ⟨rest, ⟨out, 0⟩⟩ hasData = none := by
    intro fuel
    induction fuel with
    | zero => intros; rfl
    | succ fuel ih =>
      intro text rest hasData ht hr hh he
      obtain ⟨block, rest', h1, h2, h3, h4, h5⟩ := fetchFrom_mem out hout n P hP _ [] rest rfl (by simp) hr (fun _ => hn)
      simp only [loadFrom, h text ht hh, h1, h2, if_false]
      refine ih _ _ _ ?_ h4 ?_ ?_
      · intro c hc
        rcases List.mem_append.mp hc with hc | hc
        · exact ht c hc
        · exact h3 c hc
      · intro _
        cases text with
        | nil => rw [he rfl] at h5; simpa using h5
        | cons x text => simpa using hh (by simp)
      · intro e; simp [h2] at e
  exact key fuel [] [] false (by simp) (by simp) (by simp) (by simp)

/-- C74 is false: if a recipe prints only blanks, such as a single line break, then reading its output never ends. -/
theorem C74_never_ends (d : Decoder V) (hd : d.Ok) (n : Nat) (hn : 0 < n) (out : List UInt8) (hout : out ≠ []) (h : ∀ c ∈ out, isBlank c = true)
    (fuel : Nat) : readOutput d n out fuel = none :=
  never_ends d n hn out hout _ h (fun a ha _ => hd.blank a ha) fuel

/-- A recipe that prints nothing is fine. -/
theorem C74_empty (d : Decoder V) (n fuel : Nat) : readOutput d n [] fuel = some .nothing := by simp [readOutput]

theorem getchar_congr (out out' : List UInt8) (h : out.take 4096 = out'.take 4096) (buf : List UInt8) :
    (∃ buf', (⟨buf, ⟨out, 0⟩⟩ : InputBuffer BufferReader).getchar bufferReader 4096 = some (-1, ⟨buf', ⟨out, 0⟩⟩) ∧
      (⟨buf, ⟨out', 0⟩⟩ : InputBuffer BufferReader).getchar bufferReader 4096 = some (-1, ⟨buf', ⟨out', 0⟩⟩)) ∨
    (∃ (c : UInt8) (buf' : List UInt8),
      (⟨buf, ⟨out, 0⟩⟩ : InputBuffer BufferReader).getchar bufferReader 4096 = some ((c.toNat : Int), ⟨buf', ⟨out, 0⟩⟩) ∧
      (⟨buf, ⟨out', 0⟩⟩ : InputBuffer BufferReader).getchar bufferReader 4096 = some ((c.toNat : Int), ⟨buf', ⟨out', 0⟩⟩)) := by
  rw [bufferReader_getchar, bufferReader_getchar, ← h]
  cases buf with
  | cons c l => right; exact ⟨c, l, rfl, rfl⟩
  | nil =>
    cases ht : out.take 4096 with
    | cons c l => right; exact ⟨c, l, rfl, rfl⟩
    | nil => left; exact ⟨[], rfl, rfl⟩

theorem fetchFrom_congr (out out' : List UInt8) (h : out.take 4096 = out'.take 4096) (n : Nat) :
    ∀ (k : Nat) (buf rest : List UInt8), n - buf.length = k → ∃ block rest',
      fetchFrom bufferReader 4096 n buf ⟨rest, ⟨out, 0⟩⟩ = some (block, ⟨rest', ⟨out, 0⟩⟩) ∧
      fetchFrom bufferReader 4096 n buf ⟨rest, ⟨out', 0⟩⟩ = some (block, ⟨rest', ⟨out', 0⟩⟩) := by
  intro k
  induction k with
  | zero =>
    intro buf rest hk
    refine ⟨buf, rest, ?_, ?_⟩ <;> (unfold fetchFrom; rw [if_pos (by omega)])
  | succ k ih =>
    intro buf rest hk
    rcases getchar_congr out out' h rest with ⟨buf', h1, h2⟩ | ⟨c, buf', h1, h2⟩
    · refine ⟨[], buf', ?_, ?_⟩
      · unfold fetchFrom; rw [if_neg (by omega), h1]; rfl
      · unfold fetchFrom; rw [if_neg (by omega), h2]; rfl
    · unfold fetchFrom
      rw [if_neg (by omega), if_neg (by omega), h1, h2]
      simp only
      rw [if_neg (toNat_ne_neg c), if_neg (toNat_ne_neg c)]
      simp only [Int.toNat_natCast, UInt8.ofNat_toNat]
      split
      · exact ⟨_, _, rfl, rfl⟩
      · exact ih (buf ++ [c]) buf' (by simp; omega)

/-- C74 is false: what comes after the first 4096 bytes has no influence at all. -/
theorem C74_long (d : Decoder V) (n : Nat) (out out' : List UInt8) (h : out.take 4096 = out'.take 4096) (fuel : Nat) :
    readOutput d n out fuel = readOutput d n out' fuel := by
  unfold readOutput jsonLoadFrom
  have he : (out.length ≠ 0) ↔ (out'.length ≠ 0) := by
    have := congrArg List.length h
    simp only [List.length_take] at this
    omega
  by_cases h0 : out.length ≠ 0
  · rw [if_pos h0, if_pos (he.mp h0)]
    have key : ∀ (fuel : Nat) (text rest : List UInt8) (hasData : Bool),
        loadFrom d bufferReader 4096 n fuel text ⟨rest, ⟨out, 0⟩⟩ hasData = loadFrom d bufferReader 4096 n fuel text ⟨rest, ⟨out', 0⟩⟩ hasData := by
      intro fuel
      induction fuel with
      | zero => intros; rfl
      | succ fuel ih =>
        intro text rest hasData
        obtain ⟨block, rest', h1, h2⟩ := fetchFrom_congr out out' h n _ [] rest rfl
        unfold loadFrom
        rw [h1, h2]
        simp only
        cases d.decide text with
        | some r => rfl
        | none => simp only; split; rfl; exact ih _ _ _
    exact key fuel [] [] false
  · rw [if_neg h0, if_neg (fun h => h0 (he.mpr h))]

/-- C74 is false: a recipe prints a well-formed document of more than 4096 bytes, and it is never decoded, although it would be if it were
read from a file. -/
theorem C74_false : ∃ (d : Decoder (List UInt8)) (out : List UInt8) (v : List UInt8), d.Ok ∧ jsonLoad d 1024 out = .value v ∧
    ∀ fuel, readOutput d 1024 out fuel = none := by
  let body : List UInt8 := List.replicate 5000 'a'.toUInt8
  let out : List UInt8 := '{'.toUInt8 :: body ++ ['}'.toUInt8]
  have hdec : braces.decide out = some (some body) := by
    have hmem : '}'.toUInt8 ∈ body ++ ['}'.toUInt8] := by simp
    have hd : out.dropWhile isBlank = '{'.toUInt8 :: (body ++ ['}'.toUInt8]) := by
      show ('{'.toUInt8 :: (body ++ ['}'.toUInt8])).dropWhile isBlank = _
      rw [List.dropWhile_cons, if_neg (by decide)]
    have ht : (body ++ ['}'.toUInt8]).takeWhile (· ≠ '}'.toUInt8) = body := by
      rw [List.takeWhile_append_of_pos]
      · rw [List.takeWhile_cons, if_neg (by decide), List.append_nil]
      · intro a ha
        rw [List.eq_of_mem_replicate ha]; decide
    simp only [braces, hd, if_true, hmem, ht]
  refine ⟨braces, out, body, braces_ok, ?_, fun fuel => ?_⟩
  · have := C73_document braces braces_ok 1024 (by decide) out [] body hdec (by left; exact List.getLast?_concat)
    rwa [List.append_nil] at this
  · have hcut : out.take 4096 = ('{'.toUInt8 :: body).take 4096 := by
      show ('{'.toUInt8 :: body ++ ['}'.toUInt8]).take 4096 = _
      rw [List.take_append_of_le_length (by rw [List.length_cons, List.length_replicate]; decide)]
    rw [C74_long braces 1024 out ('{'.toUInt8 :: body) hcut]
    refine never_ends braces 1024 (by decide) _ (by simp) (fun c => c = '{'.toUInt8 ∨ c = 'a'.toUInt8) ?_ ?_ fuel
    · intro c hc
      rcases List.mem_cons.mp hc with rfl | hc
      · exact .inl rfl
      · exact .inr (List.eq_of_mem_replicate hc)
    · intro a ha hh
      cases a with
      | nil => rfl
      | cons x a =>
        have hx : x = '{'.toUInt8 := by simpa using hh (by simp)
        have hno : '}'.toUInt8 ∉ a := by
          intro hm
          rcases ha _ (List.mem_cons_of_mem _ hm) with h | h <;> exact absurd h (by decide)
        subst hx
        have hd : ('{'.toUInt8 :: a).dropWhile isBlank = '{'.toUInt8 :: a := by rw [List.dropWhile_cons, if_neg (by decide)]
        simp only [braces, hd, if_true, hno, if_false]

/-! ## Examples -/

example : ∃ steps, readOutput braces 1024 (bytes ['{', 'a', ' ', 'b', '}', '\n']) steps = some (.value (bytes ['a', ' ', 'b'])) :=
  C74_short_partial braces braces_ok 1024 (by decide) (bytes ['{', 'a', ' ', 'b', '}']) (bytes ['\n']) (some (bytes ['a', ' ', 'b']))
    (by decide) (by decide) (by decide)

/-- A recipe that prints an empty line. -/
example (fuel : Nat) : readOutput braces 1024 (bytes ['\n']) fuel = none :=
  C74_never_ends braces braces_ok 1024 (by decide) _ (by decide) (by decide) fuel

end Maike.Kvs.JsonLoad
