import Verif.Io.Fifo

/-!
# Model of `InputBuffer` and `OutputBuffer` (core/io/input_buffer.hpp, core/io/output_buffer.hpp)

The pointers into the buffers are replaced with the data between them: `[r_read_ptr, r_read_end)` for
`InputBuffer`, `[m_buffer.data(), r_write_ptr)` for `OutputBuffer`.
-/

namespace Maike.Io

/-- What the buffer is connected to. `read n st` is a call of `read` with a buffer of size `n`: it returns bytes, or -1
(`some none`), or never returns (`none`). -/
structure Source (σ : Type) where
  read : Nat → σ → Option (Option (List UInt8) × σ)

/-- An `InputBuffer` with its source. -/
structure InputBuffer (σ : Type) where
  buf : List UInt8
  src : σ

/-- The constructor, core/io/input_buffer.hpp:19-22. -/
def InputBuffer.mk' {σ : Type} (st : σ) : InputBuffer σ := ⟨[], st⟩

/-- `getchar` and `fetchAndResetPtr`, core/io/input_buffer.hpp:24-34 and 45-52. `none` if `read` never returns. -/
def InputBuffer.getchar {σ : Type} (s : Source σ) (cap : Nat) (b : InputBuffer σ) : Option (Int × InputBuffer σ) :=
  match b.buf with
  | c :: rest => some (c.toNat, { b with buf := rest })
  | [] =>
    match s.read cap b.src with
    | none => none
    | some (none, st) => some (-1, ⟨[], st⟩)
    | some (some [], st) => some (-1, ⟨[], st⟩)
    | some (some (c :: rest), st) => some (c.toNat, ⟨rest, st⟩)

/-- Results of consecutive calls of `getchar`, until `n` calls have been made or one does not return. -/
def InputBuffer.getchars {σ : Type} (s : Source σ) (cap : Nat) : Nat → InputBuffer σ → List Int
  | 0, _ => []
  | n + 1, b =>
    match b.getchar s cap with
    | none => []
    | some (c, b') => c :: getchars s cap n b'

/-- An `OutputBuffer` and the calls of `write` on its sink. -/
structure OutputBuffer where
  buf : List UInt8 := []
  sink : List (List UInt8) := []

/-- `flush`, core/io/output_buffer.hpp:54-59. The destructor (lines 38-41) does the same. -/
def OutputBuffer.flush (b : OutputBuffer) : OutputBuffer := ⟨[], b.sink ++ [b.buf]⟩

/-- `putchar`, core/io/output_buffer.hpp:23-29. -/
def OutputBuffer.putchar (cap : Nat) (c : UInt8) (b : OutputBuffer) : OutputBuffer :=
  let b := if b.buf.length = cap then b.flush else b
  ⟨b.buf ++ [c], b.sink⟩

inductive OutOp where
  | put (c : UInt8)
  | flush

def OutputBuffer.apply (cap : Nat) (b : OutputBuffer) : OutOp → OutputBuffer
  | .put c => b.putchar cap c
  | .flush => b.flush

def OutputBuffer.run (cap : Nat) (ops : List OutOp) : OutputBuffer := ops.foldl (OutputBuffer.apply cap) {}

/-! ## Specification -/

/-- `R st bs` is a relation which says that the source, in state `st`, provides the bytes `bs`, and then nothing: each call of
`read` provides at least one of the remaining bytes, or none (or -1) if there are none, and it returns. How many bytes are
provided at a time does not matter. -/
def Streams {σ : Type} (s : Source σ) (cap : Nat) (R : σ → List UInt8 → Prop) : Prop :=
  ∀ st bs, R st bs → ∃ r st', s.read cap st = some (r, st') ∧
    match r with
    | none => bs = [] ∧ R st' []
    | some [] => bs = [] ∧ R st' []
    | some chunk => ∃ bs', bs = chunk ++ bs' ∧ R st' bs'

/-- The bytes passed to `putchar`. -/
def putBytes (ops : List OutOp) : List UInt8 := ops.filterMap fun | .put c => some c | .flush => none

/-! ## Theorems -/

/-- **C26.** Whatever source an `InputBuffer` is connected to, and however the source divides its data: `getchar` returns the
bytes of the source one after another, and then -1 however often it is called. -/
theorem C26_getchar_stream {σ : Type} {s : Source σ} {cap : Nat} {R : σ → List UInt8 → Prop} (hs : Streams s cap R)
    {st : σ} {bs : List UInt8} (h : R st bs) (n : Nat) :
    (InputBuffer.mk' st).getchars s cap n =
      (bs.map fun c => (c.toNat : Int)).take n ++ List.replicate (n - bs.length) (-1) := by
  have key : ∀ (n : Nat) (b : InputBuffer σ) (rest : List UInt8), R b.src rest →
      b.getchars s cap n = ((b.buf ++ rest).map fun c => (c.toNat : Int)).take n ++
        List.replicate (n - (b.buf ++ rest).length) (-1) := by
    intro n
    induction n with
    | zero => intro b rest _; simp [InputBuffer.getchars]
    | succ n ih =>
      rintro ⟨buf, st⟩ rest hR
      cases buf with
      | cons c buf =>
        simp only [InputBuffer.getchars, InputBuffer.getchar]
        rw [ih ⟨buf, st⟩ rest hR]
        simp
      | nil =>
        obtain ⟨r, st', hr, hm⟩ := hs st rest hR
        simp only [InputBuffer.getchars, InputBuffer.getchar, hr]
        rcases r with _ | _ | ⟨c, chunk⟩
        · obtain ⟨rfl, hR'⟩ := hm
          simp only
          rw [ih ⟨[], st'⟩ [] hR']
          simp [List.replicate_succ]
        · obtain ⟨rfl, hR'⟩ := hm
          simp only
          rw [ih ⟨[], st'⟩ [] hR']
          simp [List.replicate_succ]
        · obtain ⟨bs', rfl, hR'⟩ := hm
          simp only
          rw [ih ⟨chunk, st'⟩ bs' hR']
          simp
  simpa [InputBuffer.mk'] using key n (InputBuffer.mk' st) bs h

/-- Bytes are never mistaken for the end of the stream. -/
theorem C26_byte_ne_eof (c : UInt8) : ((c.toNat : Int)) ≠ -1 := by omega

theorem run_snoc (cap : Nat) (ops : List OutOp) (o : OutOp) :
    OutputBuffer.run cap (ops ++ [o]) = (OutputBuffer.run cap ops).apply cap o := by
  simp [OutputBuffer.run]

theorem putBytes_append (a b : List OutOp) : putBytes (a ++ b) = putBytes a ++ putBytes b := by simp [putBytes]

theorem list_snoc_induction {β : Type} {P : List β → Prop} (h0 : P []) (hs : ∀ l x, P l → P (l ++ [x])) :
    ∀ l, P l := by
  intro l
  rw [← List.reverse_reverse l]
  induction l.reverse with
  | nil => exact h0
  | cons x l ih => rw [List.reverse_cons]; exact hs _ _ ih

/-- **C27** (order and completeness). At any time the bytes that were received by the sink are the bytes that were passed to
`putchar`, in this order, except for the last ones, which are in the buffer. The buffer does not overflow. -/
theorem C27_prefix {cap : Nat} (hc : 0 < cap) (ops : List OutOp) :
    putBytes ops = (OutputBuffer.run cap ops).sink.flatten ++ (OutputBuffer.run cap ops).buf ∧
    (OutputBuffer.run cap ops).buf.length ≤ cap := by
  induction ops using list_snoc_induction with
  | h0 => exact ⟨rfl, Nat.zero_le _⟩
  | hs ops o ih =>
    rw [run_snoc, putBytes_append, ih.1]
    generalize OutputBuffer.run cap ops = b at ih ⊢
    cases o with
    | flush => simp [OutputBuffer.apply, OutputBuffer.flush, putBytes]
    | put c =>
      simp only [OutputBuffer.apply, OutputBuffer.putchar, OutputBuffer.flush, putBytes]
      split
      · simp; omega
      · rename_i hne
        have := ih.2
        simp; omega

/-- **C27** (flush). After `flush`, or after the buffer has been destroyed, the sink has received everything. -/
theorem C27_flushed {cap : Nat} (hc : 0 < cap) (ops : List OutOp) :
    (OutputBuffer.run cap ops).flush.sink.flatten = putBytes ops := by
  rw [(C27_prefix hc ops).1]
  simp [OutputBuffer.flush]

/-! ## The pipeline from a filter to a parser -/

/-- What `loadSourceFile` (core/source_tree_loader/source_file_load_ctxt.cpp:190-194) makes `filterInput` write to a
`Fifo` when the filter outputs `bs` through an `OutputBuffer`: the chunks written while the buffer exists, the one
written by its destructor, and the end mark written by `stop`. -/
def filterWrites (cap : Nat) (bs : List UInt8) : List (List UInt8) :=
  (OutputBuffer.run cap (bs.map .put)).flush.sink ++ [[]]

/-- A source that provides the given results of `read`, and blocks when there are no more. -/
def scripted : Source (List (List UInt8)) where
  read _ st := match st with
    | [] => none
    | c :: rest => some (some c, rest)

theorem putBytes_puts (bs : List UInt8) : putBytes (bs.map .put) = bs := by
  simp [putBytes, List.filterMap_map, Function.comp_def]

/-- An `OutputBuffer` which is used with `putchar` only does not write empty chunks until it is destroyed, and then only if
nothing was written at all. -/
theorem puts_chunks {cap : Nat} (hc : 0 < cap) (bs : List UInt8) :
    (∀ c ∈ (OutputBuffer.run cap (bs.map .put)).sink, c ≠ []) ∧
    ((OutputBuffer.run cap (bs.map .put)).buf = [] → bs = []) := by
  induction bs using list_snoc_induction with
  | h0 => simp [OutputBuffer.run]
  | hs bs x ih =>
    rw [List.map_append, List.map_cons, List.map_nil, run_snoc]
    generalize OutputBuffer.run cap (bs.map .put) = b at ih ⊢
    simp only [OutputBuffer.apply, OutputBuffer.putchar, OutputBuffer.flush]
    split
    · rename_i hl
      refine ⟨?_, by simp⟩
      intro c hcm
      simp only [List.mem_append, List.mem_singleton] at hcm
      rcases hcm with h | rfl
      · exact ih.1 c h
      · intro h; rw [h] at hl; simp at hl; omega
    · exact ⟨ih.1, by simp⟩

theorem stream_nonempty {l : List (List UInt8)} (h : ∀ c ∈ l, c ≠ []) : Fifo.stream l = l.flatten.map some := by
  induction l with
  | nil => rfl
  | cons c l ih =>
    rw [Fifo.stream_cons, ih (fun x hx => h x (List.mem_cons_of_mem _ hx)), if_neg (h c (by simp))]
    simp

theorem stream_filterWrites {cap : Nat} (hc : 0 < cap) (bs : List UInt8) :
    ∃ marks, Fifo.stream (filterWrites cap bs) = bs.map some ++ none :: marks := by
  obtain ⟨h1, h2⟩ := puts_chunks hc bs
  have h3 := C27_prefix hc (bs.map .put)
  rw [putBytes_puts] at h3
  unfold filterWrites OutputBuffer.flush
  simp only
  rw [Fifo.stream_append, Fifo.stream_append, stream_nonempty h1]
  by_cases hb : (OutputBuffer.run cap (bs.map .put)).buf = []
  · have := h2 hb
    refine ⟨[none], ?_⟩
    rw [hb, List.append_nil] at h3
    rw [hb, ← h3.1]
    simp [Fifo.stream]
  · refine ⟨[], ?_⟩
    rw [Fifo.stream_single, if_neg hb, Fifo.stream_single]
    simp only [↓reduceIte]
    rw [← List.map_append, ← h3.1]

theorem filterMap_some (bs : List UInt8) : (bs.map some).filterMap (fun x : Option UInt8 => x) = bs := by
  simp [List.filterMap_map, Function.comp_def]

theorem prefix_append_cases {β : Type} {l a b : List β} (h : l <+: a ++ b) :
    l <+: a ∨ ∃ t, l = a ++ t ∧ t <+: b := by
  obtain ⟨r, hr⟩ := h
  rcases List.append_eq_append_iff.mp hr with ⟨t, h1, h2⟩ | ⟨t, h1, h2⟩
  · exact .inl ⟨t, h1.symm⟩
  · exact .inr ⟨t, h1, ⟨r, h2.symm⟩⟩

theorem data_no_mark {l : List (List UInt8)} (h : ∀ c ∈ l, c ≠ []) : none ∉ Fifo.stream l := by
  rw [stream_nonempty h]; simp

/-- **C28** (content). For every schedule of a thread that writes `bs` through an `OutputBuffer` to a `Fifo`, and then destroys the
buffer and calls `stop` (it may be anywhere in doing so), and a thread which reads with buffers of any size until `read` returns
zero: what has been read is a prefix of `bs`, and if `read` returned zero then it is `bs`. -/
theorem C28_content {cap : Nat} (hc : 0 < cap) (bs : List UInt8) {s : Fifo.State UInt8} (h : Fifo.Reachable s)
    (hw : s.written <+: filterWrites cap bs) (hk : Fifo.Sensible s)
    (data : List (List UInt8)) (hd : ∀ c ∈ data, c ≠ []) :
    (s.reads.map Prod.snd = data → data.flatten <+: bs) ∧
    (s.reads.map Prod.snd = data ++ [[]] → data.flatten = bs) := by
  have hp := Fifo.C25_stream h hk
  obtain ⟨rest, hrest⟩ := hw
  have hp' : Fifo.stream (s.reads.map Prod.snd) <+: Fifo.stream (filterWrites cap bs) := by
    rw [← hrest, Fifo.stream_append]
    exact hp.trans (List.prefix_append _ _)
  obtain ⟨marks, hm⟩ := stream_filterWrites hc bs
  rw [hm] at hp'
  have hmap : ∀ (l : List UInt8) (l' : List UInt8), l.map some <+: l'.map some → l <+: l' := by
    rintro l l' ⟨t, ht⟩
    have := congrArg (List.filterMap (fun x : Option UInt8 => x)) ht
    rw [List.filterMap_append, filterMap_some, filterMap_some] at this
    exact ⟨_, this⟩
  constructor
  · intro he
    rw [he, stream_nonempty hd] at hp'
    apply hmap
    rcases prefix_append_cases hp' with h | ⟨t, ht, hpre⟩
    · exact h
    · -- a mark cannot be part of data
      rcases t with _ | ⟨x, t⟩
      · simp only [List.append_nil] at ht
        rw [ht]; exact List.prefix_refl _
      · obtain ⟨u, hu⟩ := hpre
        simp only [List.cons_append, List.cons.injEq] at hu
        have : none ∈ data.flatten.map some := by rw [ht, hu.1]; simp
        exact absurd this (by rw [List.mem_map]; rintro ⟨_, _, h⟩; cases h)
  · intro he
    rw [he, Fifo.stream_append, stream_nonempty hd] at hp'
    simp only [Fifo.stream_single, ↓reduceIte] at hp'
    rcases prefix_append_cases hp' with h | ⟨t, ht, hpre⟩
    · have : none ∈ bs.map some := h.subset (by simp)
      simp at this
    · rcases List.eq_nil_or_concat t with rfl | ⟨t', x, rfl⟩
      · have : (none : Option UInt8) ∈ bs.map some := by rw [← List.append_nil (bs.map some), ← ht]; simp
        simp at this
      · rw [List.concat_eq_append, ← List.append_assoc] at ht
        have hinj := List.append_inj' ht (by simp)
        rcases t' with _ | ⟨y, t'⟩
        · have := congrArg (List.filterMap (fun x : Option UInt8 => x)) hinj.1
          rw [List.append_nil, filterMap_some, filterMap_some] at this
          exact this
        · obtain ⟨u, hu⟩ := hpre
          simp only [List.concat_eq_append, List.cons_append, List.cons.injEq] at hu
          have : none ∈ data.flatten.map some := by rw [hinj.1, hu.1]; simp
          exact absurd this (by rw [List.mem_map]; rintro ⟨_, _, h⟩; cases h)

/-- **C28** (progress). When the writing thread is done, a call of `read` by the other thread is not blocked as long as it has not
seen the end mark. -/
theorem C28_progress {cap : Nat} (hc : 0 < cap) (bs : List UInt8) {s : Fifo.State UInt8} (h : Fifo.Reachable s)
    (hw : s.written = filterWrites cap bs) (hk : Fifo.Sensible s) (hd : ∀ r ∈ s.reads, r.2 ≠ [])
    (hb : s.pc ≠ .idle) : (Fifo.step .run s).isSome := by
  cases hr : Fifo.step .run s with
  | some _ => rfl
  | none =>
    have := Fifo.C25_blocks h hk hb hr
    obtain ⟨marks, hm⟩ := stream_filterWrites hc bs
    rw [hw, hm] at this
    have h0 := data_no_mark (l := s.reads.map Prod.snd) (by
      intro c hc
      obtain ⟨r, hr, rfl⟩ := List.mem_map.mp hc
      exact hd r hr)
    exact absurd (by rw [this]; simp) h0

/-- **C28** (with `InputBuffer`). If the results of `read` that were described by `C28_content` go through an `InputBuffer`, then
`getchar` returns the bytes of `bs` and then -1. -/
theorem C28_getchar {data : List (List UInt8)} (hd : ∀ c ∈ data, c ≠ []) (more : List (List UInt8)) (cap : Nat) :
    (InputBuffer.mk' (data ++ [] :: more)).getchars scripted cap (data.flatten.length + 1) =
      (data.flatten.map fun c => (c.toNat : Int)) ++ [-1] := by
  have key : ∀ (n : Nat) (buf : List UInt8) (data : List (List UInt8)), (∀ c ∈ data, c ≠ []) →
      n = (buf ++ data.flatten).length →
      (InputBuffer.mk buf (data ++ [] :: more)).getchars scripted cap (n + 1) =
        ((buf ++ data.flatten).map fun c => (c.toNat : Int)) ++ [-1] := by
    intro n
    induction n with
    | zero =>
      intro buf data hd hn
      have hb : buf ++ data.flatten = [] := List.eq_nil_of_length_eq_zero hn.symm
      have h1 : buf = [] := (List.append_eq_nil_iff.mp hb).1
      have h2 : data.flatten = [] := (List.append_eq_nil_iff.mp hb).2
      subst h1
      have : data = [] := by
        cases data with
        | nil => rfl
        | cons c l =>
          simp at h2
          exact absurd h2.1 (hd c (by simp))
      subst this
      simp [InputBuffer.getchars, InputBuffer.getchar, scripted]
    | succ n ih =>
      intro buf data hd hn
      cases buf with
      | cons c buf =>
        rw [InputBuffer.getchars]
        simp only [InputBuffer.getchar]
        rw [ih buf data hd (by simp at hn ⊢; omega)]
        simp
      | nil =>
        cases data with
        | nil => simp at hn
        | cons ch data =>
          cases ch with
          | nil => exact absurd rfl (hd [] (by simp))
          | cons c rest =>
            rw [InputBuffer.getchars]
            simp only [InputBuffer.getchar, scripted, List.cons_append]
            have := ih rest data (fun x hx => hd x (List.mem_cons_of_mem _ hx)) (by simp at hn ⊢; omega)
            simp only [scripted] at this
            rw [this]
            simp
  exact key _ [] data hd (by simp)

/-- An explicit `flush` of an empty buffer would end the stream early: it writes the end mark. (No caller does this.) -/
theorem C28_flush_ends_stream :
    Fifo.stream (OutputBuffer.run 2 [.put 1, .flush, .flush, .put 2]).flush.sink = [some 1, none, some 2] := by decide

section Examples

/-- A source which divides its data in pieces of the given sizes (at least one byte, at most what fits). -/
def chopped : Source (List UInt8 × List Nat) where
  read n st :=
    let k := match st.2 with
      | [] => n
      | k :: _ => max 1 (min k n)
    some (some (st.1.take k), (st.1.drop k, st.2.drop 1))

theorem chopped_streams {cap : Nat} (hc : 0 < cap) : Streams chopped cap (fun st bs => st.1 = bs) := by
  rintro ⟨data, sizes⟩ bs rfl
  refine ⟨_, _, rfl, ?_⟩
  cases data with
  | nil => simp
  | cons c data =>
    simp only
    generalize hk : (match sizes with
      | [] => cap
      | k :: _ => max 1 (min k cap)) = k
    have hk1 : 0 < k := by rw [← hk]; split <;> omega
    cases k with
    | zero => omega
    | succ k => exact ⟨data.drop k, by simp [List.take_append_drop], by simp⟩

example : (InputBuffer.mk' ([1, 2, 3, 4, 5], [2, 1])).getchars chopped 4096 7 = [1, 2, 3, 4, 5, -1, -1] := by
  rw [C26_getchar_stream (chopped_streams (by decide)) rfl]; decide

example : (OutputBuffer.run 2 [.put 1, .put 2, .put 3]).sink = [[1, 2]] := by decide

/-- A reader that is interleaved with the writer gets everything. -/
example : ∃ s : Fifo.State UInt8, Fifo.Reachable s ∧ s.written = filterWrites 2 [1, 2, 3] ∧ Fifo.Sensible s ∧
    s.reads.map Prod.snd = [[1, 2], [3]] ++ [[]] := by
  refine ⟨_, ⟨[.call 4, .run, .write [1, 2], .run, .run, .write [3], .run, .call 4, .run, .run, .run, .write [], .call 4,
    .run, .run, .run], rfl⟩, by decide, ?_, by decide⟩
  unfold Fifo.Sensible; decide

end Examples

end Maike.Io
