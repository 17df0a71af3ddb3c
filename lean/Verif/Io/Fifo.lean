/-!
# Model of `Fifo` (core/io/fifo.hpp)

Any number of threads may call `write`, and one thread calls `read`. What happens with the mutex held is one
action; the parts of `read` that are executed without it are actions of their own. The chunk
which `r_read_ptr` points into is the first element of the list, and the pointer is an offset from its beginning.
Dereferencing it when the list is empty, or beyond the end of the chunk, is undefined behaviour, which the model reports as
the outcome `undefinedBehaviour`.
-/

namespace Maike.Io.Fifo

/-- Where the reading thread is in `read`, core/io/fifo.hpp:35-55. `k` is the size of the buffer. -/
inductive Pc (α : Type) where
  | idle
  /-- about to lock the mutex and evaluate the predicate of `wait`, lines 39-40 -/
  | testing (k : Nat)
  /-- blocked on the condition variable, line 40 -/
  | asleep (k : Nat)
  /-- line 45 -/
  | copying (k : Nat)
  /-- about to pop the front element, lines 51-52; `out` has been copied to the buffer -/
  | popping (k : Nat) (out : List α)
  | undefinedBehaviour
deriving DecidableEq, Repr

structure State (α : Type) where
  /-- `m_elems`: each element is a chunk with its size -/
  elems : List (List α)
  /-- `m_bytes_left` -/
  left : Nat
  /-- `r_read_ptr`, relative to the front element -/
  pos : Nat
  pc : Pc α
  /-- ghost: chunks passed to `write`, in the order in which they were added -/
  written : List (List α)
  /-- ghost: completed calls of `read`, with the size of the buffer and what was put in it -/
  reads : List (Nat × List α)

/-- The constructor, core/io/fifo.hpp:17-19. -/
def init (α : Type) : State α where
  elems := []
  left := 0
  pos := 0
  pc := .idle
  written := []
  reads := []

inductive Act (α : Type) where
  /-- `write`, core/io/fifo.hpp:21-28; `stop` (lines 30-33) is `write` of an empty chunk -/
  | write (chunk : List α)
  /-- `read` is called with a buffer of size `k`, line 37 -/
  | call (k : Nat)
  /-- the reading thread proceeds -/
  | run
  /-- the reading thread wakes up spuriously -/
  | spurious
deriving DecidableEq, Repr

/-- One step; `none` if the thread is blocked (or, for `run`, if `read` is not being executed). -/
def step {α : Type} (a : Act α) (s : State α) : Option (State α) :=
  match a with
  | .write c =>
    -- lines 25-27: push, and notify the reading thread if it is asleep
    let s := { s with elems := s.elems ++ [c], written := s.written ++ [c] }
    match s.pc with
    | .asleep k => some { s with pc := .testing k }
    | _ => some s
  | .call k =>
    match s.pc with
    | .idle => some { s with pc := if s.left = 0 then .testing k else .copying k }
    | _ => none
  | .spurious =>
    match s.pc with
    | .asleep k => some { s with pc := .testing k }
    | _ => none
  | .run =>
    match s.pc with
    | .testing k =>
      -- lines 40-43
      match s.elems with
      | [] => some { s with pc := .asleep k }
      | front :: _ => some { s with left := front.length, pos := 0, pc := .copying k }
    | .copying k =>
      -- lines 45-49
      match s.elems with
      | [] => some { s with pc := .undefinedBehaviour }
      | front :: _ =>
        let n := min k s.left
        if front.length < s.pos + n then some { s with pc := .undefinedBehaviour }
        else
          let out := (front.drop s.pos).take n
          if s.left - n = 0 then some { s with left := s.left - n, pos := s.pos + n, pc := .popping k out }
          else some { s with left := s.left - n, pos := s.pos + n, pc := .idle, reads := s.reads ++ [(k, out)] }
    | .popping k out =>
      -- lines 51-54
      match s.elems with
      | [] => some { s with pc := .undefinedBehaviour }
      | _ :: rest => some { s with elems := rest, pc := .idle, reads := s.reads ++ [(k, out)] }
    | .idle => none
    | .asleep _ => none
    | .undefinedBehaviour => none

/-- Perform a schedule. -/
def exec {α : Type} : List (Act α) → State α → Option (State α)
  | [], s => some s
  | a :: as, s =>
    match step a s with
    | some s' => exec as s'
    | none => none

/-! ## Specification -/

/-- States that occur when a `Fifo` is used. -/
def Reachable {α : Type} (s : State α) : Prop := ∃ as, exec as (init α) = some s

/-- The stream that is written: elements, and a mark (`none`) for each write of size zero. -/
def stream {α : Type} (chunks : List (List α)) : List (Option α) :=
  chunks.flatMap fun c => if c = [] then [none] else c.map some

/-- All calls of `read` had a buffer that is not empty. -/
def Sensible {α : Type} (s : State α) : Prop := ∀ r ∈ s.reads, 0 < r.1

/-- `Consumes reads c`: the calls of `read` returned the stream `c`. A call which returns elements returns just these.
A call which returns nothing returns a mark, or nothing at all if the buffer has size zero. -/
inductive Consumes {α : Type} : List (Nat × List α) → List (Option α) → Prop where
  | nil : Consumes [] []
  | data {rs c} (k : Nat) (out : List α) : Consumes rs c → out ≠ [] → Consumes (rs ++ [(k, out)]) (c ++ out.map some)
  | mark {rs c} (k : Nat) : Consumes rs c → Consumes (rs ++ [(k, [])]) (c ++ [none])
  | empty {rs c} : Consumes rs c → Consumes (rs ++ [(0, [])]) c

/-! ## Proofs -/

section Proofs

variable {α : Type}

theorem stream_append (a b : List (List α)) : stream (a ++ b) = stream a ++ stream b := by simp [stream]

theorem stream_single (c : List α) : stream [c] = if c = [] then [none] else c.map some := by simp [stream]

theorem stream_cons (c : List α) (l : List (List α)) :
    stream (c :: l) = (if c = [] then [none] else c.map some) ++ stream l := by simp [stream]

theorem stream_split {x y : List α} (hx : x ≠ []) (hy : y ≠ []) (l : List (List α)) :
    stream ((x ++ y) :: l) = stream (x :: y :: l) := by
  simp [stream_cons, hx, hy]

/-- What has been written, but not been read. -/
def pending (s : State α) : List (List α) :=
  match s.pc with
  | .popping _ out => out :: s.elems.drop 1
  | _ =>
    if s.left = 0 then s.elems
    else match s.elems with
      | [] => []
      | front :: rest => front.drop s.pos :: rest

structure Inv (s : State α) : Prop where
  safe : s.pc ≠ .undefinedBehaviour
  left : s.left ≠ 0 → ∃ front rest, s.elems = front :: rest ∧ s.pos + s.left = front.length
  testing : ∀ k, s.pc = .testing k ∨ s.pc = .asleep k → s.left = 0
  asleep : ∀ k, s.pc = .asleep k → s.elems = []
  copying : ∀ k, s.pc = .copying k → ∃ front rest, s.elems = front :: rest ∧ s.pos + s.left = front.length ∧
    (s.left = 0 → front = [])
  popping : ∀ k out, s.pc = .popping k out → s.left = 0 ∧ out.length ≤ k ∧ s.elems ≠ []
  sizes : ∀ r ∈ s.reads, r.2.length ≤ r.1
  stream : ∃ c, Consumes s.reads c ∧ stream s.written = c ++ stream (pending s)

theorem inv_init : Inv (init α) where
  safe := by simp [init]
  left := by simp [init]
  testing := by simp [init]
  asleep := by simp [init]
  copying := by simp [init]
  popping := by simp [init]
  sizes := by simp [init]
  stream := ⟨[], .nil, rfl⟩

theorem consumes_out {rs : List (Nat × List α)} {c : List (Option α)} (h : Consumes rs c) (k : Nat) (out : List α) :
    Consumes (rs ++ [(k, out)]) (c ++ Fifo.stream [out]) := by
  by_cases ho : out = []
  · subst ho; exact .mark k h
  · have := Consumes.data k out h ho
    simpa [stream_single, ho] using this

theorem inv_step {s s' : State α} {a : Act α} (hi : Inv s) (h : step a s = some s') : Inv s' := by
  obtain ⟨hsafe, hleft, htest, hsleep, hcopy, hpop, hsz, c, hc, hstr⟩ := hi
  obtain ⟨elems, left, pos, pc, written, reads⟩ := s
  simp only at hsafe hleft htest hsleep hcopy hpop hsz hc hstr
  cases a with
  | write ch =>
    -- the pending chunks grow at the end
    have hp : ∀ pc', (∀ k out, pc' ≠ .popping k out) → pending ⟨elems ++ [ch], left, pos, pc', written ++ [ch], reads⟩ =
        pending ⟨elems, left, pos, pc', written, reads⟩ ++ [ch] := by
      intro pc' hpc'
      by_cases hl : left = 0
      · cases pc' with
        | popping k out => exact absurd rfl (hpc' k out)
        | _ => simp [pending, hl]
      · obtain ⟨front, rest, he, _⟩ := hleft hl
        subst he
        cases pc' with
        | popping k out => exact absurd rfl (hpc' k out)
        | _ => simp [pending, hl]
    have hw : Fifo.stream (written ++ [ch]) = c ++ (Fifo.stream (pending ⟨elems, left, pos, pc, written, reads⟩) ++
        Fifo.stream [ch]) := by
      rw [stream_append, hstr]; simp
    simp only [step] at h
    split at h
    · rename_i k
      cases h
      have h0 := htest k (.inr rfl)
      have he := hsleep k rfl
      subst h0 he
      refine ⟨by simp, by simp, by simp, by simp, by simp, by simp, hsz, c, hc, ?_⟩
      rw [hw]
      simp [pending, Fifo.stream]
    · rename_i hnot
      cases h
      refine ⟨hsafe, ?_, htest, ?_, ?_, ?_, hsz, c, hc, ?_⟩
      · intro hl
        obtain ⟨front, rest, he, h⟩ := hleft hl
        exact ⟨front, rest ++ [ch], by simp [he], h⟩
      · intro k hk; exact absurd hk (hnot k)
      · intro k hk
        obtain ⟨front, rest, he, h⟩ := hcopy k hk
        exact ⟨front, rest ++ [ch], by simp [he], h⟩
      · intro k out hk
        obtain ⟨h1, h2, h3⟩ := hpop k out hk
        exact ⟨h1, h2, by simp⟩
      · simp only
        rw [hw]
        congr 1
        rw [← stream_append]
        congr 1
        cases pc with
        | popping k out =>
          obtain ⟨_, _, h3⟩ := hpop k out rfl
          cases elems with
          | nil => exact absurd rfl h3
          | cons x l => simp [pending]
        | _ => exact (hp _ (by simp)).symm
  | call k =>
    simp only [step] at h
    split at h
    · cases h
      by_cases hl : left = 0
      · subst hl
        simp only [↓reduceIte]
        exact ⟨by simp, by simp, by simp, by simp, by simp, by simp, hsz, c, hc, hstr⟩
      · obtain ⟨front, rest, he, h⟩ := hleft hl
        simp only [hl, ↓reduceIte]
        refine ⟨by simp, hleft, by simp, by simp, ?_, by simp, hsz, c, hc, ?_⟩
        · intro k' _
          exact ⟨front, rest, he, h, fun h => absurd h hl⟩
        · rw [hstr]; simp [pending]
    · cases h
  | spurious =>
    simp only [step] at h
    split at h
    · rename_i k
      cases h
      have h0 := htest k (.inr rfl)
      have he := hsleep k rfl
      subst h0 he
      exact ⟨by simp, by simp, by simp, by simp, by simp, by simp, hsz, c, hc, hstr⟩
    · cases h
  | run =>
    simp only [step] at h
    split at h
    · rename_i k
      have h0 := htest k (.inl rfl)
      subst h0
      split at h
      · cases h
        exact ⟨by simp, by simp, by simp, by simp, by simp, by simp, hsz, c, hc, hstr⟩
      · rename_i front rest
        cases h
        refine ⟨by simp, ?_, by simp, by simp, ?_, by simp, hsz, c, hc, ?_⟩
        · intro _; exact ⟨front, rest, rfl, by simp⟩
        · intro k' _
          exact ⟨front, rest, rfl, by simp, fun h => List.eq_nil_of_length_eq_zero h⟩
        · rw [hstr]
          simp only [pending, ↓reduceIte, List.drop_zero]
          split <;> rfl
    · rename_i k
      obtain ⟨front, rest, he, hlen, hz⟩ := hcopy k rfl
      subst he
      simp only at h
      have hmin : pos + min k left ≤ front.length := by omega
      rw [if_neg (by omega)] at h
      have hout : ((front.drop pos).take (min k left)).length = min k left := by
        simp; omega
      split at h
      · -- the chunk is exhausted
        rename_i h0
        cases h
        refine ⟨by simp, by simp [h0], by simp, by simp, by simp, ?_, hsz, c, hc, ?_⟩
        · intro k' out hk
          simp only [Pc.popping.injEq] at hk
          obtain ⟨rfl, rfl⟩ := hk
          refine ⟨h0, ?_, by simp⟩
          rw [hout]; omega
        · rw [hstr]
          have ht : (front.drop pos).take (min k left) = front.drop pos := by
            rw [List.take_of_length_le]; simp; omega
          simp only [pending, ht, List.drop_one, List.tail_cons]
          by_cases hl : left = 0
          · have hfz := hz hl
            subst hfz
            simp [hl]
          · simp [hl]
      · rename_i h0
        cases h
        have hl : left ≠ 0 := by omega
        refine ⟨by simp, ?_, by simp, by simp, by simp, by simp, ?_, ?_⟩
        · intro _; exact ⟨front, rest, rfl, by simp only; omega⟩
        · intro r hr
          rcases List.mem_append.mp hr with hr | hr
          · exact hsz r hr
          · simp only [List.mem_singleton] at hr
            subst hr
            simp only [hout]; omega
        · simp only
          by_cases hk0 : min k left = 0
          · have hk : k = 0 := by omega
            subst hk
            refine ⟨c, by simpa using Consumes.empty hc, ?_⟩
            rw [hstr]
            simp [pending]
          · refine ⟨_, consumes_out hc k _, ?_⟩
            rw [hstr]
            simp only [pending, hl, h0, ↓reduceIte, List.append_assoc]
            congr 1
            have hne : (front.drop pos).take (min k left) ≠ [] := by
              intro h; rw [h] at hout; simp at hout; omega
            have hne2 : front.drop (pos + min k left) ≠ [] := by
              intro h
              have := congrArg List.length h
              simp at this
              omega
            have hsp : front.drop pos = (front.drop pos).take (min k left) ++ front.drop (pos + min k left) := by
              rw [← List.drop_drop, List.take_append_drop]
            conv => lhs; rw [hsp, stream_split hne hne2]
            rw [show ∀ x : List α, ∀ l, Fifo.stream (x :: l) = Fifo.stream [x] ++ Fifo.stream l from
              fun x l => by simp [Fifo.stream]]
    · rename_i k out
      obtain ⟨hl, hok, hne⟩ := hpop k out rfl
      subst hl
      split at h
      · exact absurd rfl hne
      · rename_i x rest
        cases h
        refine ⟨by simp, by simp, by simp, by simp, by simp, by simp, ?_, _, consumes_out hc k out, ?_⟩
        · intro r hr
          rcases List.mem_append.mp hr with hr | hr
          · exact hsz r hr
          · simp only [List.mem_singleton] at hr
            subst hr
            exact hok
        · simp only at hstr ⊢
          rw [hstr]
          simp [pending, Fifo.stream]
    · cases h
    · cases h
    · cases h

theorem exec_inv {P : State α → Prop} (hstep : ∀ s s' a, P s → step a s = some s' → P s') {as : List (Act α)} :
    ∀ {s s' : State α}, P s → exec as s = some s' → P s' := by
  induction as with
  | nil => intro s s' h0 h; simp [exec] at h; subst h; exact h0
  | cons a as ih =>
    intro s s' h0 h
    simp only [exec] at h
    cases hs : step a s with
    | none => simp [hs] at h
    | some s₁ =>
      simp only [hs] at h
      exact ih (hstep _ _ _ h0 hs) h

theorem Reachable.inv {s : State α} (h : Reachable s) : Inv s := by
  obtain ⟨as, h⟩ := h
  exact exec_inv (P := Inv) (fun _ _ _ => inv_step) inv_init h

theorem consumes_sensible {rs : List (Nat × List α)} {c : List (Option α)} (h : Consumes rs c) :
    (∀ r ∈ rs, 0 < r.1) → c = Fifo.stream (rs.map Prod.snd) := by
  induction h with
  | nil => intro _; rfl
  | data k out _ ho ih =>
    intro hp
    rw [ih (fun r hr => hp r (List.mem_append_left _ hr))]
    simp [stream_append, stream_single, ho]
  | mark k _ ih =>
    intro hp
    rw [ih (fun r hr => hp r (List.mem_append_left _ hr))]
    simp [stream_append, stream_single]
  | empty _ ih =>
    intro hp
    exact absurd (hp (0, []) (by simp)) (by simp)

theorem consumes_bytes {rs : List (Nat × List α)} {c : List (Option α)} (h : Consumes rs c) :
    c.filterMap (fun x => x) = (rs.map Prod.snd).flatten := by
  induction h with
  | nil => rfl
  | data k out _ ho ih => simp only [List.filterMap_append, List.map_append, List.flatten_append, ih, List.filterMap_map]; congr 1; simp [Function.comp_def]
  | mark k _ ih => simp [ih]
  | empty _ ih => simp [ih]

theorem stream_bytes (l : List (List α)) : (Fifo.stream l).filterMap (fun x => x) = l.flatten := by
  induction l with
  | nil => rfl
  | cons c l ih =>
    rw [stream_cons, List.filterMap_append, ih]
    by_cases h : c = []
    · subst h; simp
    · simp [h, List.filterMap_map, Function.comp_def]

/-! ## Theorems -/

/-- **C25** (bytes). For every interleaving of writes and reads of any size: the concatenation of what was read is a prefix
of the concatenation of what was written. -/
theorem C25_prefix {s : State α} (h : Reachable s) : (s.reads.map Prod.snd).flatten <+: s.written.flatten := by
  obtain ⟨c, hc, hs⟩ := h.inv.stream
  rw [← consumes_bytes hc, ← stream_bytes s.written, hs, List.filterMap_append]
  exact List.prefix_append _ _

/-- **C25** (end markers). If buffers are not empty, the stream of elements and end marks that was read is a prefix of the
stream that was written. So a call of `read` returns zero if and only if it has arrived at a write of size zero. -/
theorem C25_stream {s : State α} (h : Reachable s) (hk : Sensible s) :
    Fifo.stream (s.reads.map Prod.snd) <+: Fifo.stream s.written := by
  obtain ⟨c, hc, hs⟩ := h.inv.stream
  rw [← consumes_sensible hc hk, hs]
  exact List.prefix_append _ _

/-- **C25** (blocking). `read` blocks only if everything that was written, including end marks, has been read, and no call
is blocked because of a lost notification: whenever a call is in progress, it can proceed unless there is nothing
to read. -/
theorem C25_blocks {s : State α} (h : Reachable s) (hk : Sensible s) (hb : s.pc ≠ .idle)
    (hn : step .run s = none) : Fifo.stream (s.reads.map Prod.snd) = Fifo.stream s.written := by
  have hi := h.inv
  obtain ⟨c, hc, hs⟩ := hi.stream
  simp only [step] at hn
  split at hn
  · split at hn <;> cases hn
  · split at hn
    · cases hn
    · repeat' split at hn
      all_goals cases hn
  · split at hn <;> cases hn
  · exact absurd (by assumption) hb
  · rename_i k hpc
    rw [← consumes_sensible hc hk, hs]
    have h1 := hi.asleep k hpc
    have h2 := hi.testing k (.inr hpc)
    simp [pending, hpc, h1, h2, Fifo.stream]
  · exact absurd (by assumption) hi.safe

/-- **C25** (memory safety). The read pointer is never used when it does not point into the front element, and `pop_front` is
never called on an empty list. `read` does not write beyond the end of the buffer. -/
theorem C25_safe {s : State α} (h : Reachable s) :
    s.pc ≠ .undefinedBehaviour ∧ ∀ r ∈ s.reads, r.2.length ≤ r.1 :=
  ⟨h.inv.safe, h.inv.sizes⟩

/-- Number of steps until a call that is not blocked returns. -/
theorem C25_read_returns {s : State α} (h : Reachable s) (hb : s.pc ≠ .idle) (he : s.elems ≠ []) :
    ∃ n, n ≤ 3 ∧ ∃ s', exec (List.replicate n .run) s = some s' ∧ s'.pc = .idle := by
  have hi := h.inv
  have pop : ∀ s : State α, Inv s → s.elems ≠ [] → ∀ k out, s.pc = .popping k out →
      ∃ s', step .run s = some s' ∧ s'.pc = .idle := by
    intro s hi he k out hpc
    simp only [step, hpc]
    split
    · exact absurd (by assumption) he
    · exact ⟨_, rfl, rfl⟩
  have copy : ∀ s : State α, Inv s → s.elems ≠ [] → ∀ k, s.pc = .copying k →
      ∃ n, n ≤ 2 ∧ ∃ s', exec (List.replicate n .run) s = some s' ∧ s'.pc = .idle := by
    intro s hi he k hpc
    cases hs : step .run s with
    | none =>
      simp only [step, hpc] at hs
      repeat' split at hs
      all_goals cases hs
    | some s₁ =>
      have hi₁ := inv_step hi hs
      have hs' := hs
      simp only [step, hpc] at hs'
      split at hs'
      · exact absurd (by assumption) he
      · split at hs'
        · cases hs'; exact absurd rfl hi₁.safe
        · split at hs'
          · obtain ⟨s₂, h2, h3⟩ := pop s₁ hi₁ (by cases hs'; exact he) k _ (by cases hs'; rfl)
            refine ⟨2, by omega, s₂, ?_, h3⟩
            simp [List.replicate, exec, hs, h2]
          · refine ⟨1, by omega, s₁, ?_, by cases hs'; rfl⟩
            simp [List.replicate, exec, hs]
  cases hpc : s.pc with
  | idle => exact absurd hpc hb
  | undefinedBehaviour => exact absurd hpc hi.safe
  | asleep k => exact absurd (hi.asleep k hpc) he
  | testing k =>
    cases hs : step .run s with
    | none =>
      simp only [step, hpc] at hs
      split at hs <;> cases hs
    | some s₁ =>
      have hs' := hs
      simp only [step, hpc] at hs'
      split at hs'
      · exact absurd (by assumption) he
      · obtain ⟨n, hn, s₂, h2, h3⟩ := copy s₁ (inv_step hi hs) (by cases hs'; exact he) k (by cases hs'; rfl)
        refine ⟨n + 1, by omega, s₂, ?_, h3⟩
        simp [List.replicate_succ, exec, hs, h2]
  | copying k =>
    obtain ⟨n, hn, s₂, h2, h3⟩ := copy s hi he k hpc
    exact ⟨n, by omega, s₂, h2, h3⟩
  | popping k out =>
    obtain ⟨s₂, h2, h3⟩ := pop s hi he k out hpc
    exact ⟨1, by omega, s₂, by simp [List.replicate, exec, h2], h3⟩

end Proofs

section Examples

/-- Chunks of sizes 2 and 3 and an end mark, read with buffers of size 3; the reader is faster than the writer. -/
def demo : List (Act Nat) :=
  [.call 3, .run, .write [1, 2], .run, .run, .run, .write [3, 4, 5], .write [], .call 2, .run, .run, .call 3, .run, .run,
   .call 3, .run, .run, .run]

example : (exec demo (init Nat)).map (fun s => (s.reads, s.pc)) =
    some ([(3, [1, 2]), (2, [3, 4]), (3, [5]), (3, [])], .idle) := by decide

/-- A call that is blocked. -/
example : ∃ s : State Nat, Reachable s ∧ Sensible s ∧ s.pc ≠ .idle ∧ step .run s = none ∧ s.written = [[1, 2]] := by
  refine ⟨_, ⟨[.write [1, 2], .call 4, .run, .run, .run, .call 1, .run], rfl⟩, ?_, by decide, rfl, rfl⟩
  unfold Sensible; decide

end Examples

end Maike.Io.Fifo
