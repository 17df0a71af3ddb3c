import Verif.Fs.Path

/-!
# The compilation log (C55)

core/db/compilation_log.cpp. Bytes are represented by characters.
-/

namespace Maike.Build.Log

open Maike.Fs (Str)

/-! ## Model -/

/-- core/db/compilation_log.cpp:34 -/
def mark : Str := [' ', '.', '.', '.', ' ']

/-- One byte in `append_log`, core/db/compilation_log.cpp:31-40. The state is the output and `newline`. -/
def appendByte (s : Str × Bool) (c : Char) : Str × Bool :=
  ((if s.2 then s.1 ++ mark else s.1) ++ [c], c == '\n')

/-- `append_log`, core/db/compilation_log.cpp:29-41 -/
def appendLog (output data : Str) : Str := (data.foldl appendByte (output, true)).1

/-- `CompilationLog::LogLevel`, core/db/compilation_log.hpp:25-30 -/
inductive Level where
  | errors
  | sourceFileInfo
  | compilationCommand
deriving DecidableEq, Repr

/-- What the log says about a task: the text of the command, and the texts between the bars. -/
structure Entry where
  cmdline : Str
  /-- id, state, path and time stamps, core/db/compilation_log.cpp:59-66 and 96-99 -/
  info : Str

/-- The text in front of the output of the recipe, core/db/compilation_log.cpp:50-70. -/
def header : Level → Entry → Str
  | .compilationCommand, e => e.cmdline ++ [' ', '#'] ++ ([' '] ++ e.info)
  | .sourceFileInfo, e => [' '] ++ e.info
  | .errors, _ => []

/-- `fputs`: everything up to the first zero. -/
def puts (s : Str) : Str := s.takeWhile (· != '\x00')

/-- core/db/compilation_log.cpp:44-81: what is printed on `stdout` and on `stderr`. -/
def texts (level : Level) (e : Entry) (out err : Str) : Str × Str :=
  let h := header level e
  let h := if h.length > 0 then h ++ ['\n'] else h
  let err := if err.length > 0 then err ++ ['\n'] else err
  (puts (appendLog h out), puts err)

/-- core/db/compilation_log.cpp:83-110: what is printed about a task that was not executed. -/
def textSkipped (level : Level) (e : Entry) : Str := puts (header level e ++ ['\n'])

/-! ## Specification -/

/-- `ls` are the lines of `data`: they make up `data`, none of them is empty, and there is a line break at the end of each line, except possibly
the last one, and nowhere else. -/
inductive Lines : Str → List Str → Prop
  | nil : Lines [] []
  | last {l : Str} : l ≠ [] → '\n' ∉ l → Lines l [l]
  | line {l rest : Str} {ls : List Str} : '\n' ∉ l → Lines rest ls → Lines (l ++ '\n' :: rest) ((l ++ ['\n']) :: ls)

/-! ## Lemmas -/

theorem append_run (l : Str) (hl : '\n' ∉ l) (o : Str) : l.foldl appendByte (o, false) = (o ++ l, false) := by
  induction l generalizing o with
  | nil => simp
  | cons c l ih =>
    have hc : (c == '\n') = false := by
      simp only [beq_eq_false_iff_ne]
      intro h
      exact hl (h ▸ List.mem_cons_self ..)
    simp only [List.foldl_cons, appendByte, hc]
    rw [ih (fun h => hl (List.mem_cons_of_mem _ h))]
    simp

theorem append_line (l : Str) (hl : '\n' ∉ l) (o : Str) : (l ++ ['\n']).foldl appendByte (o, true) = (o ++ mark ++ l ++ ['\n'], true) := by
  cases l with
  | nil => simp [appendByte]
  | cons c l =>
    have hc : (c == '\n') = false := by
      simp only [beq_eq_false_iff_ne]
      intro h
      exact hl (h ▸ List.mem_cons_self ..)
    rw [List.foldl_append]
    simp only [List.foldl_cons, appendByte, hc, List.foldl_nil]
    rw [append_run l (fun h => hl (List.mem_cons_of_mem _ h))]
    simp

theorem lines_append {data : Str} {ls : List Str} (h : Lines data ls) (o : Str) :
    appendLog o data = o ++ (ls.map (mark ++ ·)).flatten := by
  unfold appendLog
  induction h generalizing o with
  | nil => simp
  | @last l hne hl =>
    cases l with
    | nil => exact absurd rfl hne
    | cons c l =>
      have hc : (c == '\n') = false := by
        simp only [beq_eq_false_iff_ne]
        intro h
        exact hl (h ▸ List.mem_cons_self ..)
      simp only [List.foldl_cons, appendByte, hc]
      rw [append_run l (fun h => hl (List.mem_cons_of_mem _ h))]
      simp
  | @line l rest ls hl hrest ih =>
    have e : l ++ '\n' :: rest = (l ++ ['\n']) ++ rest := by simp
    rw [e, List.foldl_append, append_line l hl, ih]
    simp

theorem lines_exist (data : Str) : ∃ ls, Lines data ls := by
  have key : ∀ n, ∀ data : Str, data.length ≤ n → ∃ ls, Lines data ls := by
    intro n
    induction n with
    | zero =>
      intro data h
      cases data with
      | nil => exact ⟨[], .nil⟩
      | cons => simp at h
    | succ n ih =>
      intro data h
      by_cases hm : '\n' ∈ data
      · obtain ⟨l, rest, e, hl⟩ := List.eq_append_cons_of_mem hm
        obtain ⟨ls, hls⟩ := ih rest (by simp [e] at h; omega)
        rw [e]
        exact ⟨_, .line hl hls⟩
      · cases data with
        | nil => exact ⟨[], .nil⟩
        | cons c l => exact ⟨_, .last (by simp) hm⟩
  exact key _ data (Nat.le_refl _)

theorem cut {a b c d : Str} (h : a ++ '\n' :: b = c ++ '\n' :: d) (ha : '\n' ∉ a) (hc : '\n' ∉ c) : a = c ∧ b = d := by
  induction a generalizing c with
  | nil =>
    cases c with
    | nil => simpa using h
    | cons x c =>
      simp only [List.nil_append, List.cons_append, List.cons.injEq] at h
      exact absurd (h.1 ▸ List.mem_cons_self ..) hc
  | cons x a ih =>
    cases c with
    | nil =>
      simp only [List.nil_append, List.cons_append, List.cons.injEq] at h
      exact absurd (h.1 ▸ List.mem_cons_self ..) ha
    | cons y c =>
      simp only [List.cons_append, List.cons.injEq] at h
      have := ih h.2 (fun hm => ha (List.mem_cons_of_mem _ hm)) (fun hm => hc (List.mem_cons_of_mem _ hm))
      simp [h.1, this]

theorem lines_unique {data data' : Str} {ls ls' : List Str} (h : Lines data ls) (h' : Lines data' ls') (e : data = data') : ls = ls' := by
  induction h generalizing data' ls' with
  | nil =>
    cases h' with
    | nil => rfl
    | last h1 _ => exact absurd e.symm h1
    | line => simp at e
  | last h1 h2 =>
    cases h' with
    | nil => exact absurd e h1
    | last => rw [e]
    | line => exact absurd (by simp [e]) h2
  | line h1 h2 ih =>
    cases h' with
    | nil => simp at e
    | last h3 h4 => exact absurd (by simp [← e]) h4
    | line h3 h4 =>
      have := cut e h1 h3
      rw [this.1, ih h4 this.2]

theorem puts_id {s : Str} (h : '\x00' ∉ s) : puts s = s := by
  unfold puts
  induction s with
  | nil => rfl
  | cons c s ih =>
    have hc : (c != '\x00') = true := by
      simp only [bne_iff_ne, ne_eq]
      intro hc
      exact h (hc ▸ List.mem_cons_self ..)
    rw [List.takeWhile_cons, hc, if_pos rfl, ih fun hm => h (List.mem_cons_of_mem _ hm)]

theorem mem_append {c : Char} (data o : Str) (b : Bool) (h : c ∈ (data.foldl appendByte (o, b)).1) : c ∈ o ∨ c ∈ data ∨ c ∈ mark := by
  induction data generalizing o b with
  | nil => exact .inl h
  | cons x data ih =>
    rcases ih _ _ h with h | h | h
    · simp only [List.mem_append, List.mem_singleton] at h
      rcases h with h | h
      · split at h
        · rcases List.mem_append.1 h with h | h
          · exact .inl h
          · exact .inr (.inr h)
        · exact .inl h
      · exact .inr (.inl (h ▸ List.mem_cons_self ..))
    · exact .inr (.inl (List.mem_cons_of_mem _ h))
    · exact .inr (.inr h)

/-! ## C55 -/

/-- **C55.** Each line of the output of a recipe is preceded by the mark, and nothing else is added or changed. -/
theorem C55_lines (output data : Str) (ls : List Str) (h : Lines data ls) : appendLog output data = output ++ (ls.map (mark ++ ·)).flatten :=
  lines_append h output

/-- **C55.** Every text consists of lines, in one way only. -/
theorem C55_lines_unique (data : Str) : ∃ ls, Lines data ls ∧ ∀ ls', Lines data ls' → ls' = ls := by
  obtain ⟨ls, h⟩ := lines_exist data
  exact ⟨ls, h, fun ls' h' => lines_unique h' h rfl⟩

theorem lines_flatten {data : Str} {ls : List Str} (h : Lines data ls) : ls.flatten = data := by
  induction h with
  | nil => rfl
  | last => simp
  | line _ _ ih => simp [ih]

theorem marked_injective {d d' : Str} {ls ls' : List Str} (h : Lines d ls) (h' : Lines d' ls')
    (e : (ls.map (mark ++ ·)).flatten = (ls'.map (mark ++ ·)).flatten) : d = d' := by
  induction h generalizing d' ls' with
  | nil =>
    cases h' with
    | nil => rfl
    | last | line => simp [mark] at e
  | last h1 h2 =>
    cases h' with
    | nil => simp [mark] at e
    | last =>
      simp only [List.map_cons, List.map_nil, List.flatten_cons, List.flatten_nil, List.append_nil] at e
      exact List.append_cancel_left e
    | line h3 h4 =>
      simp only [List.map_cons, List.map_nil, List.flatten_cons, List.flatten_nil, List.append_nil, List.append_assoc] at e
      have := List.append_cancel_left e
      exact absurd (by simp [this]) h2
  | line h1 h2 ih =>
    cases h' with
    | nil => simp [mark] at e
    | last h3 h4 =>
      simp only [List.map_cons, List.map_nil, List.flatten_cons, List.flatten_nil, List.append_nil, List.append_assoc] at e
      have := List.append_cancel_left e
      exact absurd (by simp [← this]) h4
    | line h3 h4 =>
      simp only [List.map_cons, List.flatten_cons, List.append_assoc] at e
      have := List.append_cancel_left e
      simp only [List.cons_append, List.nil_append] at this
      have := cut this h1 h3
      rw [this.1, ih h4 this.2]

/-- **C55.** No information is lost: the output of the recipe can be recovered from the log. -/
theorem C55_injective (output d d' : Str) (h : appendLog output d = appendLog output d') : d = d' := by
  obtain ⟨ls, hls⟩ := lines_exist d
  obtain ⟨ls', hls'⟩ := lines_exist d'
  rw [lines_append hls, lines_append hls'] at h
  exact marked_injective hls hls' (List.append_cancel_left h)

/-- **C55.** What is printed about a task that was executed, provided that no text contains a zero: a line that depends on the log level only, the
lines of the output of the recipe, and the messages as they are. -/
theorem C55_message (level : Level) (e : Entry) (out err : Str) (ls : List Str) (hl : Lines out ls) (h1 : '\x00' ∉ header level e)
    (h2 : '\x00' ∉ out) (h3 : '\x00' ∉ err) :
    (texts level e out err).1 =
      (match level with
        | .errors => []
        | .sourceFileInfo => [' '] ++ e.info ++ ['\n']
        | .compilationCommand => e.cmdline ++ [' ', '#', ' '] ++ e.info ++ ['\n']) ++ (ls.map (mark ++ ·)).flatten ∧
    (texts level e out err).2 = if err = [] then [] else err ++ ['\n'] := by
  constructor
  · have hz : '\x00' ∉ appendLog (if (header level e).length > 0 then header level e ++ ['\n'] else header level e) out := by
      intro h
      rcases mem_append _ _ _ h with h | h | h
      · split at h
        · simp [h1] at h
        · exact h1 h
      · exact h2 h
      · simp [mark] at h
    show puts (appendLog _ out) = _
    rw [puts_id hz, lines_append hl]
    cases level
    · simp [header]
    · simp [header]
    · rw [if_pos (by simp [header]; omega)]
      simp [header]
  · show puts (if err.length > 0 then err ++ ['\n'] else err) = _
    cases err with
    | nil => rfl
    | cons c err =>
      rw [if_pos (by simp), if_neg (by simp), puts_id]
      simpa using h3

/-- The provision is needed: what follows a zero is not printed. -/
theorem C55_zero : (texts .errors ⟨[], []⟩ ['a', '\x00', '\n', 'b'] []).1 = mark ++ ['a'] := by decide

/-- Even if only errors are to be logged, an empty line is printed for each task that needs not be executed. -/
theorem C55_blank_lines (e : Entry) : textSkipped .errors e = ['\n'] := by
  simp [textSkipped, header, puts]

example : Lines "ab\n\nc".toList ["ab\n".toList, "\n".toList, "c".toList] :=
  .line (l := "ab".toList) (by decide) (.line (l := []) (by decide) (.last (by decide) (by decide)))

example : appendLog [] "ab\n\nc".toList = " ... ab\n ... \n ... c".toList := by decide

/-! ## Messages from several threads -/

/-- How far a call of `write` has come, core/db/compilation_log.cpp:77-80. -/
inductive Pc where
  | ready
  | locked
  | half
  | printed
  | done
deriving DecidableEq, Repr

/-- The two streams, `m_output_mutex`, and the threads. `order` is a ghost: the calls in the order in which they lock the mutex. -/
structure State where
  pc : Nat → Pc
  mutex : Option Nat
  out : Str
  err : Str
  order : List Nat

/-- Nothing has been printed. -/
def init : State := ⟨fun _ => .ready, none, [], [], []⟩

/-- A step of call `i`, with `msg i` being its texts. core/db/compilation_log.cpp:77-80. -/
def step (msg : Nat → Str × Str) (i : Nat) (s : State) : Option State :=
  match s.pc i with
  | .ready => if s.mutex = none then
      some { s with pc := fun j => if j = i then .locked else s.pc j, mutex := some i, order := s.order ++ [i] }
    else none
  | .locked => some { s with pc := fun j => if j = i then .half else s.pc j, out := s.out ++ (msg i).1 }
  | .half => some { s with pc := fun j => if j = i then .printed else s.pc j, err := s.err ++ (msg i).2 }
  | .printed => some { s with pc := fun j => if j = i then .done else s.pc j, mutex := none }
  | .done => none

/-- Executions: the thread that makes the next step. -/
def exec (msg : Nat → Str × Str) : List Nat → State → Option State
  | [], s => some s
  | i :: is, s => (step msg i s).bind (exec msg is)

structure Inv (msg : Nat → Str × Str) (s : State) : Prop where
  mutex : ∀ i, s.mutex = some i ↔ (s.pc i = .locked ∨ s.pc i = .half ∨ s.pc i = .printed)
  order : ∀ i, i ∈ s.order ↔ s.pc i ≠ .ready
  nodup : s.order.Nodup
  out : ∃ l, s.out = (l.map fun i => (msg i).1).flatten ∧ s.order = l ++ (match s.mutex with
    | some i => if s.pc i = .locked then [i] else []
    | none => [])
  err : ∃ l, s.err = (l.map fun i => (msg i).2).flatten ∧ s.order = l ++ (match s.mutex with
    | some i => if s.pc i = .locked ∨ s.pc i = .half then [i] else []
    | none => [])

theorem step_inv {msg : Nat → Str × Str} {i : Nat} {s t : State} (h : Inv msg s) (hs : step msg i s = some t) : Inv msg t := by
  obtain ⟨h1, h2, h3, ⟨l1, h4, h4'⟩, ⟨l2, h5, h5'⟩⟩ := h
  cases hp : s.pc i with
  | ready =>
    simp only [step, hp] at hs
    split at hs
    · rename_i hm
      obtain rfl := Option.some.inj hs
      simp only [hm, List.append_nil] at h4' h5'
      refine ⟨?_, ?_, ?_, ⟨l1, h4, ?_⟩, ⟨l2, h5, ?_⟩⟩
      · simp only
        grind
      · simp only
        grind
      · have : i ∉ s.order := by simp [h2, hp]
        simp only
        grind
      · simp [h4']
      · simp [h5']
    · cases hs
  | done => simp [step, hp] at hs
  | locked =>
    simp only [step, hp, Option.some.injEq] at hs
    subst hs
    have hm : s.mutex = some i := (h1 i).2 (by simp [hp])
    simp only [hm, hp, true_or, if_true] at h4' h5'
    refine ⟨?_, ?_, h3, ⟨l1 ++ [i], by simp [h4], ?_⟩, ⟨l2, h5, ?_⟩⟩
    · simp only
      grind
    · simp only
      grind
    · simp [hm, h4']
    · simp [hm, h5']
  | half =>
    simp only [step, hp, Option.some.injEq] at hs
    subst hs
    have hm : s.mutex = some i := (h1 i).2 (by simp [hp])
    simp only [hm, hp, or_true, if_true] at h4' h5'
    refine ⟨?_, ?_, h3, ⟨l1, h4, ?_⟩, ⟨l2 ++ [i], by simp [h5], ?_⟩⟩
    · simp only
      grind
    · simp only
      grind
    · simp at h4'
      simp [hm, h4']
    · simp [hm, h5']
  | printed =>
    simp only [step, hp, Option.some.injEq] at hs
    subst hs
    have hm : s.mutex = some i := (h1 i).2 (by simp [hp])
    simp [hm, hp] at h4' h5'
    refine ⟨?_, ?_, h3, ⟨l1, h4, ?_⟩, ⟨l2, h5, ?_⟩⟩
    · simp only
      grind
    · simp only
      grind
    · simp [h4']
    · simp [h5']

theorem exec_inv {msg : Nat → Str × Str} (is : List Nat) {s t : State} (h : Inv msg s) (hs : exec msg is s = some t) : Inv msg t := by
  induction is generalizing s with
  | nil => exact Option.some.inj hs ▸ h
  | cons i is ih =>
    obtain ⟨u, hu, ht⟩ := Option.bind_eq_some_iff.1 hs
    exact ih (step_inv h hu) ht

/-- **C55.** Messages are not mixed up. Whenever nobody is printing, the two streams consist of the complete messages of the
calls that have been completed, each of them once, and in the same order on both streams. -/
theorem C55_not_mixed (msg : Nat → Str × Str) (is : List Nat) (s : State) (h : exec msg is init = some s) (hm : s.mutex = none) :
    ∃ order : List Nat, order.Nodup ∧ (∀ i, i ∈ order ↔ s.pc i = .done) ∧ s.out = (order.map fun i => (msg i).1).flatten ∧
      s.err = (order.map fun i => (msg i).2).flatten := by
  have h0 : Inv msg init := by
    refine ⟨?_, ?_, ?_, ⟨[], rfl, rfl⟩, ⟨[], rfl, rfl⟩⟩ <;> simp [init]
  obtain ⟨h1, h2, h3, ⟨l1, h4, h4'⟩, ⟨l2, h5, h5'⟩⟩ := exec_inv is h0 h
  simp only [hm, List.append_nil] at h4' h5'
  refine ⟨s.order, h3, fun i => ?_, h4' ▸ h4, h5' ▸ h5⟩
  have a := h1 i
  have b := h2 i
  rw [hm] at a
  cases hp : s.pc i <;> simp_all

/-- **C55.** Nobody waits for ever: as long as a message is not yet printed, some thread can make a step. -/
theorem C55_progress (msg : Nat → Str × Str) (is : List Nat) (s : State) (h : exec msg is init = some s) (i : Nat) (hi : s.pc i ≠ .done) :
    ∃ j t, step msg j s = some t := by
  have h0 : Inv msg init := by
    refine ⟨?_, ?_, ?_, ⟨[], rfl, rfl⟩, ⟨[], rfl, rfl⟩⟩ <;> simp [init]
  have hinv := exec_inv is h0 h
  cases hm : s.mutex with
  | some j =>
    refine ⟨j, ?_⟩
    rcases (hinv.mutex j).1 hm with h | h | h <;> simp [step, h]
  | none =>
    refine ⟨i, ?_⟩
    cases hp : s.pc i <;> simp_all [step]

example : ∃ s, exec (fun i => ([Char.ofNat (i + 48)], [])) [1, 1, 1, 1, 0, 0, 0, 0] init = some s ∧ s.mutex = none ∧ s.out = ['1', '0'] :=
  ⟨_, rfl, rfl, rfl⟩

end Maike.Build.Log
