/-!
# Data that are exchanged with a recipe (C78)

core/exec/execve.cpp:106-155: while a recipe is running, one thread feeds its standard input, and two threads collect what it writes to its
standard output and its standard error. Pipes have a finite capacity, so that each party may have to wait for another one.

This module is about one launch. That other processes may have the pipes open as well is the subject of `Verif.Exec.Launch`.
-/

namespace Maike.Exec.Transfer

/-! ## Recipes

A recipe is an arbitrary program. -/

abbrev Byte := UInt8

/-- What a program is about to do. Transferring many bytes by one system call is the same as transferring one after the other, since there
is one writer and one reader. -/
inductive Act (σ : Type) where
  | compute (next : σ)
  | out (b : Byte) (next : σ)
  | err (b : Byte) (next : σ)
  /-- reads one byte from its standard input. The program waits until there is one. -/
  | read (next : Byte → σ)
  | exit (code : Int)

/-- A program with states `σ`. It does not close its standard streams before it ends, and leaves no other processes behind that keep them open. -/
structure Prog (σ : Type) where
  start : σ
  act : σ → Act σ

/-! ## Specification -/

/-- What a program does on its own, from a given state: it reads exactly `i`, writes `o` to its standard output and `e` to its standard error,
and exits with code `c`. -/
inductive Alone {σ : Type} (p : Prog σ) : σ → List Byte → List Byte → List Byte → Int → Prop
  | exit {s c} : p.act s = .exit c → Alone p s [] [] [] c
  | compute {s t i o e c} : p.act s = .compute t → Alone p t i o e c → Alone p s i o e c
  | out {s t b i o e c} : p.act s = .out b t → Alone p t i o e c → Alone p s i (b :: o) e c
  | err {s t b i o e c} : p.act s = .err b t → Alone p t i o e c → Alone p s i o (b :: e) c
  | read {s k b i o e c} : p.act s = .read k → Alone p (k b) i o e c → Alone p s (b :: i) o e c

/-! ## Model -/

/-- `BufferSize`, core/exec/execve.cpp:108, 120. -/
def bufferSize : Nat := 4096

/-- What the thread that called `execve` is doing, core/exec/execve.cpp:133-155. -/
inductive Phase where
  /-- about to ask the redirector for data, l. 112 -/
  | fill
  /-- in `::write`, with the data that are left, l. 113. `again` tells whether the buffer was full, l. 114. -/
  | put (rest : List Byte) (again : Bool)
  /-- in `waitpid`, l. 143 -/
  | wait
  /-- waiting for the readers, l. 145-146 -/
  | joinOut (code : Int)
  | joinErr (code : Int)
  /-- has returned, l. 148 -/
  | done (code : Int)

inductive Child (σ : Type) where
  | running (s : σ)
  | ended (code : Int)

/-- State of one launch, from the point where `communicateWith` (core/exec/execve.cpp:133) has been called and the recipe has been started. -/
structure State (σ : Type) where
  /-- what is left in the redirector, `m_stdin` of core/io/mem_io_redirector.hpp:52. -/
  given : List Byte
  phase : Phase
  /-- contents of the pipes -/
  inPipe : List Byte
  outPipe : List Byte
  errPipe : List Byte
  /-- what the readers have passed to the redirector, `stdout` and `stderr` of `IOCapture`, core/exec/execve.cpp:234-235 -/
  outGot : List Byte
  errGot : List Byte
  /-- the readers have not ended yet -/
  outReader : Bool
  errReader : Bool
  child : Child σ

/-- The state when the readers have been started, core/exec/execve.cpp:136-140. `Exec::execve(executable, args)` uses `IOCapture`, which has
nothing to send: `data = []`. `MemRedirector` sends a buffer. -/
def init {σ : Type} (p : Prog σ) (data : List Byte) : State σ where
  given := data
  phase := .fill
  inPipe := []
  outPipe := []
  errPipe := []
  outGot := []
  errGot := []
  outReader := true
  errReader := true
  child := .running p.start

variable {σ : Type}

/-- One step of the threads in core/exec/execve.cpp:106-155 or of the recipe. `cap` is the capacity of a pipe. `::write` to a pipe blocks until
everything has been written, since the program installs no signal handlers that could interrupt it, or until nobody can read any
more. SIGPIPE is ignored (l. 136). -/
inductive Step (p : Prog σ) (cap : Nat) : State σ → State σ → Prop
  /-- `writer(io_redirector, buffer.data(), BufferSize)`, l. 112, core/io/mem_io_redirector.hpp:20-29 -/
  | fill {s} : s.phase = .fill →
      Step p cap s { s with given := s.given.drop bufferSize,
                            phase := .put (s.given.take bufferSize) ((s.given.take bufferSize).length == bufferSize) }
  /-- a byte is written, l. 113 -/
  | put {s b rest again t} : s.phase = .put (b :: rest) again → s.child = .running t → s.inPipe.length < cap →
      Step p cap s { s with phase := .put rest again, inPipe := s.inPipe ++ [b] }
  /-- the recipe has ended: `::write` fails, l. 113 -/
  | putFail {s b rest again c} : s.phase = .put (b :: rest) again → s.child = .ended c → Step p cap s { s with phase := .wait }
  /-- everything has been written, l. 114 -/
  | putEnd {s again} : s.phase = .put [] again → Step p cap s { s with phase := if again then .fill else .wait }
  | waitpid {s c} : s.phase = .wait → s.child = .ended c → Step p cap s { s with phase := .joinOut c }
  | joinOut {s c} : s.phase = .joinOut c → s.outReader = false → Step p cap s { s with phase := .joinErr c }
  | joinErr {s c} : s.phase = .joinErr c → s.errReader = false → Step p cap s { s with phase := .done c }
  /-- `::read` returns as many bytes as it likes, but at least one, l. 124-126, 243-247 -/
  | readOut {s n} : s.outReader = true → 0 < n → n ≤ bufferSize → n ≤ s.outPipe.length →
      Step p cap s { s with outGot := s.outGot ++ s.outPipe.take n, outPipe := s.outPipe.drop n }
  | readErr {s n} : s.errReader = true → 0 < n → n ≤ bufferSize → n ≤ s.errPipe.length →
      Step p cap s { s with errGot := s.errGot ++ s.errPipe.take n, errPipe := s.errPipe.drop n }
  /-- `::read` returns 0, since the pipe is empty and nobody can write to it, l. 125 -/
  | endOut {s c} : s.outReader = true → s.outPipe = [] → s.child = .ended c → Step p cap s { s with outReader := false }
  | endErr {s c} : s.errReader = true → s.errPipe = [] → s.child = .ended c → Step p cap s { s with errReader := false }
  /-- steps of the recipe -/
  | compute {s t u} : s.child = .running t → p.act t = .compute u → Step p cap s { s with child := .running u }
  | out {s t b u} : s.child = .running t → p.act t = .out b u → s.outPipe.length < cap →
      Step p cap s { s with child := .running u, outPipe := s.outPipe ++ [b] }
  | err {s t b u} : s.child = .running t → p.act t = .err b u → s.errPipe.length < cap →
      Step p cap s { s with child := .running u, errPipe := s.errPipe ++ [b] }
  | read {s t k b r} : s.child = .running t → p.act t = .read k → s.inPipe = b :: r →
      Step p cap s { s with child := .running (k b), inPipe := r }
  | exit {s t c} : s.child = .running t → p.act t = .exit c → Step p cap s { s with child := .ended c }

/-- Executions, with the number of steps. -/
inductive Steps (p : Prog σ) (cap : Nat) : Nat → State σ → State σ → Prop
  | refl {s} : Steps p cap 0 s s
  | tail {n s t u} : Steps p cap n s t → Step p cap t u → Steps p cap (n + 1) s u

/-! ## What has happened so far -/

/-- The program has come from one state to another one. -/
inductive Part (p : Prog σ) : List Byte → List Byte → List Byte → σ → Prop
  | start : Part p [] [] [] p.start
  | compute {s t i o e} : Part p i o e s → p.act s = .compute t → Part p i o e t
  | out {s t b i o e} : Part p i o e s → p.act s = .out b t → Part p i (o ++ [b]) e t
  | err {s t b i o e} : Part p i o e s → p.act s = .err b t → Part p i o (e ++ [b]) t
  | read {s k b i o e} : Part p i o e s → p.act s = .read k → Part p (i ++ [b]) o e (k b)

theorem Part.alone {p : Prog σ} {i o e : List Byte} {s : σ} (h : Part p i o e s) :
    ∀ {i' o' e' c}, Alone p s i' o' e' c → Alone p p.start (i ++ i') (o ++ o') (e ++ e') c := by
  induction h with
  | start => intro _ _ _ _ h; simpa using h
  | compute _ ha ih => intro _ _ _ _ h; exact ih (.compute ha h)
  | out _ ha ih => intro _ _ _ _ h; simpa using ih (.out ha h)
  | err _ ha ih => intro _ _ _ _ h; simpa using ih (.err ha h)
  | read _ ha ih => intro _ _ _ _ h; simpa using ih (.read ha h)

/-- What a phase still has to write. -/
def Phase.rest : Phase → List Byte
  | .put rest _ => rest
  | _ => []

/-- The code with which a phase has been entered. -/
def Phase.code : Phase → Option Int
  | .joinOut c => some c
  | .joinErr c => some c
  | .done c => some c
  | _ => none

def Child.code : Child σ → Option Int
  | .ended c => some c
  | _ => none

structure Inv (p : Prog σ) (data : List Byte) (s : State σ) : Prop where
  /-- what the recipe has done so far -/
  part : ∃ i t, Part p i (s.outGot ++ s.outPipe) (s.errGot ++ s.errPipe) t ∧ i ++ s.inPipe <+: data ∧
    (s.child = .running t ∧ i ++ s.inPipe ++ s.phase.rest ++ s.given = data ∨ ∃ c, s.child = .ended c ∧ p.act t = .exit c)
  code : ∀ c, s.phase.code = some c → s.child.code = some c
  out : s.outReader = false → s.outPipe = [] ∧ s.child.code ≠ none
  err : s.errReader = false → s.errPipe = [] ∧ s.child.code ≠ none
  full : ∀ rest, s.phase = .put rest false → s.given = []
  wait : s.phase = .wait → s.given = [] ∨ s.child.code ≠ none
  joined : ∀ c, s.phase = .joinErr c ∨ s.phase = .done c → s.outReader = false
  joined' : ∀ c, s.phase = .done c → s.errReader = false

theorem init_inv (p : Prog σ) (data : List Byte) : Inv p data (init p data) := by
  refine ⟨⟨[], p.start, .start, ?_, .inl ⟨rfl, ?_⟩⟩, ?_, ?_, ?_, ?_, ?_, ?_, ?_⟩ <;> simp [init, Phase.rest, Phase.code]

theorem step_inv {p : Prog σ} {data : List Byte} {cap : Nat} {s t : State σ} (h : Inv p data s) (hst : Step p cap s t) : Inv p data t := by
  obtain ⟨⟨i, q, hp, hpre, hc⟩, hcode, hout, herr, hfull, hwait, hj, hj'⟩ := h
  cases hst with
  | fill h1 =>
    refine ⟨⟨i, q, hp, hpre, ?_⟩, ?_, hout, herr, ?_, ?_, ?_, ?_⟩
    · rcases hc with ⟨hc, hd⟩ | hc
      · refine .inl ⟨hc, ?_⟩
        simpa [h1, Phase.rest] using hd
      · exact .inr hc
    · simp [Phase.code]
    · intro rest hr
      simp only [Phase.put.injEq, beq_eq_false_iff_ne, List.length_take] at hr
      simp only [List.drop_eq_nil_iff]
      omega
    all_goals simp
  | put h1 h2 h3 =>
    rw [h1] at hc
    rcases hc with ⟨hc, hd⟩ | ⟨c, hc, _⟩
    · refine ⟨⟨i, q, hp, ?_, .inl ⟨hc, ?_⟩⟩, ?_, hout, herr, ?_, ?_, ?_, ?_⟩
      · rw [← hd]; simp [Phase.rest, List.append_assoc]
      · rw [← hd]; simp [Phase.rest]
      · simp [Phase.code]
      · intro rest' hr
        simp only [Phase.put.injEq] at hr
        exact hfull _ (by rw [h1, hr.2])
      all_goals simp
    · rw [h2] at hc; cases hc
  | putFail h1 h2 =>
    refine ⟨⟨i, q, hp, hpre, ?_⟩, ?_, hout, herr, ?_, ?_, ?_, ?_⟩
    · rcases hc with ⟨hc, _⟩ | hc
      · rw [h2] at hc; cases hc
      · exact .inr hc
    · simp [Phase.code]
    · simp
    · intro _; right; simp [h2, Child.code]
    all_goals simp
  | @putEnd again h1 =>
    refine ⟨⟨i, q, hp, hpre, ?_⟩, ?_, hout, herr, ?_, ?_, ?_, ?_⟩
    · rcases hc with ⟨hc, hd⟩ | hc
      · refine .inl ⟨hc, ?_⟩
        cases again <;> simpa [h1, Phase.rest] using hd
      · exact .inr hc
    · cases again <;> simp [Phase.code]
    · cases again <;> simp
    · cases again
      · exact fun _ => .inl (hfull _ h1)
      · simp
    all_goals cases again <;> simp
  | waitpid h1 h2 =>
    refine ⟨⟨i, q, hp, hpre, ?_⟩, ?_, hout, herr, ?_, ?_, ?_, ?_⟩
    · rcases hc with ⟨hc, _⟩ | hc
      · rw [h2] at hc; cases hc
      · exact .inr hc
    · simp [Phase.code, h2, Child.code]
    all_goals simp
  | joinOut h1 h2 =>
    have h3 := hcode _ (by rw [h1]; rfl)
    refine ⟨⟨i, q, hp, hpre, ?_⟩, ?_, hout, herr, ?_, ?_, ?_, ?_⟩
    · rcases hc with ⟨hc, _⟩ | hc
      · rw [hc] at h3; cases h3
      · exact .inr hc
    · simpa [Phase.code] using h3
    · simp
    · simp
    · exact fun _ _ => h2
    · simp
  | joinErr h1 h2 =>
    have h3 := hcode _ (by rw [h1]; rfl)
    refine ⟨⟨i, q, hp, hpre, ?_⟩, ?_, hout, herr, ?_, ?_, ?_, ?_⟩
    · rcases hc with ⟨hc, _⟩ | hc
      · rw [hc] at h3; cases h3
      · exact .inr hc
    · simpa [Phase.code] using h3
    · simp
    · simp
    · exact fun _ _ => hj _ (.inl h1)
    · exact fun _ _ => h2
  | readOut h1 h2 h3 h4 =>
    refine ⟨⟨i, q, ?_, hpre, hc⟩, hcode, ?_, herr, hfull, hwait, hj, hj'⟩
    · simpa using hp
    · intro h; rw [h] at h1; cases h1
  | readErr h1 h2 h3 h4 =>
    refine ⟨⟨i, q, ?_, hpre, hc⟩, hcode, hout, ?_, hfull, hwait, hj, hj'⟩
    · simpa using hp
    · intro h; rw [h] at h1; cases h1
  | endOut h1 h2 h3 =>
    exact ⟨⟨i, q, hp, hpre, hc⟩, hcode, fun _ => ⟨h2, by simp [h3, Child.code]⟩, herr, hfull, hwait, fun _ _ => rfl, hj'⟩
  | endErr h1 h2 h3 =>
    exact ⟨⟨i, q, hp, hpre, hc⟩, hcode, hout, fun _ => ⟨h2, by simp [h3, Child.code]⟩, hfull, hwait, hj, fun _ _ => rfl⟩
  | compute h1 h2 =>
    rcases hc with ⟨hc, hd⟩ | ⟨c, hc, _⟩
    · rw [h1] at hc
      cases hc
      refine ⟨⟨i, _, hp.compute h2, hpre, .inl ⟨rfl, hd⟩⟩, ?_, ?_, ?_, hfull, ?_, hj, hj'⟩
      · intro c hc; have := hcode c hc; simp [h1, Child.code] at this
      · intro h; have := (hout h).2; simp [h1, Child.code] at this
      · intro h; have := (herr h).2; simp [h1, Child.code] at this
      · intro h; rcases hwait h with h | h
        · exact .inl h
        · simp [h1, Child.code] at h
    · rw [h1] at hc; cases hc
  | out h1 h2 h3 =>
    rcases hc with ⟨hc, hd⟩ | ⟨c, hc, _⟩
    · rw [h1] at hc
      cases hc
      refine ⟨⟨i, _, by simpa using hp.out h2, hpre, .inl ⟨rfl, hd⟩⟩, ?_, ?_, ?_, hfull, ?_, hj, hj'⟩
      · intro c hc; have := hcode c hc; simp [h1, Child.code] at this
      · intro h; have := (hout h).2; simp [h1, Child.code] at this
      · intro h; have := (herr h).2; simp [h1, Child.code] at this
      · intro h; rcases hwait h with h | h
        · exact .inl h
        · simp [h1, Child.code] at h
    · rw [h1] at hc; cases hc
  | err h1 h2 h3 =>
    rcases hc with ⟨hc, hd⟩ | ⟨c, hc, _⟩
    · rw [h1] at hc
      cases hc
      refine ⟨⟨i, _, by simpa using hp.err h2, hpre, .inl ⟨rfl, hd⟩⟩, ?_, ?_, ?_, hfull, ?_, hj, hj'⟩
      · intro c hc; have := hcode c hc; simp [h1, Child.code] at this
      · intro h; have := (hout h).2; simp [h1, Child.code] at this
      · intro h; have := (herr h).2; simp [h1, Child.code] at this
      · intro h; rcases hwait h with h | h
        · exact .inl h
        · simp [h1, Child.code] at h
    · rw [h1] at hc; cases hc
  | @read t k b r h1 h2 h3 =>
    rcases hc with ⟨hc, hd⟩ | ⟨c, hc, _⟩
    · rw [h1] at hc
      cases hc
      rw [h3] at hpre hd
      refine ⟨⟨i ++ [b], _, hp.read h2, by simpa using hpre, .inl ⟨rfl, by simpa using hd⟩⟩, ?_, ?_, ?_, hfull, ?_, hj, hj'⟩
      · intro c hc; have := hcode c hc; simp [h1, Child.code] at this
      · intro h; have := (hout h).2; simp [h1, Child.code] at this
      · intro h; have := (herr h).2; simp [h1, Child.code] at this
      · intro h; rcases hwait h with h | h
        · exact .inl h
        · simp [h1, Child.code] at h
    · rw [h1] at hc; cases hc
  | exit h1 h2 =>
    rcases hc with ⟨hc, hd⟩ | ⟨c, hc, _⟩
    · rw [h1] at hc
      cases hc
      refine ⟨⟨i, _, hp, hpre, .inr ⟨_, rfl, h2⟩⟩, ?_, ?_, ?_, hfull, ?_, hj, hj'⟩
      · intro c hc; have := hcode c hc; simp [h1, Child.code] at this
      · intro h; have := (hout h).2; simp [h1, Child.code] at this
      · intro h; have := (herr h).2; simp [h1, Child.code] at this
      · intro h; simp [Child.code]
    · rw [h1] at hc; cases hc

theorem steps_inv {p : Prog σ} {data : List Byte} {cap n : Nat} {s : State σ} (h : Steps p cap n (init p data) s) : Inv p data s := by
  generalize hi : init p data = r at h
  induction h with
  | refl => exact hi ▸ init_inv p data
  | tail _ hst ih => exact step_inv (ih hi) hst

/-! ## Results are those of the recipe alone -/

/-- **C78.** When `execve` returns, then it returns what the recipe does on its own when it reads some beginning of the data that are sent to it:
everything it has written to its standard output and its standard error, in order and separately, and its exit code. No byte is
lost, repeated or changed, however the threads are scheduled, whatever the capacity of pipes, and however the output is cut into pieces. -/
theorem C78_captured {p : Prog σ} {data : List Byte} {cap n : Nat} {s : State σ} {c : Int} (h : Steps p cap n (init p data) s)
    (hd : s.phase = .done c) : ∃ i, i <+: data ∧ Alone p p.start i s.outGot s.errGot c := by
  obtain ⟨⟨i, q, hp, hpre, hc⟩, hcode, hout, herr, hfull, hwait, hj, hj'⟩ := steps_inv h
  have h1 := hcode c (by rw [hd]; rfl)
  rcases hc with ⟨hc, _⟩ | ⟨c', hc, ha⟩
  · rw [hc] at h1; cases h1
  · rw [hc] at h1
    cases h1
    have h2 := (hout (hj c (.inr hd))).1
    have h3 := (herr (hj' c hd)).1
    refine ⟨i, (List.prefix_append _ _).trans hpre, ?_⟩
    have := hp.alone (.exit ha)
    simpa [h2, h3] using this

/-- While the recipe is still running, what has been collected is a beginning of what it has written: part of a run of the recipe. -/
theorem collected_prefix {p : Prog σ} {data : List Byte} {cap n : Nat} {s : State σ} (h : Steps p cap n (init p data) s) :
    ∃ i o e t, Part p i o e t ∧ i <+: data ∧ s.outGot <+: o ∧ s.errGot <+: e := by
  obtain ⟨⟨i, q, hp, hpre, hc⟩, _⟩ := steps_inv h
  exact ⟨i, _, _, q, hp, (List.prefix_append _ _).trans hpre, List.prefix_append _ _, List.prefix_append _ _⟩

/-- What a program does is determined by what it reads. -/
theorem alone_unique {p : Prog σ} {s : σ} {i o e : List Byte} {c : Int} (h : Alone p s i o e c) :
    ∀ {i' o' e' c' data}, Alone p s i' o' e' c' → i <+: data → i' <+: data → i = i' ∧ o = o' ∧ e = e' ∧ c = c' := by
  induction h with
  | exit ha =>
    intro _ _ _ _ _ h' _ _
    cases h' <;> simp_all
  | compute ha _ ih =>
    intro _ _ _ _ _ h' hp hp'
    cases h' with
    | compute hb h'' => rw [ha] at hb; cases hb; exact ih h'' hp hp'
    | exit hb | out hb | err hb | read hb => rw [ha] at hb; cases hb
  | out ha _ ih =>
    intro _ _ _ _ _ h' hp hp'
    cases h' with
    | out hb h'' => rw [ha] at hb; cases hb; have := ih h'' hp hp'; simp [this]
    | exit hb | compute hb | err hb | read hb => rw [ha] at hb; cases hb
  | err ha _ ih =>
    intro _ _ _ _ _ h' hp hp'
    cases h' with
    | err hb h'' => rw [ha] at hb; cases hb; have := ih h'' hp hp'; simp [this]
    | exit hb | compute hb | out hb | read hb => rw [ha] at hb; cases hb
  | @read s k b i o e c ha _ ih =>
    intro _ _ _ _ data h' hp hp'
    cases h' with
    | read hb h'' =>
      rw [ha] at hb
      cases hb
      cases data with
      | nil => simp at hp
      | cons d ds =>
        have q1 := List.cons_prefix_cons.mp hp
        have q2 := List.cons_prefix_cons.mp hp'
        obtain ⟨rfl, q1⟩ := q1
        obtain ⟨rfl, q2⟩ := q2
        have := ih h'' q1 q2
        simp [this]
    | exit hb | compute hb | out hb | err hb => rw [ha] at hb; cases hb

/-- **C78.** The result does not depend on the schedule, on the capacity of pipes, or on how the output is cut into pieces. -/
theorem C78_deterministic {p : Prog σ} {data : List Byte} {cap cap' n n' : Nat} {s s' : State σ} {c c' : Int}
    (h : Steps p cap n (init p data) s) (hd : s.phase = .done c) (h' : Steps p cap' n' (init p data) s') (hd' : s'.phase = .done c') :
    s.outGot = s'.outGot ∧ s.errGot = s'.errGot ∧ c = c' := by
  obtain ⟨i, hp, ha⟩ := C78_captured h hd
  obtain ⟨i', hp', ha'⟩ := C78_captured h' hd'
  exact (alone_unique ha ha' hp hp').2

/-! ## Progress -/

/-- The recipe waits for data that will never come. -/
def Starved (p : Prog σ) (s : State σ) : Prop :=
  ∃ t k, s.child = .running t ∧ p.act t = .read k ∧ s.inPipe = [] ∧ s.given = [] ∧ s.phase = .wait

/-- **C78.** Although pipes are finite, the recipe and the threads never wait for each other in a circle: unless `execve` has returned, something can
happen, or the recipe wants to read more than what is sent to it. -/
theorem C78_progress {p : Prog σ} {data : List Byte} {cap n : Nat} {s : State σ} (hcap : 0 < cap) (h : Steps p cap n (init p data) s) :
    (∃ c, s.phase = .done c) ∨ (∃ t, Step p cap s t) ∨ Starved p s := by
  have hinv := steps_inv h
  by_cases ho : s.outReader = true ∧ s.outPipe ≠ []
  · refine .inr (.inl ⟨_, .readOut (n := 1) ho.1 (by decide) (by decide) ?_⟩)
    cases hx : s.outPipe with
    | nil => exact absurd hx ho.2
    | cons => simp
  by_cases he : s.errReader = true ∧ s.errPipe ≠ []
  · refine .inr (.inl ⟨_, .readErr (n := 1) he.1 (by decide) (by decide) ?_⟩)
    cases hx : s.errPipe with
    | nil => exact absurd hx he.2
    | cons => simp
  have ho' : s.outPipe = [] := by
    cases hr : s.outReader with
    | true => exact Classical.byContradiction fun hx => ho ⟨hr, hx⟩
    | false => exact (hinv.out hr).1
  have he' : s.errPipe = [] := by
    cases hr : s.errReader with
    | true => exact Classical.byContradiction fun hx => he ⟨hr, hx⟩
    | false => exact (hinv.err hr).1
  cases hc : s.child with
  | ended c =>
    cases hr : s.outReader with
    | true => exact .inr (.inl ⟨_, .endOut hr ho' hc⟩)
    | false =>
      cases hr' : s.errReader with
      | true => exact .inr (.inl ⟨_, .endErr hr' he' hc⟩)
      | false =>
        cases hp : s.phase with
        | fill => exact .inr (.inl ⟨_, .fill hp⟩)
        | put rest again =>
          cases rest with
          | nil => exact .inr (.inl ⟨_, .putEnd hp⟩)
          | cons b rest => exact .inr (.inl ⟨_, .putFail hp hc⟩)
        | wait => exact .inr (.inl ⟨_, .waitpid hp hc⟩)
        | joinOut c => exact .inr (.inl ⟨_, .joinOut hp hr⟩)
        | joinErr c => exact .inr (.inl ⟨_, .joinErr hp hr'⟩)
        | done c => exact .inl ⟨c, rfl⟩
  | running t =>
    cases ha : p.act t with
    | compute u => exact .inr (.inl ⟨_, .compute hc ha⟩)
    | out b u => exact .inr (.inl ⟨_, .out hc ha (by simpa [ho'] using hcap)⟩)
    | err b u => exact .inr (.inl ⟨_, .err hc ha (by simpa [he'] using hcap)⟩)
    | exit c => exact .inr (.inl ⟨_, .exit hc ha⟩)
    | read k =>
      cases hi : s.inPipe with
      | cons b r => exact .inr (.inl ⟨_, .read hc ha hi⟩)
      | nil =>
        have hno : ∀ c, s.phase.code ≠ some c := by
          intro c h1
          have := hinv.code c h1
          rw [hc] at this
          cases this
        cases hp : s.phase with
        | fill => exact .inr (.inl ⟨_, .fill hp⟩)
        | put rest again =>
          cases rest with
          | nil => exact .inr (.inl ⟨_, .putEnd hp⟩)
          | cons b rest => exact .inr (.inl ⟨_, .put hp hc (by simpa [hi] using hcap)⟩)
        | wait =>
          refine .inr (.inr ⟨t, k, hc, ha, hi, ?_, hp⟩)
          rcases hinv.wait hp with h | h
          · exact h
          · simp [hc, Child.code] at h
        | joinOut c => exact absurd (by rw [hp]; rfl) (hno c)
        | joinErr c => exact absurd (by rw [hp]; rfl) (hno c)
        | done c => exact .inl ⟨c, rfl⟩

/-! ## Termination -/

/-- `Alone`, with the number of steps. -/
inductive AloneN (p : Prog σ) : Nat → σ → List Byte → List Byte → List Byte → Int → Prop
  | exit {s c} : p.act s = .exit c → AloneN p 0 s [] [] [] c
  | compute {n s t i o e c} : p.act s = .compute t → AloneN p n t i o e c → AloneN p (n + 1) s i o e c
  | out {n s t b i o e c} : p.act s = .out b t → AloneN p n t i o e c → AloneN p (n + 1) s i (b :: o) e c
  | err {n s t b i o e c} : p.act s = .err b t → AloneN p n t i o e c → AloneN p (n + 1) s i o (b :: e) c
  | read {n s k b i o e c} : p.act s = .read k → AloneN p n (k b) i o e c → AloneN p (n + 1) s (b :: i) o e c

theorem Alone.counted {p : Prog σ} {s : σ} {i o e : List Byte} {c : Int} (h : Alone p s i o e c) : ∃ n, AloneN p n s i o e c := by
  induction h with
  | exit ha => exact ⟨0, .exit ha⟩
  | compute ha _ ih => obtain ⟨n, hn⟩ := ih; exact ⟨n + 1, .compute ha hn⟩
  | out ha _ ih => obtain ⟨n, hn⟩ := ih; exact ⟨n + 1, .out ha hn⟩
  | err ha _ ih => obtain ⟨n, hn⟩ := ih; exact ⟨n + 1, .err ha hn⟩
  | read ha _ ih => obtain ⟨n, hn⟩ := ih; exact ⟨n + 1, .read ha hn⟩

theorem AloneN.alone {p : Prog σ} {n : Nat} {s : σ} {i o e : List Byte} {c : Int} (h : AloneN p n s i o e c) : Alone p s i o e c := by
  induction h with
  | exit ha => exact .exit ha
  | compute ha _ ih => exact .compute ha ih
  | out ha _ ih => exact .out ha ih
  | err ha _ ih => exact .err ha ih
  | read ha _ ih => exact .read ha ih

/-- What is left to do by the thread that called `execve`. -/
def Phase.work : Phase → Nat
  | .fill => 6
  | .put rest again => 4 + rest.length + (if again then 2 else 0) + 1
  | .wait => 3
  | .joinOut _ => 2
  | .joinErr _ => 1
  | .done _ => 0

/-- A bound of the remaining number of steps, when the recipe needs `n` more. -/
def work (n : Nat) (s : State σ) : Nat :=
  s.phase.work + 3 * s.given.length + (if s.outReader then 1 else 0) + (if s.errReader then 1 else 0) + s.outPipe.length + s.errPipe.length +
    (match s.child with | .running _ => 2 * n + 1 | .ended _ => 0)

/-- What the recipe is going to do, from a state on. -/
structure Future (p : Prog σ) (n : Nat) (o e : List Byte) (c : Int) (s : State σ) : Prop where
  running : ∀ t, s.child = .running t → ∃ i' o' e', AloneN p n t i' o' e' c ∧ i' <+: s.inPipe ++ s.phase.rest ++ s.given ∧
    s.outGot ++ s.outPipe ++ o' = o ∧ s.errGot ++ s.errPipe ++ e' = e
  ended : ∀ c', s.child = .ended c' → c' = c ∧ s.outGot ++ s.outPipe = o ∧ s.errGot ++ s.errPipe = e

/-- A step that does not concern the recipe. -/
theorem Future.other {p : Prog σ} {n : Nat} {o e : List Byte} {c : Int} {s t : State σ} (h : Future p n o e c s) (hc : t.child = s.child)
    (hi : (∃ c, s.child = .ended c) ∨ t.inPipe ++ t.phase.rest ++ t.given = s.inPipe ++ s.phase.rest ++ s.given)
    (ho : t.outGot ++ t.outPipe = s.outGot ++ s.outPipe) (he : t.errGot ++ t.errPipe = s.errGot ++ s.errPipe) : Future p n o e c t := by
  constructor
  · intro q hq
    obtain ⟨i', o', e', h1, h2, h3, h4⟩ := h.running q (hc ▸ hq)
    rcases hi with ⟨c', hi⟩ | hi
    · rw [hc, hi] at hq; cases hq
    · exact ⟨i', o', e', h1, hi ▸ h2, by rw [ho, h3], by rw [he, h4]⟩
  · intro c' hq
    obtain ⟨h1, h2, h3⟩ := h.ended c' (hc ▸ hq)
    exact ⟨h1, by rw [ho, h2], by rw [he, h3]⟩

theorem future_step {p : Prog σ} {cap n : Nat} {o e : List Byte} {c : Int} {s t : State σ}
    (h : Future p n o e c s) (hst : Step p cap s t) : ∃ m, Future p m o e c t ∧ work m t + 1 ≤ work n s := by
  cases hst with
  | fill h1 =>
    refine ⟨n, h.other rfl (.inr ?_) rfl rfl, ?_⟩
    · simp [h1, Phase.rest]
    · simp only [work, h1, Phase.work, List.length_take, List.length_drop, beq_iff_eq]
      by_cases hb : min bufferSize s.given.length = bufferSize
      · have h1 : bufferSize ≤ s.given.length := by omega
        rw [if_pos hb]
        have : 1 ≤ bufferSize := by decide
        rw [hb]
        omega
      · rw [if_neg hb]
        omega
  | put h1 h2 h3 =>
    refine ⟨n, h.other rfl (.inr ?_) rfl rfl, ?_⟩
    · simp [h1, Phase.rest]
    · simp only [work, h1, Phase.work, List.length_cons]
      omega
  | putFail h1 h2 =>
    refine ⟨n, h.other rfl (.inl ⟨_, h2⟩) rfl rfl, ?_⟩
    simp only [work, h1, Phase.work, List.length_cons]
    omega
  | @putEnd again h1 =>
    refine ⟨n, h.other rfl (.inr ?_) rfl rfl, ?_⟩
    · cases again <;> simp [h1, Phase.rest]
    · cases again <;> simp [work, h1, Phase.work] <;> omega
  | waitpid h1 h2 =>
    refine ⟨n, h.other rfl (.inl ⟨_, h2⟩) rfl rfl, ?_⟩
    simp only [work, h1, Phase.work]
    omega
  | joinOut h1 h2 =>
    refine ⟨n, h.other rfl (.inr ?_) rfl rfl, ?_⟩
    · simp [h1, Phase.rest]
    · simp only [work, h1, Phase.work]
      omega
  | joinErr h1 h2 =>
    refine ⟨n, h.other rfl (.inr ?_) rfl rfl, ?_⟩
    · simp [h1, Phase.rest]
    · simp only [work, h1, Phase.work]
      omega
  | readOut h1 h2 h3 h4 =>
    refine ⟨n, h.other rfl (.inr rfl) (by simp) rfl, ?_⟩
    simp only [work, List.length_drop]
    omega
  | readErr h1 h2 h3 h4 =>
    refine ⟨n, h.other rfl (.inr rfl) rfl (by simp), ?_⟩
    simp only [work, List.length_drop]
    omega
  | endOut h1 h2 h3 =>
    refine ⟨n, h.other rfl (.inr rfl) rfl rfl, ?_⟩
    simp only [work, h1, if_true]
    simp only [Bool.false_eq_true, if_false]
    omega
  | endErr h1 h2 h3 =>
    refine ⟨n, h.other rfl (.inr rfl) rfl rfl, ?_⟩
    simp only [work, h1, if_true]
    simp only [Bool.false_eq_true, if_false]
    omega
  | compute h1 h2 =>
    obtain ⟨i', o', e', ha, hb, hc, hd⟩ := h.running _ h1
    cases ha with
    | @compute m _ _ _ _ _ _ h3 h4 =>
      rw [h2] at h3
      cases h3
      refine ⟨m, ⟨fun t ht => ?_, by simp⟩, ?_⟩
      · cases ht
        exact ⟨i', o', e', h4, hb, hc, hd⟩
      · simp only [work, h1]; omega
    | exit h3 | out h3 | err h3 | read h3 => rw [h2] at h3; cases h3
  | out h1 h2 h5 =>
    obtain ⟨i', o', e', ha, hb, hc, hd⟩ := h.running _ h1
    cases ha with
    | @out m _ _ _ _ _ _ _ h3 h4 =>
      rw [h2] at h3
      cases h3
      refine ⟨m, ⟨fun t ht => ?_, by simp⟩, ?_⟩
      · cases ht
        exact ⟨i', _, e', h4, hb, by simpa using hc, hd⟩
      · simp only [work, h1, List.length_append, List.length_singleton]; omega
    | exit h3 | compute h3 | err h3 | read h3 => rw [h2] at h3; cases h3
  | err h1 h2 h5 =>
    obtain ⟨i', o', e', ha, hb, hc, hd⟩ := h.running _ h1
    cases ha with
    | @err m _ _ _ _ _ _ _ h3 h4 =>
      rw [h2] at h3
      cases h3
      refine ⟨m, ⟨fun t ht => ?_, by simp⟩, ?_⟩
      · cases ht
        exact ⟨i', o', _, h4, hb, hc, by simpa using hd⟩
      · simp only [work, h1, List.length_append, List.length_singleton]; omega
    | exit h3 | compute h3 | out h3 | read h3 => rw [h2] at h3; cases h3
  | read h1 h2 h5 =>
    obtain ⟨i', o', e', ha, hb, hc, hd⟩ := h.running _ h1
    cases ha with
    | @read m _ _ _ _ _ _ _ h3 h4 =>
      rw [h2] at h3
      cases h3
      rw [h5] at hb
      simp only [List.cons_append] at hb
      have hb' := List.cons_prefix_cons.mp hb
      obtain ⟨rfl, hb'⟩ := hb'
      refine ⟨m, ⟨fun t ht => ?_, by simp⟩, ?_⟩
      · cases ht
        exact ⟨_, o', e', h4, hb', hc, hd⟩
      · simp only [work, h1]; omega
    | exit h3 | compute h3 | out h3 | err h3 => rw [h2] at h3; cases h3
  | exit h1 h2 =>
    obtain ⟨i', o', e', ha, hb, hc, hd⟩ := h.running _ h1
    cases ha with
    | exit h3 =>
      rw [h2] at h3
      cases h3
      refine ⟨0, ⟨by simp, fun c' hc' => ?_⟩, ?_⟩
      · cases hc'
        exact ⟨rfl, by simpa using hc, by simpa using hd⟩
      · simp only [work, h1]; omega
    | compute h3 | out h3 | err h3 | read h3 => rw [h2] at h3; cases h3

theorem future_steps {p : Prog σ} {data : List Byte} {cap k n : Nat} {i o e : List Byte} {c : Int} {s : State σ}
    (ha : AloneN p n p.start i o e c) (hi : i <+: data) (h : Steps p cap k (init p data) s) :
    ∃ m, Future p m o e c s ∧ work m s + k ≤ work n (init p data) := by
  generalize hr : init p data = r at h
  induction h with
  | refl =>
    subst hr
    refine ⟨n, ⟨fun t ht => ?_, fun c' hc' => ?_⟩, Nat.le_refl _⟩
    · cases ht
      exact ⟨i, o, e, ha, by simpa [init, Phase.rest] using hi, rfl, rfl⟩
    · simp [init] at hc'
  | tail hs hst ih =>
    obtain ⟨m, hm, hw⟩ := ih hr
    subst hr
    obtain ⟨m', hm', hw'⟩ := future_step hm hst
    exact ⟨m', hm', by omega⟩

/-- **C78.** If the recipe ends when it is given the data (it need not read all of them), then so does `execve`, within a number of steps that does not depend on the schedule,
and with the output and the exit code of the recipe. -/
theorem C78_returns {p : Prog σ} {data i o e : List Byte} {c : Int} (ha : Alone p p.start i o e c) (hi : i <+: data) {cap : Nat} (hcap : 0 < cap) :
    (∃ bound, ∀ k s, Steps p cap k (init p data) s → k ≤ bound) ∧
    ∀ k s, Steps p cap k (init p data) s → (∀ t, ¬ Step p cap s t) → s.phase = .done c ∧ s.outGot = o ∧ s.errGot = e := by
  obtain ⟨n, hn⟩ := ha.counted
  refine ⟨⟨work n (init p data), fun k s hs => ?_⟩, fun k s hs hend => ?_⟩
  · obtain ⟨m, _, hw⟩ := future_steps hn hi hs
    omega
  · obtain ⟨m, hm, _⟩ := future_steps hn hi hs
    rcases C78_progress hcap hs with ⟨c', hc'⟩ | ⟨t, ht⟩ | ⟨t, kk, h1, h2, h3, h4, h5⟩
    · obtain ⟨i', hp', ha'⟩ := C78_captured hs hc'
      obtain ⟨-, h1, h2, h3⟩ := alone_unique ha ha' hi hp'
      exact ⟨h3 ▸ hc', h1.symm, h2.symm⟩
    · exact absurd ht (hend t)
    · obtain ⟨i', o', e', hx, hy, _⟩ := hm.running t h1
      rw [h3, h4, h5] at hy
      simp only [Phase.rest, List.append_nil, List.prefix_nil] at hy
      subst hy
      cases hx with
      | exit h | compute h | out h | err h => rw [h2] at h; cases h

/-! ## Data that nobody reads

`Exec::execve(executable, args)`, which is how the program executes recipes, sends no data. -/

/-- **C78.** A recipe that never reads its standard input is executed completely, whatever it writes, and however much. -/
theorem C78_recipes {p : Prog σ} {o e : List Byte} {c : Int} (ha : Alone p p.start [] o e c) {cap : Nat} (hcap : 0 < cap) :
    (∃ bound, ∀ k s, Steps p cap k (init p []) s → k ≤ bound) ∧
    ∀ k s, Steps p cap k (init p []) s → (∀ t, ¬ Step p cap s t) → s.phase = .done c ∧ s.outGot = o ∧ s.errGot = e :=
  C78_returns ha (List.prefix_rfl) hcap

/-! ## Example

A program that copies the first two bytes it reads, in reverse order, to its standard output, and complains. -/

inductive Swap where
  | first
  | second (a : Byte)
  | send (a b : Byte)
  | send' (a : Byte)
  | complain
  | finish

def swap : Prog Swap where
  start := .first
  act
    | .first => .read .second
    | .second a => .read (.send a)
    | .send a b => .out b (.send' a)
    | .send' a => .out a .complain
    | .complain => .err 33 .finish
    | .finish => .exit 3

theorem swap_alone (a b : Byte) : Alone swap swap.start [a, b] [b, a] [33] 3 :=
  .read rfl (.read rfl (.out rfl (.out rfl (.err rfl (.exit rfl)))))

/-- The pipes may be as small as they can be. -/
example : ∀ k s, Steps swap 1 k (init swap [1, 2, 3]) s → (∀ t, ¬ Step swap 1 s t) →
    s.phase = .done 3 ∧ s.outGot = [2, 1] ∧ s.errGot = [33] :=
  (C78_returns (swap_alone 1 2) ⟨[3], rfl⟩ (by decide)).2

/-- Such an execution exists: some state is reached where nothing more happens. -/
theorem C78_reached {p : Prog σ} {data i o e : List Byte} {c : Int} (ha : Alone p p.start i o e c) (hi : i <+: data) {cap : Nat} (hcap : 0 < cap) :
    ∃ k s, Steps p cap k (init p data) s ∧ s.phase = .done c ∧ s.outGot = o ∧ s.errGot = e := by
  obtain ⟨⟨bound, hb⟩, hend⟩ := C78_returns ha hi hcap
  have key : ∀ d k s, Steps p cap k (init p data) s → bound ≤ k + d → ∃ k s, Steps p cap k (init p data) s ∧ ∀ t, ¬ Step p cap s t := by
    intro d
    induction d with
    | zero =>
      intro k s hs hk
      refine ⟨k, s, hs, fun t ht => ?_⟩
      have := hb _ _ (.tail hs ht)
      omega
    | succ d ih =>
      intro k s hs hk
      by_cases hx : ∃ t, Step p cap s t
      · obtain ⟨t, ht⟩ := hx
        exact ih (k + 1) t (.tail hs ht) (by omega)
      · exact ⟨k, s, hs, fun t ht => hx ⟨t, ht⟩⟩
  obtain ⟨k, s, hs, hx⟩ := key bound 0 _ .refl (by omega)
  exact ⟨k, s, hs, hend k s hs hx⟩

/-- A recipe that reads more than what is sent to it is not executed to the end: **C78** is about recipes that end with the data they are given. -/
theorem C78_starved {p : Prog σ} {cap n m : Nat} {data : List Byte} {s t : State σ} (h : Steps p cap n (init p data) s) (hs : Starved p s)
    (ht : Steps p cap m s t) : Starved p t := by
  induction ht with
  | refl => exact hs
  | @tail m s t u hst hstep ih =>
    obtain ⟨q, k, h1, h2, h3, h4, h5⟩ := ih h hs
    cases hstep with
    | readOut | readErr => exact ⟨q, k, h1, h2, h3, h4, h5⟩
    | fill h | putEnd h | joinOut h | joinErr h | put h | putFail h => rw [h5] at h; cases h
    | waitpid _ h | endOut _ _ h | endErr _ _ h => rw [h1] at h; cases h
    | compute ha hb | out ha hb | err ha hb | exit ha hb => rw [h1] at ha; cases ha; rw [h2] at hb; cases hb
    | read ha hb hc => rw [h3] at hc; cases hc

end Maike.Exec.Transfer
