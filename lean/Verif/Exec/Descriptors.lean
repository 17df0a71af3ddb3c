/-!
# File descriptors of recipes (C96)

core/exec/execve.cpp: which file descriptors the process of a recipe gets, and what becomes of those of maike. Other threads
open and close descriptors of their own at any time (they call `execve`, too, or read and write files).
-/

namespace Maike.Exec.Descriptors

/-! ## Model -/

/-- The pipes of a call of `execve`, core/exec/execve.cpp:172-175. -/
inductive Kind where
  | stdin
  | stdout
  | stderr
  | execErr
deriving DecidableEq, Repr

/-- What a descriptor may refer to: an end of one of the pipes of this call, or something else. -/
inductive Obj where
  | readEnd (k : Kind)
  | writeEnd (k : Kind)
  | other (n : Nat)
deriving DecidableEq, Repr

/-- An end of one of the pipes of this call. -/
def Obj.Ours : Obj → Prop
  | .readEnd _ => True
  | .writeEnd _ => True
  | .other _ => False

/-- An open descriptor. `cloexec` is the flag `FD_CLOEXEC`. -/
structure Desc where
  obj : Obj
  cloexec : Bool
deriving DecidableEq, Repr

/-- The descriptors of a process. -/
abbrev Table := Nat → Option Desc

/-- Replace the entry of a descriptor. -/
def Table.set (t : Table) (fd : Nat) (d : Option Desc) : Table := fun i => if i = fd then d else t i

/-- The operating system, and the other threads of maike. -/
structure Machine where
  /-- what other threads do between two system calls of this thread -/
  others : Nat → Table → Table
  /-- the descriptors that `pipe` returns, or none if there are none left -/
  alloc : Nat → Table → Option (Nat × Nat)
  /-- if `fork` succeeds -/
  forks : Bool
  /-- if the file can be executed -/
  starts : Bool

/-- State of maike during a call. `opened` is what this call has opened, and `closed` is what each call of `close` has closed:
nothing if the descriptor was not open. -/
structure State where
  table : Table
  clock : Nat
  opened : List Obj
  closed : List (Option Obj)

/-- `Pipe`, core/exec/execve.cpp:24-107. The value -1 of a member is represented by `none`. -/
structure Pipe where
  readEnd : Option Nat
  writeEnd : Option Nat

/-- `Pipe::Pipe`, core/exec/execve.cpp:27-33. -/
def mkPipe (m : Machine) (k : Kind) (s : State) : State × Option Pipe :=
  let t := m.others s.clock s.table
  match m.alloc s.clock t with
  | none => ({ s with table := t, clock := s.clock + 1 }, none)
  | some (r, w) =>
    ({ s with
        table := (t.set r (some ⟨.readEnd k, false⟩)).set w (some ⟨.writeEnd k, false⟩)
        clock := s.clock + 1
        opened := s.opened ++ [.readEnd k, .writeEnd k] },
      some ⟨some r, some w⟩)

/-- The system call `close` in maike. -/
def closeFd (m : Machine) (fd : Option Nat) (s : State) : State :=
  let t := m.others s.clock s.table
  match fd with
  | none => { s with table := t, clock := s.clock + 1, closed := s.closed ++ [none] }
  | some n => { s with table := t.set n none, clock := s.clock + 1, closed := s.closed ++ [(t n).map (·.obj)] }

/-- `Pipe::closeReadEnd`, core/exec/execve.cpp:88-92. -/
def closeRead (m : Machine) (p : Pipe) (s : State) : State × Pipe := (closeFd m p.readEnd s, { p with readEnd := none })

/-- `Pipe::closeWriteEnd`, core/exec/execve.cpp:82-86. -/
def closeWrite (m : Machine) (p : Pipe) (s : State) : State × Pipe := (closeFd m p.writeEnd s, { p with writeEnd := none })

/-- `Pipe::~Pipe`, core/exec/execve.cpp:35-40. -/
def destroy (m : Machine) (p : Pipe) (s : State) : State :=
  let (s, p) := if p.readEnd.isSome then closeRead m p s else (s, p)
  let (s, _) := if p.writeEnd.isSome then closeWrite m p s else (s, p)
  s

/-- The system call `close` in the process of the recipe, where there is one thread only. -/
def childClose (fd : Option Nat) (t : Table) : Table :=
  match fd with
  | none => t
  | some n => t.set n none

/-- The system call `dup2` in the process of the recipe. -/
def dup2 (fd : Option Nat) (target : Nat) (t : Table) : Table :=
  match fd with
  | none => t
  | some n =>
    match t n with
    | none => t
    | some d => if n = target then t else t.set target (some { d with cloexec := false })

/-- `Pipe::moveReadEndTo`, core/exec/execve.cpp:52-57; `Pipe::moveWriteEndTo`, l. 59-64. -/
def moveTo (fd : Option Nat) (target : Nat) (t : Table) : Table := childClose fd (dup2 fd target t)

/-- `fcntl(fd, F_SETFD, FD_CLOEXEC)`, core/exec/execve.cpp:66-72 (`closeReadEndOnExec`), 74-80 (`closeWriteEndOnExec`). -/
def setCloexec (fd : Option Nat) (t : Table) : Table :=
  match fd with
  | none => t
  | some n => t.set n ((t n).map fun d => { d with cloexec := true })

/-- The system call `execve` closes descriptors with the flag. -/
def exec (t : Table) : Table := fun fd => (t fd).filter fun d => !d.cloexec

/-- The new process until the recipe starts, core/exec/execve.cpp:187-196. -/
def child (stdin stdout stderr execErr : Pipe) (t : Table) : Table :=
  let t := childClose stdin.writeEnd t
  let t := childClose stdout.readEnd t
  let t := childClose stderr.readEnd t
  let t := childClose execErr.readEnd t
  let t := moveTo stdin.readEnd 0 t
  let t := moveTo stdout.writeEnd 1 t
  let t := moveTo stderr.writeEnd 2 t
  let t := setCloexec execErr.writeEnd t
  exec t

/-- How a call ends. -/
inductive Outcome where
  /-- with an exception -/
  | thrown
  /-- with the status of the recipe -/
  | returned
deriving DecidableEq, Repr

/-- `execve`, core/exec/execve.cpp:160-228. The last component is the table of the recipe when it starts. The exceptions are
thrown at l. 30, 184 and 219. Pipes are destroyed in the reverse order of their construction. Locks and the transfer of data
(Exec/Launch.lean and Exec/Transfer.lean) do not change descriptors. -/
def execve (m : Machine) (s : State) : State × Outcome × Option Table :=
  match mkPipe m .stdin s with
  | (s, none) => (s, .thrown, none)
  | (s, some stdin) =>
  match mkPipe m .stdout s with
  | (s, none) => (destroy m stdin s, .thrown, none)
  | (s, some stdout) =>
  match mkPipe m .stderr s with
  | (s, none) => (destroy m stdin (destroy m stdout s), .thrown, none)
  | (s, some stderr) =>
  match mkPipe m .execErr s with
  | (s, none) => (destroy m stdin (destroy m stdout (destroy m stderr s)), .thrown, none)
  | (s, some execErr) =>
  if m.forks then
    let s := { s with table := m.others s.clock s.table, clock := s.clock + 1 }
    let recipe := child stdin stdout stderr execErr s.table
    let (s, execErr) := closeWrite m execErr s
    if m.starts then
      let (s, stdin) := closeRead m stdin s
      let (s, stdout) := closeWrite m stdout s
      let (s, stderr) := closeWrite m stderr s
      (destroy m stdin (destroy m stdout (destroy m stderr (destroy m execErr s))), .returned, some recipe)
    else (destroy m stdin (destroy m stdout (destroy m stderr (destroy m execErr s))), .thrown, none)
  else (destroy m stdin (destroy m stdout (destroy m stderr (destroy m execErr s))), .thrown, none)

/-! ## Specification -/

/-- What is assumed about the operating system and the other threads: `pipe` returns two different descriptors that are not in use.
Other threads do not touch the pipes of this call, and do not duplicate them. They leave the standard streams of maike open. -/
structure Machine.Valid (m : Machine) : Prop where
  alloc : ∀ {n : Nat} {t : Table} {r w : Nat}, m.alloc n t = some (r, w) → t r = none ∧ t w = none ∧ r ≠ w
  kept : ∀ (n : Nat) (t : Table) (fd : Nat) (d : Desc), t fd = some d → d.obj.Ours → m.others n t fd = some d
  notCopied : ∀ (n : Nat) (t : Table) (fd : Nat) (d : Desc), m.others n t fd = some d → d.obj.Ours → t fd = some d
  streams : ∀ (n : Nat) (t : Table) (fd : Nat), fd < 3 → t fd ≠ none → m.others n t fd ≠ none

/-- The state when a call begins. -/
def start (t : Table) : State := { table := t, clock := 0, opened := [], closed := [] }

/-- No descriptor refers to a pipe of this call. -/
def Clean (t : Table) : Prop := ∀ fd d, t fd = some d → ¬ d.obj.Ours

/-- No other threads do anything, and `pipe` returns the lowest descriptors that are not in use, as the kernel does. -/
structure Machine.Alone (m : Machine) : Prop where
  quiet : ∀ n t, m.others n t = t
  lowest : ∀ {n : Nat} {t : Table} {r w : Nat}, m.alloc n t = some (r, w) →
    r < w ∧ t r = none ∧ t w = none ∧ ∀ i, i < w → i ≠ r → t i ≠ none

theorem Machine.Alone.valid {m : Machine} (h : m.Alone) : m.Valid where
  alloc ha := by obtain ⟨h1, h2, h3, -⟩ := h.lowest ha; exact ⟨h2, h3, by omega⟩
  kept n t fd d h1 _ := by rw [h.quiet]; exact h1
  notCopied n t fd d h1 _ := by rw [h.quiet] at h1; exact h1
  streams n t fd _ h1 := by rw [h.quiet]; exact h1

/-! ## Invariant -/

/-- `l` are the descriptors that this call has opened and not yet closed. `t` is the table when the call began. -/
structure Own (m : Machine) (t : Table) (s : State) (l : List (Nat × Obj)) : Prop where
  clean : Clean t
  open_ : ∀ e ∈ l, s.table e.1 = some ⟨e.2, false⟩ ∧ e.2.Ours
  all : ∀ fd d, s.table fd = some d → d.obj.Ours → (fd, d.obj) ∈ l
  nodup : (l.map (·.1)).Nodup
  logs : (s.opened.map some).Perm (s.closed ++ l.map fun e => some e.2)
  keep : m.Alone → (∀ fd d, t fd = some d → s.table fd = some d) ∧ ∀ fd d, s.table fd = some d → ¬ d.obj.Ours → t fd = some d

theorem Own.perm {m : Machine} {t : Table} {s : State} {l l' : List (Nat × Obj)} (h : Own m t s l) (hp : l.Perm l') : Own m t s l' where
  clean := h.clean
  keep := h.keep
  open_ e he := h.open_ e (hp.mem_iff.2 he)
  all fd d h1 h2 := hp.mem_iff.1 (h.all fd d h1 h2)
  nodup := (hp.map _).nodup_iff.1 h.nodup
  logs := h.logs.trans (List.Perm.append_left _ (hp.map _))

theorem Own.others {m : Machine} (hm : m.Valid) {t : Table} {s : State} {l : List (Nat × Obj)} (h : Own m t s l) (n : Nat) :
    Own m t { s with table := m.others s.clock s.table, clock := n } l where
  clean := h.clean
  keep ha := by rw [ha.quiet]; exact h.keep ha
  open_ e he := by
    obtain ⟨h1, h2⟩ := h.open_ e he
    exact ⟨hm.kept _ _ _ _ h1 h2, h2⟩
  all fd d h1 h2 := h.all fd d (hm.notCopied _ _ _ _ h1 h2) h2
  nodup := h.nodup
  logs := h.logs

theorem Own.close {m : Machine} (hm : m.Valid) {t : Table} {s : State} {fd : Nat} {o : Obj} {l : List (Nat × Obj)} (h : Own m t s ((fd, o) :: l)) :
    Own m t (closeFd m (some fd) s) l := by
  have h' := h.others hm (s.clock + 1)
  have hfd := h'.open_ (fd, o) (by simp)
  have hnd := h'.nodup
  simp only [List.map_cons, List.nodup_cons] at hnd
  refine ⟨h.clean, ?_, ?_, hnd.2, ?_, fun ha => ?_⟩
  · intro e he
    have he1 := h'.open_ e (by simp [he])
    have hne : e.1 ≠ fd := fun h => hnd.1 (by rw [← h]; exact List.mem_map_of_mem he)
    refine ⟨?_, he1.2⟩
    simpa [closeFd, Table.set, hne] using he1.1
  · intro fd' d h1 h2
    simp only [closeFd, Table.set] at h1
    by_cases hf : fd' = fd
    · simp [hf] at h1
    · simp only [hf, if_false] at h1
      have := h'.all fd' d h1 h2
      simp [hf] at this
      exact this
  · have hl := h'.logs
    simp only at hl hfd
    simp only [closeFd, hfd.1, Option.map_some, List.append_assoc]
    simpa using hl
  · obtain ⟨k1, k2⟩ := h'.keep ha
    simp only [closeFd, Table.set]
    constructor
    · intro i d hi
      by_cases hc : i = fd
      · subst hc
        have hd := (k1 i d hi).symm.trans hfd.1
        rw [Option.some.inj hd] at hi
        exact absurd hfd.2 (h.clean _ _ hi)
      · simp only [hc, if_false]; exact k1 i d hi
    · intro i d hi hn
      by_cases hc : i = fd
      · simp [hc] at hi
      · simp only [hc, if_false] at hi; exact k2 i d hi hn

theorem Own.mkPipe {m : Machine} (hm : m.Valid) {k : Kind} {t : Table} {s : State} {l : List (Nat × Obj)} (h : Own m t s l) :
    (∃ s', Descriptors.mkPipe m k s = (s', none) ∧ Own m t s' l) ∨
    ∃ s' r w, Descriptors.mkPipe m k s = (s', some ⟨some r, some w⟩) ∧ Own m t s' ((r, .readEnd k) :: (w, .writeEnd k) :: l) ∧
      m.others s.clock s.table r = none ∧ m.others s.clock s.table w = none := by
  have h' := h.others hm (s.clock + 1)
  cases ha : m.alloc s.clock (m.others s.clock s.table) with
  | none => exact .inl ⟨_, by simp only [Descriptors.mkPipe, ha], h'⟩
  | some rw_ =>
    obtain ⟨r, w⟩ := rw_
    obtain ⟨h1, h2, h3⟩ := hm.alloc ha
    refine .inr ⟨_, r, w, by simp only [Descriptors.mkPipe, ha]; exact rfl, ?_, h1, h2⟩
    have hfresh : ∀ e ∈ l, e.1 ≠ r ∧ e.1 ≠ w := by
      intro e he
      have := (h'.open_ e he).1
      constructor <;> intro hc <;> rw [hc] at this
      · simp [h1] at this
      · simp [h2] at this
    refine ⟨h.clean, ?_, ?_, ?_, ?_, fun ha => ?_⟩
    · intro e he
      rcases List.mem_cons.1 he with rfl | he
      · simp [Table.set, h3, Obj.Ours]
      rcases List.mem_cons.1 he with rfl | he
      · simp [Table.set, Obj.Ours]
      · have := hfresh e he
        have h4 := h'.open_ e he
        refine ⟨?_, h4.2⟩
        simpa [Table.set, this.1, this.2] using h4.1
    · intro fd d hd ho
      simp only [Table.set] at hd
      by_cases hw : fd = w
      · simp only [hw, if_true, Option.some.injEq] at hd
        subst hd; simp [hw]
      by_cases hr : fd = r
      · simp only [hr, h3, if_false, if_true, Option.some.injEq] at hd
        subst hd; simp [hr]
      · simp only [hw, hr, if_false] at hd
        exact List.mem_cons_of_mem _ (List.mem_cons_of_mem _ (h'.all fd d hd ho))
    · simp only [List.map_cons, List.nodup_cons, List.mem_cons, List.mem_map, not_or, not_exists, not_and]
      exact ⟨⟨h3, fun e he => (hfresh e he).1⟩, fun e he => (hfresh e he).2, h'.nodup⟩
    · simp only [List.map_append, List.map_cons, List.map_nil]
      have hl := h'.logs
      refine (List.Perm.append_right [some (Obj.readEnd k), some (Obj.writeEnd k)] hl).trans ?_
      rw [List.append_assoc]
      exact List.Perm.append_left _ List.perm_append_comm
    · obtain ⟨k1, k2⟩ := h'.keep ha
      simp only at k1 k2
      simp only [Table.set]
      constructor
      · intro i d hi
        have hi' := k1 i d hi
        have hr : i ≠ r := by intro hc; subst hc; simp [h1] at hi'
        have hw : i ≠ w := by intro hc; subst hc; simp [h2] at hi'
        simpa [hr, hw] using hi'
      · intro i d hi hn
        by_cases hw : i = w
        · simp only [hw, if_true, Option.some.injEq] at hi
          subst hi; simp [Obj.Ours] at hn
        by_cases hr : i = r
        · simp only [hr, h3, if_false, if_true, Option.some.injEq] at hi
          subst hi; simp [Obj.Ours] at hn
        · simp only [hw, hr, if_false] at hi
          exact k2 i d hi hn

theorem pipe_order {m : Machine} (hm : m.Alone) {k : Kind} {s s' : State} {r w : Nat}
    (he : Descriptors.mkPipe m k s = (s', some ⟨some r, some w⟩)) :
    r < w ∧ s.table r = none ∧ (∀ i, i < r → s.table i ≠ none) ∧ ∀ i, s'.table i = none → w < i := by
  simp only [Descriptors.mkPipe, hm.quiet] at he
  cases ha : m.alloc s.clock s.table with
  | none => simp [ha] at he
  | some e =>
    obtain ⟨r', w'⟩ := e
    simp only [ha, Prod.mk.injEq, Option.some.injEq, Pipe.mk.injEq] at he
    obtain ⟨rfl, rfl, rfl⟩ := he
    obtain ⟨h1, h2, h3, h4⟩ := hm.lowest ha
    refine ⟨h1, h2, fun i hi => h4 i (by omega) (by omega), fun i hi => ?_⟩
    simp only [Table.set] at hi
    split at hi
    · simp at hi
    split at hi
    · simp at hi
    · rcases Nat.lt_trichotomy i w' with h | h | h
      · exact absurd hi (h4 i h ‹_›)
      · exact absurd h ‹_›
      · exact h

theorem Own.closeBoth {m : Machine} (hm : m.Valid) {t : Table} {s : State} {r w : Nat} {o o' : Obj} {l : List (Nat × Obj)}
    (h : Own m t s ((r, o) :: (w, o') :: l)) : Own m t (destroy m ⟨some r, some w⟩ s) l := by
  simp only [destroy, closeRead, closeWrite, Option.isSome_some, if_true]
  exact (h.close hm).close hm

theorem Own.closeR {m : Machine} (hm : m.Valid) {t : Table} {s : State} {r : Nat} {o : Obj} {l : List (Nat × Obj)}
    (h : Own m t s ((r, o) :: l)) : Own m t (destroy m ⟨some r, none⟩ s) l := by
  simp only [destroy, closeRead, Option.isSome_some, if_true]
  exact h.close hm

theorem Own.closeW {m : Machine} (hm : m.Valid) {t : Table} {s : State} {w : Nat} {o : Obj} {l : List (Nat × Obj)}
    (h : Own m t s ((w, o) :: l)) : Own m t (destroy m ⟨none, some w⟩ s) l := by
  exact h.close hm

theorem own_start {m : Machine} {t : Table} (h : Clean t) : Own m t (start t) [] :=
  ⟨h, by simp, fun fd d h1 h2 => absurd h2 (h fd d h1), by simp, by simp [start],
    fun _ => ⟨fun _ _ h => h, fun _ _ h _ => h⟩⟩

/-- The standard streams of maike are open. -/
def Streams (t : Table) : Prop := ∀ fd, fd < 3 → ∃ d, t fd = some d ∧ ¬ d.obj.Ours

theorem Streams.others {m : Machine} (hm : m.Valid) {t : Table} (n : Nat) (h : Streams t) : Streams (m.others n t) := by
  intro fd hfd
  obtain ⟨d, hd, ho⟩ := h fd hfd
  have h' := hm.streams n t fd hfd (by simp [hd])
  obtain ⟨d', hd'⟩ := Option.ne_none_iff_exists'.1 h'
  refine ⟨d', hd', fun hc => ?_⟩
  have := hm.notCopied n t fd d' hd' hc
  rw [hd] at this
  exact ho (by rw [Option.some.inj this]; exact hc)

theorem Streams.mkPipe {m : Machine} (hm : m.Valid) {k : Kind} {s : State} (h : Streams s.table) :
    Streams (Descriptors.mkPipe m k s).1.table := by
  have h' := h.others hm s.clock
  cases ha : m.alloc s.clock (m.others s.clock s.table) with
  | none => simpa only [Descriptors.mkPipe, ha] using h'
  | some e =>
    obtain ⟨r, w⟩ := e
    obtain ⟨h1, h2, h3⟩ := hm.alloc ha
    intro fd hfd
    obtain ⟨d, hd, ho⟩ := h' fd hfd
    have hr : fd ≠ r := by intro hc; subst hc; simp [h1] at hd
    have hw : fd ≠ w := by intro hc; subst hc; simp [h2] at hd
    exact ⟨d, by simpa [Descriptors.mkPipe, ha, Table.set, hr, hw] using hd, ho⟩

/-- The descriptors of the pipes when the process of the recipe is made. -/
structure Fds where
  (r0 w0 r1 w1 r2 w2 r3 w3 : Nat)

/-- The descriptors with what they refer to. -/
def Fds.list (f : Fds) : List (Nat × Obj) :=
  [(f.r0, .readEnd .stdin), (f.w0, .writeEnd .stdin), (f.r1, .readEnd .stdout), (f.w1, .writeEnd .stdout),
    (f.r2, .readEnd .stderr), (f.w2, .writeEnd .stderr), (f.r3, .readEnd .execErr), (f.w3, .writeEnd .execErr)]

theorem runs {m : Machine} (hm : m.Valid) {t : Table} (ht : Clean t) :
    Own m t (execve m (start t)).1 [] ∧
    ∀ c, (execve m (start t)).2.2 = some c → ∃ (s : State) (f : Fds), Own m t s f.list ∧ (Streams t → Streams s.table) ∧
      (m.Alone → (f.r0 = 0 ↔ t 0 = none) ∧ f.r0 < f.w0 ∧ f.w0 < f.r1 ∧ f.r1 < f.w1 ∧ f.w1 < f.r2 ∧ f.r2 < f.w2 ∧ f.w2 < f.r3 ∧ f.r3 < f.w3) ∧
      c = child ⟨some f.r0, some f.w0⟩ ⟨some f.r1, some f.w1⟩ ⟨some f.r2, some f.w2⟩ ⟨some f.r3, some f.w3⟩ s.table := by
  have o0 := own_start (m := m) ht
  unfold execve
  have g0 := fun h => Streams.mkPipe (k := .stdin) (s := start t) hm h
  rcases o0.mkPipe (k := .stdin) hm with ⟨s1, e1, o1⟩ | ⟨s1, r0, w0, e1, o1, -⟩
  · rw [e1]; exact ⟨o1, by simp⟩
  rw [e1] at g0 ⊢
  have g1 := fun h => Streams.mkPipe (k := .stdout) (s := s1) hm h
  rcases o1.mkPipe (k := .stdout) hm with ⟨s2, e2, o2⟩ | ⟨s2, r1, w1, e2, o2, -⟩
  · simp only [e2]; exact ⟨o2.closeBoth hm, by simp⟩
  rw [e2] at g1
  simp only [e2]
  have g2 := fun h => Streams.mkPipe (k := .stderr) (s := s2) hm h
  rcases o2.mkPipe (k := .stderr) hm with ⟨s3, e3, o3⟩ | ⟨s3, r2, w2, e3, o3, -⟩
  · simp only [e3]; exact ⟨(o3.closeBoth hm).closeBoth hm, by simp⟩
  rw [e3] at g2
  simp only [e3]
  have g3 := fun h => Streams.mkPipe (k := .execErr) (s := s3) hm h
  rcases o3.mkPipe (k := .execErr) hm with ⟨s4, e4, o4⟩ | ⟨s4, r3, w3, e4, o4, -⟩
  · simp only [e4]; exact ⟨((o4.closeBoth hm).closeBoth hm).closeBoth hm, by simp⟩
  rw [e4] at g3
  simp only [e4]
  split
  · have o5 := o4.others hm (s4.clock + 1)
    have o6 : Own m t (closeWrite m ⟨some r3, some w3⟩ { s4 with table := m.others s4.clock s4.table, clock := s4.clock + 1 }).1 _ :=
      (o5.perm (List.Perm.swap _ _ _)).close hm
    split
    · have o7 := (o6.perm (l' := (r0, .readEnd .stdin) :: (w1, .writeEnd .stdout) :: (w2, .writeEnd .stderr) ::
        (r3, .readEnd .execErr) :: (r2, .readEnd .stderr) :: (r1, .readEnd .stdout) :: (w0, .writeEnd .stdin) :: [])
        (by
          rw [List.perm_iff_count]; intro a; simp only [List.count_cons]; omega))
      have o8 := ((o7.close hm).close hm).close hm
      refine ⟨(((o8.closeR hm).closeR hm).closeR hm).closeW hm, ?_⟩
      intro c hc
      simp only [Option.some.injEq] at hc
      refine ⟨_, ⟨r0, w0, r1, w1, r2, w2, r3, w3⟩, o5.perm ?_, fun h => ?_, fun ha => ?_, hc.symm⟩
      · simp only [Fds.list]
        rw [List.perm_iff_count]; intro a; simp only [List.count_cons]; omega
      · exact (g3 (g2 (g1 (g0 h)))).others hm _
      · obtain ⟨a1, a2, a3, a4⟩ := pipe_order ha e1
        obtain ⟨b1, b2, b3, b4⟩ := pipe_order ha e2
        obtain ⟨c1, c2, c3, c4⟩ := pipe_order ha e3
        obtain ⟨d1, d2, d3, d4⟩ := pipe_order ha e4
        refine ⟨⟨fun h => ?_, fun h => ?_⟩, a1, a4 _ b2, b1, b4 _ c2, c1, c4 _ d2, d1⟩
        · simp only at h; rw [h] at a2; exact a2
        · simp only
          rcases Nat.eq_zero_or_pos r0 with h0 | h0
          · exact h0
          · exact absurd h (a3 0 h0)
    · exact ⟨(((o6.closeR hm).closeBoth hm).closeBoth hm).closeBoth hm, by simp⟩
  · exact ⟨(((o4.closeBoth hm).closeBoth hm).closeBoth hm).closeBoth hm, by simp⟩

/-! ## C96 -/

/-- C96: whatever other threads do, and whatever fails, when a call is over maike has no descriptor left that refers to a pipe of this call. -/
theorem C96_no_leak {m : Machine} (hm : m.Valid) {t : Table} (ht : Clean t) : Clean (execve m (start t)).1.table := by
  intro fd d h1 h2
  simpa using (runs hm ht).1.all fd d h1 h2

/-- C96: each end of a pipe that a call opens is closed exactly once by this call, and it closes nothing else: there is no call of `close` with
a descriptor that is not open, or that now belongs to something else. -/
theorem C96_closed_once {m : Machine} (hm : m.Valid) {t : Table} (ht : Clean t) :
    (execve m (start t)).1.closed.Perm ((execve m (start t)).1.opened.map some) := by
  simpa using (runs hm ht).1.logs.symm

theorem set_same {t : Table} {n : Nat} {d : Option Desc} : t.set n d n = d := by simp [Table.set]

theorem set_other {t : Table} {n i : Nat} {d : Option Desc} (h : i ≠ n) : t.set n d i = t i := by simp [Table.set, h]

theorem moveTo_eq {t : Table} {n target : Nat} {o : Obj} (h : t n = some ⟨o, false⟩) (hn : n ≠ target) :
    moveTo (some n) target t = (t.set target (some ⟨o, false⟩)).set n none := by
  simp [moveTo, dup2, h, hn, childClose]

local macro "differ" : tactic => `(tactic| first | assumption | (apply Ne.symm; assumption) | (intro h; simp_all; done))

theorem child_table {m : Machine} {t : Table} {s : State} {f : Fds} (ho : Own m t s f.list) (h0 : f.r0 ≠ 0) (h1 : 3 ≤ f.w1) (h2 : 3 ≤ f.w2) (h3 : 3 ≤ f.w3) (fd : Nat) :
    child ⟨some f.r0, some f.w0⟩ ⟨some f.r1, some f.w1⟩ ⟨some f.r2, some f.w2⟩ ⟨some f.r3, some f.w3⟩ s.table fd =
      if fd = 0 then some ⟨.readEnd .stdin, false⟩ else if fd = 1 then some ⟨.writeEnd .stdout, false⟩ else
      if fd = 2 then some ⟨.writeEnd .stderr, false⟩ else
      if fd ∈ f.list.map (·.1) then none else (s.table fd).filter fun d => !d.cloexec := by
  obtain ⟨r0, w0, r1, w1, r2, w2, r3, w3⟩ := f
  simp only at h0 h1 h2 h3
  obtain ⟨k1, k2, k3, k4, k5, k6, k7, k8, k9⟩ : ¬ w1 = 0 ∧ ¬ w1 = 1 ∧ ¬ w1 = 2 ∧ ¬ w2 = 0 ∧ ¬ w2 = 1 ∧ ¬ w2 = 2 ∧ ¬ w3 = 0 ∧ ¬ w3 = 1 ∧ ¬ w3 = 2 := by omega
  have hnd := ho.nodup
  have hop := ho.open_
  simp only [Fds.list, List.mem_cons, List.not_mem_nil, or_false, forall_eq_or_imp, forall_eq, List.map_cons, List.map_nil, List.nodup_cons,
    not_or, not_false_eq_true, List.nodup_nil, and_true] at hnd hop ⊢
  obtain ⟨⟨p0, -⟩, ⟨q0, -⟩, ⟨p1, -⟩, ⟨q1, -⟩, ⟨p2, -⟩, ⟨q2, -⟩, ⟨p3, -⟩, ⟨q3, -⟩⟩ := hop
  obtain ⟨⟨a1, a2, a3, a4, a5, a6, a7⟩, ⟨b1, b2, b3, b4, b5, b6⟩, ⟨c1, c2, c3, c4, c5⟩, ⟨d1, d2, d3, d4⟩, ⟨e1, e2, e3⟩, ⟨f1, f2⟩, i1⟩ := hnd
  simp only [child, childClose]
  rw [moveTo_eq (n := r0) (o := .readEnd .stdin) (by repeat rw [set_other (by differ)]; first | assumption | skip) h0]
  rw [moveTo_eq (n := w1) (o := .writeEnd .stdout) (by repeat rw [set_other (by differ)]; first | assumption | skip) (by differ)]
  rw [moveTo_eq (n := w2) (o := .writeEnd .stderr) (by repeat rw [set_other (by differ)]; first | assumption | skip) (by differ)]
  simp only [setCloexec, exec]
  generalize hu : (((s.table.set w0 none).set r1 none).set r2 none).set r3 none = u
  have hu' : ∀ i, i ≠ w0 → i ≠ r1 → i ≠ r2 → i ≠ r3 → u i = s.table i := by
    intro i a1 a2 a3 a4
    rw [← hu, set_other a4, set_other a3, set_other a2, set_other a1]
  have hu0 : ∀ i, i = w0 ∨ i = r1 ∨ i = r2 ∨ i = r3 → u i = none := by
    intro i a
    rw [← hu]
    rcases a with rfl | rfl | rfl | rfl <;> simp [Table.set]
  by_cases g3 : fd = w3
  · subst g3
    rw [set_same, set_other (by differ), set_other (by differ), set_other (by differ), set_other (by differ), set_other (by differ),
      set_other (by differ), hu' fd (by differ) (by differ) (by differ) (by differ), q3, if_neg (by differ), if_neg (by differ), if_neg (by differ),
      if_pos (by simp)]
    rfl
  rw [set_other g3]
  by_cases g2 : fd = w2
  · rw [g2, set_same, if_neg (by differ), if_neg (by differ), if_neg (by differ), if_pos (by simp)]; rfl
  rw [set_other g2]
  by_cases f2 : fd = 2
  · rw [f2, set_same]; rfl
  rw [set_other f2]
  by_cases g1 : fd = w1
  · rw [g1, set_same, if_neg (by differ), if_neg (by differ), if_neg (by differ), if_pos (by simp)]; rfl
  rw [set_other g1]
  by_cases f1 : fd = 1
  · rw [f1, set_same]; rfl
  rw [set_other f1, if_neg f1, if_neg f2]
  by_cases g0 : fd = r0
  · rw [g0, set_same, if_neg h0, if_pos (by simp)]; rfl
  rw [set_other g0]
  by_cases f0 : fd = 0
  · rw [f0, set_same]; rfl
  rw [set_other f0, if_neg f0]
  by_cases gu : fd = w0 ∨ fd = r1 ∨ fd = r2 ∨ fd = r3
  · rw [hu0 fd gu, if_pos (by grind)]; rfl
  · simp only [not_or] at gu
    rw [hu' fd gu.1 gu.2.1 gu.2.2.1 gu.2.2.2, if_neg (by simp [g0, g1, g2, g3, gu])]

theorem above {m : Machine} {t : Table} {s : State} {l : List (Nat × Obj)} (ho : Own m t s l) (hs : Streams s.table) : ∀ e ∈ l, 3 ≤ e.1 := by
  intro e he
  obtain ⟨h1, h2⟩ := ho.open_ e he
  rcases Nat.lt_or_ge e.1 3 with h | h
  · obtain ⟨d, hd, hn⟩ := hs _ h
    rw [h1] at hd
    rw [← Option.some.inj hd] at hn
    exact absurd h2 hn
  · exact h

/-- C96: if the standard streams of maike are open, then a recipe starts with the standard input connected to the pipe for its input, the
standard output and the standard error connected to the pipes for its output, and it has no other descriptor for the pipes of this call. -/
theorem C96_streams {m : Machine} (hm : m.Valid) {t : Table} (ht : Clean t) (hs : ∀ fd, fd < 3 → t fd ≠ none) {c : Table}
    (hc : (execve m (start t)).2.2 = some c) :
    (c 0).map (·.obj) = some (.readEnd .stdin) ∧ (c 1).map (·.obj) = some (.writeEnd .stdout) ∧
    (c 2).map (·.obj) = some (.writeEnd .stderr) ∧ ∀ fd d, 3 ≤ fd → c fd = some d → ¬ d.obj.Ours := by
  obtain ⟨s, f, ho, h, -, rfl⟩ := (runs hm ht).2 c hc
  have hs' : Streams s.table := h fun fd hfd => by
    obtain ⟨d, hd⟩ := Option.ne_none_iff_exists'.1 (hs fd hfd)
    exact ⟨d, hd, ht fd d hd⟩
  have ha := above ho hs'
  have ht := child_table ho
    (by have := ha (f.r0, .readEnd .stdin) (by simp [Fds.list]); simp at this; omega)
    (ha (f.w1, .writeEnd .stdout) (by simp [Fds.list]))
    (ha (f.w2, .writeEnd .stderr) (by simp [Fds.list])) (ha (f.w3, .writeEnd .execErr) (by simp [Fds.list]))
  refine ⟨by simp [ht], by simp [ht], by simp [ht], ?_⟩
  intro fd d hfd hd ho'
  rw [ht, if_neg (by omega), if_neg (by omega), if_neg (by omega)] at hd
  split at hd
  · simp at hd
  · rename_i hn
    have := ho.all fd d (Option.mem_filter_iff.1 hd).1 ho'
    exact hn (List.mem_map_of_mem this)

/-- C96: without other threads, the descriptors of maike after a call are those before it, also if the call fails. -/
theorem C96_restored {m : Machine} (hm : m.Alone) {t : Table} (ht : Clean t) : (execve m (start t)).1.table = t := by
  obtain ⟨k1, k2⟩ := (runs hm.valid ht).1.keep hm
  have hc := C96_no_leak hm.valid ht
  funext fd
  cases h : t fd with
  | some d => exact k1 fd d h
  | none =>
    cases h' : (execve m (start t)).1.table fd with
    | none => rfl
    | some d => rw [k2 fd d h' (hc fd d h')] at h; cases h

/-- C96: without other threads, the standard streams of a recipe are connected exactly if maike has been started with an open standard input. If
it has not, then the recipe starts without a standard input, whether or not the other streams are open. -/
theorem C96_exact {m : Machine} (hm : m.Alone) {t : Table} (ht : Clean t) {c : Table} (hc : (execve m (start t)).2.2 = some c) :
    ((c 0).map (·.obj) = some (.readEnd .stdin) ∧ (c 1).map (·.obj) = some (.writeEnd .stdout) ∧
      (c 2).map (·.obj) = some (.writeEnd .stderr) ↔ t 0 ≠ none) ∧ (t 0 = none → c 0 = none) := by
  obtain ⟨s, f, ho, -, h, rfl⟩ := (runs hm.valid ht).2 c hc
  obtain ⟨h0, h1, h2, h3, h4, h5, h6, h7⟩ := h hm
  have hcl : f.r0 = 0 → child ⟨some f.r0, some f.w0⟩ ⟨some f.r1, some f.w1⟩ ⟨some f.r2, some f.w2⟩ ⟨some f.r3, some f.w3⟩ s.table 0 = none := by
    intro hz
    have hb : ∀ {n target : Nat} {t : Table}, n ≠ 0 → target ≠ 0 → t 0 = none → moveTo (some n) target t 0 = none := by
      intro n target t h1 h2 h3
      simp only [moveTo, childClose, set_other (Ne.symm h1), dup2]
      cases t n with
      | none => exact h3
      | some d =>
        simp only
        split
        · exact h3
        · rw [set_other (Ne.symm h2)]; exact h3
    simp only [child]
    generalize childClose (some f.r3) _ = u
    have hu : moveTo (some f.r0) 0 u 0 = none := by simp [hz, moveTo, childClose, set_same]
    have hv := hb (n := f.w2) (target := 2) (by omega) (by omega) (hb (n := f.w1) (target := 1) (by omega) (by omega) hu)
    simp only [setCloexec, exec]
    rw [set_other (by omega), hv]
    rfl
  refine ⟨⟨fun hs hz => ?_, fun hs => ?_⟩, fun hz => hcl (h0.2 hz)⟩
  · rw [hcl (h0.2 hz)] at hs
    simp at hs
  · have hn : f.r0 ≠ 0 := fun h => hs (h0.1 h)
    have ht := child_table ho hn (by omega) (by omega) (by omega)
    exact ⟨by simp [ht], by simp [ht], by simp [ht]⟩

/-! ## Examples -/

namespace DescriptorsExample

/-- The descriptors `0 .. n-1` are in use, except for those in `l`. -/
def table (n : Nat) (l : List Nat) : Table := fun fd => if fd < n ∧ fd ∉ l then some ⟨.other fd, false⟩ else none

theorem table_clean (n : Nat) (l : List Nat) : Clean (table n l) := by
  intro fd d h
  simp only [table] at h
  split at h
  · rw [← Option.some.inj h]; simp [Obj.Ours]
  · simp at h

/-- The lowest descriptor that is not in use, below a limit. -/
def lowestFrom (t : Table) : Nat → Nat → Option Nat
  | _, 0 => none
  | i, n + 1 => if t i = none then some i else lowestFrom t (i + 1) n

theorem lowestFrom_spec {t : Table} {i n r : Nat} (h : lowestFrom t i n = some r) :
    i ≤ r ∧ t r = none ∧ ∀ j, i ≤ j → j < r → t j ≠ none := by
  induction n generalizing i with
  | zero => simp [lowestFrom] at h
  | succ n ih =>
    simp only [lowestFrom] at h
    split at h
    · rename_i h0
      cases h
      exact ⟨Nat.le_refl _, h0, fun j h1 h2 => by omega⟩
    · rename_i h0
      obtain ⟨h1, h2, h3⟩ := ih h
      refine ⟨by omega, h2, fun j h4 h5 => ?_⟩
      rcases Nat.eq_or_lt_of_le h4 with h6 | h6
      · rw [← h6]; exact h0
      · exact h3 j h6 h5

/-- A process may have `limit` descriptors. -/
def alloc (limit : Nat) (t : Table) : Option (Nat × Nat) :=
  match lowestFrom t 0 limit with
  | none => none
  | some r =>
    match lowestFrom t (r + 1) (limit - (r + 1)) with
    | none => none
    | some w => some (r, w)

/-- A machine with no other threads. -/
def machine (limit : Nat) (starts : Bool) : Machine := ⟨fun _ t => t, fun _ t => alloc limit t, true, starts⟩

theorem machine_alone (limit : Nat) (starts : Bool) : (machine limit starts).Alone where
  quiet _ _ := rfl
  lowest {n t r w} h := by
    simp only [machine, alloc] at h
    split at h
    · cases h
    rename_i r' h1
    split at h
    · cases h
    rename_i w' h2
    cases h
    obtain ⟨-, a2, a3⟩ := lowestFrom_spec h1
    obtain ⟨b1, b2, b3⟩ := lowestFrom_spec h2
    refine ⟨by omega, a2, b2, fun i hi hr => ?_⟩
    rcases Nat.lt_trichotomy i r with h | h | h
    · exact a3 i (Nat.zero_le _) h
    · exact absurd h hr
    · exact b3 i h hi

/-- Another thread opens a file before this thread creates its second pipe, and closes it later. -/
def busy : Machine :=
  { machine 64 true with
    others := fun n t =>
      if n = 1 ∧ t 20 = none then t.set 20 (some ⟨.other 20, false⟩)
      else if n = 6 ∧ t 20 = some ⟨.other 20, false⟩ then t.set 20 none else t }

theorem busy_valid : busy.Valid where
  alloc {n _ _ _} ha := (machine_alone 64 true).valid.alloc (n := n) ha
  kept n t fd d h1 h2 := by
    simp only [busy]
    split
    · rename_i h; rw [set_other (by intro hc; subst hc; simp [h.2] at h1)]; exact h1
    split
    · rename_i h
      rw [set_other]
      · exact h1
      · intro hc; subst hc; rw [h.2] at h1; rw [← Option.some.inj h1] at h2; simp [Obj.Ours] at h2
    · exact h1
  notCopied n t fd d h1 h2 := by
    simp only [busy] at h1
    split at h1
    · by_cases hc : fd = 20
      · subst hc; rw [set_same] at h1; rw [← Option.some.inj h1] at h2; simp [Obj.Ours] at h2
      · rwa [set_other hc] at h1
    split at h1
    · by_cases hc : fd = 20
      · subst hc; rw [set_same] at h1; simp at h1
      · rwa [set_other hc] at h1
    · exact h1
  streams n t fd hfd h1 := by
    simp only [busy]
    split
    · rw [set_other (by omega)]; exact h1
    split
    · rw [set_other (by omega)]; exact h1
    · exact h1

/-- C96_streams, C96_no_leak, C96_closed_once: with another thread, a recipe starts; all eight ends have been closed. -/
example : (execve busy (start (table 5 []))).2.1 = .returned ∧ (execve busy (start (table 5 []))).1.closed.length = 8 ∧
    ((execve busy (start (table 5 []))).2.2.map fun c => (List.range 24).map fun fd => (c fd).map (·.obj)) =
      some ([some (.readEnd .stdin), some (.writeEnd .stdout), some (.writeEnd .stderr), some (.other 3), some (.other 4)] ++
        List.replicate 15 none ++ [some (.other 20), none, none, none]) := by
  decide +kernel

example : Clean (execve busy (start (table 5 []))).1.table := C96_no_leak busy_valid (table_clean 5 [])

/-- The third pipe cannot be created: the call fails, and the ends of the others have been closed. -/
example : (execve (machine 10 true) (start (table 5 []))).2.1 = .thrown ∧ (execve (machine 10 true) (start (table 5 []))).1.closed.length = 4 := by
  decide +kernel

/-- C96 is false if maike has been started without a standard input: a recipe has none, although its output is connected. -/
theorem C96_false : ∃ (m : Machine) (t : Table), m.Valid ∧ Clean t ∧ ∃ c, (execve m (start t)).2.2 = some c ∧ c 0 = none ∧
    (c 1).map (·.obj) = some (.writeEnd .stdout) := by
  have hs : ((execve (machine 64 true) (start (table 3 [0]))).2.2.map fun c => (c 0, (c 1).map (·.obj))) =
      some (none, some (.writeEnd .stdout)) := by decide +kernel
  refine ⟨machine 64 true, table 3 [0], (machine_alone _ _).valid, table_clean _ _, ?_⟩
  cases h : (execve (machine 64 true) (start (table 3 [0]))).2.2 with
  | none => simp [h] at hs
  | some c =>
    simp only [h, Option.map_some, Option.some.injEq, Prod.mk.injEq] at hs
    exact ⟨c, rfl, hs⟩

/-- C96_exact: it suffices that the standard input is open. -/
example : ((execve (machine 64 true) (start (table 3 [1, 2]))).2.2.map fun c => (List.range 12).map fun fd => (c fd).map (·.obj)) =
    some ([some (.readEnd .stdin), some (.writeEnd .stdout), some (.writeEnd .stderr)] ++ List.replicate 9 none) := by
  decide +kernel

end DescriptorsExample

end Maike.Exec.Descriptors
