import Verif.Tree.ScanThreadInv

/-!
# Theorems about the directory scanner, one operation at a time (C105)

The program is in `ScanThreads.lean`, with the definitions of what is legal and what is a race. The words `Reached`, `Passes`, `Says` and `Height` are defined in
the specification section of `Scanner.lean`, without reference to a scanner.
-/

namespace Maike.Tree.Threads

open Fs Paths

variable {I : Type} {w : World I}

/-! ## All reachable states -/

theorem Start.inv {n : Nat} {s : State I} (h : Start n s) : Inv w n s := by
  have other : ∀ tid pc, tid ≠ 0 → s.pcs[tid]? = some pc → pc.Idle := by
    intro tid pc h0 hp
    cases tid with
    | zero => exact absurd rfl h0
    | succ tid => exact h.idle tid pc hp
  have main : ∀ pc, s.pcs[0]? = some pc → pc = .incLock .main := by
    intro pc hp
    rw [h.main] at hp
    exact (Option.some.inj hp).symm
  refine ⟨h.threads, ⟨?_, ?_, fun _ => h.readers⟩, ?_, ?_, ?_, ?_, ?_, ?_, ?_, ?_⟩
  · intro m tid
    by_cases hm : m = .pool
    · subst hm
      rw [h.pool]
      constructor
      · intro hp; exact ⟨_, hp, rfl⟩
      · rintro ⟨pc, hp, hh⟩
        by_cases h0 : tid = 0
        · subst h0; rw [main pc hp] at hh; cases hh
        · rcases other tid pc h0 hp with rfl | rfl | rfl
          · cases hh
          · exact hp
          · cases hh
    · rw [h.free m hm]
      constructor
      · intro h; cases h
      · rintro ⟨pc, hp, hh⟩
        by_cases h0 : tid = 0
        · subst h0; rw [main pc hp] at hh; cases hh
        · rcases other tid pc h0 hp with rfl | rfl | rfl
          · cases hh
          · cases hh; exact absurd rfl hm
          · cases hh
  · intro tid
    rw [h.readers]
    constructor
    · intro h; cases h
    · rintro ⟨pc, hp, hh⟩
      by_cases h0 : tid = 0
      · subst h0; rw [main pc hp] at hh; cases hh
      · rcases other tid pc h0 hp with rfl | rfl | rfl <;> cases hh
  · intro tid pc hp
    by_cases h0 : tid = 0
    · subst h0; rw [main pc hp]; rfl
    · rw [decide_eq_false h0]
      rcases other tid pc h0 hp with rfl | rfl | rfl <;> rfl
  · intro tid pc hp
    by_cases h0 : tid = 0
    · subst h0; rw [main pc hp]; trivial
    · rcases other tid pc h0 hp with rfl | rfl | rfl <;> trivial
  · intro x hx hf; rw [main x hx] at hf; cases hf
  · intro hx; cases main _ hx
  · intro hx; cases main _ hx
  · rw [h.alive]
    constructor
    · intro h; cases h
    · rintro ⟨r, hx⟩; cases main _ hx
  · intro hq; exact absurd h.queue hq
  · intro hx; cases main _ hx

theorem Start.split {n : Nat} {s : State I} (h : Start n s) : ∃ l, s.pcs = .incLock .main :: l ∧ (∀ pc ∈ l, pc.Idle) ∧ l.length = n := by
  have h1 := h.threads
  have h2 := h.main
  have h3 := h.idle
  cases hl : s.pcs with
  | nil => rw [hl] at h1; cases h1
  | cons x l =>
    rw [hl] at h1 h2 h3
    simp only [List.getElem?_cons_zero, Option.some.injEq] at h2
    refine ⟨l, by rw [h2], fun pc hp => ?_, by simpa using h1⟩
    obtain ⟨i, hi⟩ := List.getElem?_of_mem hp
    exact h3 i pc (by rw [List.getElem?_cons_succ, hi])

theorem flatMap_nil {α β : Type} (l : List α) (f : α → List β) (h : ∀ x ∈ l, f x = []) : l.flatMap f = [] := by
  induction l with
  | nil => rfl
  | cons x l ih => simp only [List.flatMap_cons, h x (by simp), ih fun y hy => h y (by simp [hy]), List.append_nil]

theorem Start.rel {n : Nat} {s : State I} (h : Start n s) : Rel w s (Scan.init w) := by
  obtain ⟨l, e, hl, _⟩ := h.split
  refine ⟨⟨[], ?_⟩, ?_, ?_, ?_, ?_⟩
  · rw [e, h.queue, List.flatMap_cons, flatMap_nil l (Pc.tasks w) (fun x hx => by rcases hl x hx with rfl | rfl | rfl <;> rfl)]
    exact .refl _
  · rw [e, h.value, List.map_cons, List.sum_cons, sum_zero l Pc.early (fun x hx => by rcases hl x hx with rfl | rfl | rfl <;> rfl)]
    rfl
  · rw [e, h.loads, List.flatMap_cons, flatMap_nil l Pc.loaded (fun x hx => by rcases hl x hx with rfl | rfl | rfl <;> rfl)]
    exact .refl _
  · intro _ _ _
    exact ⟨h.files, h.errlog⟩
  · intro pc r hp hr
    rw [h.main] at hp
    cases hp
    cases hr

theorem Start.weight_le {n : Nat} {s : State I} (h : Start n s) : s.weight ≤ 38 + 2 * n := by
  obtain ⟨l, e, hl, hn⟩ := h.split
  unfold State.weight
  rw [e, h.queue]
  have : ∀ l : List (Pc I), (∀ pc ∈ l, pc.Idle) → (l.map Pc.weight).sum ≤ 2 * l.length := by
    intro l
    induction l with
    | nil => intro _; simp
    | cons x l ih =>
      intro h
      have h1 := ih fun y hy => h y (by simp [hy])
      have h2 : x.weight ≤ 2 := by rcases h x (by simp) with rfl | rfl | rfl <;> simp [Pc.weight]
      simp only [List.map_cons, List.sum_cons, List.length_cons]
      omega
  have := this l hl
  simp [Pc.weight, Adder.isMain]
  omega

/-- What is known after a schedule. -/
structure Good (w : World I) (n : Nat) (s : State I) (a : Scan I) (m : Nat) : Prop where
  steps : Steps w m (Scan.init w) a
  rel : Rel w s a
  inv : Inv w n s

theorem Good.step (hw : w.Ok) {n : Nat} (hn : 0 < n) {s s' : State I} {a : Scan I} {m : Nat} (h : Good w n s a m) {act : Act} (hs : step w act s = some s') :
    ∃ a' m', Good w n s' a' m' ∧ (if act.isSpurious then 0 else 1) + s'.weight + 35 * m ≤ s.weight + 35 * m' + 2 * (if act.isSpurious then 1 else 0) := by
  cases act with
  | run tid wake =>
    obtain ⟨pc, hp, hg⟩ := run_go hs
    have hai := steps_inv hw h.steps
    have hi' := h.inv.go hn h.rel hai hp hg
    rcases sim_go h.inv h.rel hai hp hg with ⟨g1, g2⟩ | ⟨a', g1, g2, g3⟩
    · refine ⟨a, m, ⟨h.steps, g1, hi'⟩, ?_⟩
      simp [Act.isSpurious]; omega
    · refine ⟨a', m + 1, ⟨h.steps.tail g1, g2, hi'⟩, ?_⟩
      simp [Act.isSpurious]; omega
  | spurious tid =>
    obtain ⟨pcs, g1, g2⟩ := wakeUp_woken hs (h.inv.role tid)
    subst g2
    refine ⟨a, m, ⟨h.steps, h.rel.woken g1, h.inv.woken g1⟩, ?_⟩
    have := woken_weight g1
    simp [Act.isSpurious, State.weight]; omega

theorem Good.exec (hw : w.Ok) {n : Nat} (hn : 0 < n) (as : List Act) {s s' : State I} {a : Scan I} {m : Nat} (h : Good w n s a m) (hs : exec w as s = some s') :
    ∃ a' m', Good w n s' a' m' ∧ as.countP (! Act.isSpurious ·) + s'.weight + 35 * m ≤ s.weight + 35 * m' + 2 * as.countP Act.isSpurious := by
  induction as generalizing s a m with
  | nil =>
    cases hs
    exact ⟨a, m, h, by simp⟩
  | cons act as ih =>
    simp only [Threads.exec] at hs
    split at hs
    · rename_i s1 h1
      obtain ⟨a1, m1, g1, g2⟩ := h.step hw hn h1
      obtain ⟨a2, m2, g3, g4⟩ := ih g1 hs
      refine ⟨a2, m2, g3, ?_⟩
      simp only [List.countP_cons]
      cases hsp : act.isSpurious <;> simp [hsp] at g2 ⊢ <;> omega
    · cases hs

theorem Start.good {n : Nat} {s : State I} (h : Start n s) : Good w n s (Scan.init w) 0 := ⟨.refl, h.rel, h.inv⟩

theorem Reachable.good (hw : w.Ok) {n : Nat} (hn : 0 < n) {s : State I} (h : Reachable w n s) : ∃ a m, Good w n s a m := by
  obtain ⟨s₀, as, h1, h2⟩ := h
  obtain ⟨a, m, g, _⟩ := h1.good.exec hw hn as h2
  exact ⟨a, m, g⟩

theorem exec_append (as bs : List Act) (s : State I) : exec w (as ++ bs) s = (exec w as s).bind (exec w bs) := by
  induction as generalizing s with
  | nil => rfl
  | cons x as ih =>
    simp only [List.cons_append, exec]
    cases step w x s with
    | none => rfl
    | some s' => exact ih s'

theorem Reachable.next {n : Nat} {s s' : State I} (h : Reachable w n s) {as : List Act} (hs : exec w as s = some s') : Reachable w n s' := by
  obtain ⟨s₀, bs, h1, h2⟩ := h
  exact ⟨s₀, bs ++ as, h1, by rw [exec_append, h2]; exact hs⟩

/-! ## C105 -/

/-- **C105 (same as C49 and C50).** Whatever the schedule and the number of workers are, the scan ends as the scan of `Scanner.lean` does after some schedule of its own, and
the loader is called for the same paths. -/
theorem C105_refines (hw : w.Ok) {n : Nat} (hn : 0 < n) {s : State I} (hs : Reachable w n s) {r : Except Str (List (Path × I))} (he : s.Ended r) :
    ∃ m a, Steps w m (Scan.init w) a ∧ takeResult a = some r ∧ s.loads.Perm a.shared.loads := by
  obtain ⟨a, m, h⟩ := hs.good hw hn
  refine ⟨m, a, h.steps, h.rel.result _ r he rfl, ?_⟩
  have h1 := h.rel.loads
  rw [flatMap_nil, List.append_nil] at h1
  · exact h1
  · intro pc hpc
    obtain ⟨tid, ht⟩ := List.getElem?_of_mem hpc
    by_cases h0 : tid = 0
    · subst h0
      unfold State.Ended at he
      rw [he] at ht
      cases ht
      rfl
    · rcases (h.inv.quiet _ he rfl).2.2 tid pc h0 ht with rfl | rfl | rfl <;> rfl

/-- **C105 (result).** If the scan ends without an exception, the result contains what the loader returned for each path that is reached and passes the filters, and nothing else. -/
theorem C105_result (hw : w.Ok) {n : Nat} (hn : 0 < n) {s : State I} (hs : Reachable w n s) {files : List (Path × I)} (he : s.Ended (.ok files)) (k : Path) (i : I) :
    (k, i) ∈ files ↔ ∃ p, w.Reached p ∧ w.Passes p ∧ w.load p = .ok i ∧ k = p.normal := by
  obtain ⟨m, a, h1, h2, _⟩ := C105_refines hw hn hs he
  exact C49_result hw h1 h2 k i

/-- **C105 (errors).** If the scan ends with an exception, its text consists of the messages for all the paths that could not be handled, and there are such paths. -/
theorem C105_errors (hw : w.Ok) {n : Nat} (hn : 0 < n) {s : State I} (hs : Reachable w n s) {text : Str} (he : s.Ended (.error text)) :
    (∃ p m, w.Reached p ∧ w.Says p m) ∧
    ∃ l : List (Path × Str), l.Nodup ∧ (∀ p m, (p, m) ∈ l ↔ w.Reached p ∧ w.Says p m) ∧ text = (l.map fun x => x.2 ++ ['\n']).flatten := by
  obtain ⟨m, a, h1, h2, _⟩ := C105_refines hw hn hs he
  exact ⟨(C50_throws hw h1 h2).mp ⟨text, rfl⟩, C50_text hw h1 h2⟩

/-- **C105 (exceptions).** The scan ends with an exception exactly if there is a path that is reached and cannot be handled. -/
theorem C105_throws (hw : w.Ok) {n : Nat} (hn : 0 < n) {s : State I} (hs : Reachable w n s) {r : Except Str (List (Path × I))} (he : s.Ended r) :
    (∃ text, r = .error text) ↔ ∃ p m, w.Reached p ∧ w.Says p m := by
  obtain ⟨m, a, h1, h2, _⟩ := C105_refines hw hn hs he
  exact C50_throws hw h1 h2

/-- **C105 (no chance).** Neither the number of workers nor the schedule has an influence on the result. -/
theorem C105_deterministic (hw : w.Ok) {n n' : Nat} (hn : 0 < n) (hn' : 0 < n') {s s' : State I} (hs : Reachable w n s) (hs' : Reachable w n' s')
    {r r' : Except Str (List (Path × I))} (he : s.Ended r) (he' : s'.Ended r') {files : List (Path × I)} (hr : r = .ok files) : r' = .ok files := by
  subst hr
  obtain ⟨m, a, h1, h2, _⟩ := C105_refines hw hn hs he
  obtain ⟨m', a', h3, h4, _⟩ := C105_refines hw hn' hs' he'
  have := C49_schedule hw h1 h3 h2 (by rw [h4]; simp)
  rw [h4] at this
  exact Option.some.inj this

/-- **C105 (each path once).** When the scan has ended, the loader has been called once for each path that is reached and passes the filters, and for no other path. -/
theorem C105_once (hw : w.Ok) {n : Nat} (hn : 0 < n) {s : State I} (hs : Reachable w n s) {r : Except Str (List (Path × I))} (he : s.Ended r) :
    s.loads.Nodup ∧ ∀ p, p ∈ s.loads ↔ w.Reached p ∧ w.Passes p := by
  obtain ⟨m, a, h1, h2, h3⟩ := C105_refines hw hn hs he
  obtain ⟨h4, h5⟩ := C49_once hw h1 (by rw [h2]; simp)
  exact ⟨h3.nodup_iff.mpr h4, fun p => by rw [h3.mem_iff, h5]⟩

theorem Inv.scanner {n : Nat} {s : State I} (hi : Inv w n s) {tid : Nat} {pc : Pc I} (hp : s.pcs[tid]? = some pc) (hn : pc.op.needsScanner = true) : s.alive = true := by
  cases ha : s.alive with
  | true => rfl
  | false =>
    obtain ⟨r, h⟩ := hi.alive.mp ha
    by_cases h0 : tid = 0
    · subst h0
      rw [hp] at h
      cases h
      cases hn
    · rcases (hi.quiet _ h rfl).2.2 tid pc h0 hp with rfl | rfl | rfl <;> cases hn

theorem alive_of {s : State I} {m : Mtx} (h : (decide (m ≠ .pool)) = true → s.alive = true) : s.Alive m := by
  by_cases e : m = .pool
  · exact .inl e
  · exact .inr (h (by simpa using e))

/-- **C105 (no misuse).** No thread ever uses the scanner after its destruction, locks a mutex that it has, gives back a mutex that it does not have, or destroys a mutex that is
locked. -/
theorem C105_legal (hw : w.Ok) {n : Nat} (hn : 0 < n) {s : State I} (hs : Reachable w n s) {tid : Nat} {pc : Pc I} (hp : s.pcs[tid]? = some pc) : Legal s tid pc.op := by
  obtain ⟨a, m, h⟩ := hs.good hw hn
  have hi := h.inv
  have hsc := hi.scanner hp
  have hown : ∀ m, s.owner m = some tid ↔ pc.holds = some m := by
    intro m
    rw [hi.own.own, hp]
    exact ⟨fun ⟨_, h1, h2⟩ => by cases h1; exact h2, fun h1 => ⟨_, rfl, h1⟩⟩
  have hrd : tid ∈ s.readers ↔ pc.reads = true := by
    rw [hi.own.rd, hp]
    exact ⟨fun ⟨_, h1, h2⟩ => by cases h1; exact h2, fun h1 => ⟨_, rfl, h1⟩⟩
  have acq : ∀ m, pc.op = .acquire m → pc.holds = none ∧ pc.reads = false := by
    intro m hm
    cases pc <;> first | exact ⟨rfl, rfl⟩ | cases hm
  have rls : ∀ m, pc.op = .release m → pc.holds = some m := by
    intro m hm
    cases pc <;> cases hm <;> rfl
  cases hop : pc.op with
  | acquire m =>
    rw [hop] at hsc
    obtain ⟨g1, g2⟩ := acq m hop
    refine ⟨alive_of hsc, fun h => ?_, fun _ h => ?_⟩
    · rw [hown, g1] at h; cases h
    · rw [hrd, g2] at h; cases h
  | acquireShared =>
    rw [hop] at hsc
    have hpc : ∃ p, pc = .findLock p := by cases pc <;> first | exact ⟨_, rfl⟩ | cases hop
    obtain ⟨p, rfl⟩ := hpc
    refine ⟨.inr (hsc rfl), fun h => ?_, fun h => ?_⟩
    · rw [hown] at h; cases h
    · rw [hrd] at h; cases h
  | release m =>
    rw [hop] at hsc
    exact ⟨alive_of hsc, (hown m).mpr (rls m hop)⟩
  | releaseShared =>
    rw [hop] at hsc
    have hpc : ∃ p b, pc = .findUnlock p b := by cases pc <;> first | exact ⟨_, _, rfl⟩ | cases hop
    obtain ⟨p, b, rfl⟩ := hpc
    exact ⟨.inr (hsc rfl), hrd.mpr rfl⟩
  | notifyPool => exact .inl rfl
  | notifyCounter => rw [hop] at hsc; exact .inr (hsc rfl)
  | read d =>
    rw [hop] at hsc
    by_cases e : d = .queue
    · exact .inl e
    · exact .inr (hsc (by simpa [Op.needsScanner] using e))
  | write d =>
    rw [hop] at hsc
    by_cases e : d = .queue
    · exact .inl e
    · exact .inr (hsc (by simpa [Op.needsScanner] using e))
  | destroy =>
    rw [hop] at hsc
    have hpc : ∃ r, pc = .drop r := by cases pc <;> first | exact ⟨_, rfl⟩ | cases hop
    obtain ⟨r, rfl⟩ := hpc
    have h0 := hi.eq0 hp rfl
    subst h0
    have hq := (hi.quiet _ hp rfl).2.2
    refine ⟨hsc rfl, fun m hm => ?_, ?_⟩
    · cases ho : s.owner m with
      | none => rfl
      | some t =>
        obtain ⟨x, hx, hh⟩ := (hi.own.own m t).mp ho
        by_cases h0 : t = 0
        · subst h0; rw [hp] at hx; cases hx; cases hh
        · rcases hq t x h0 hx with rfl | rfl | rfl
          · cases hh
          · cases hh; exact absurd rfl hm
          · cases hh
    · cases hr : s.readers with
      | nil => rfl
      | cons t l =>
        obtain ⟨x, hx, hh⟩ := (hi.own.rd t).mp (by rw [hr]; simp)
        by_cases h0 : t = 0
        · subst h0; rw [hp] at hx; cases hx; cases hh
        · rcases hq t x h0 hx with rfl | rfl | rfl <;> cases hh
  | own => trivial

/-- The mutex that protects a datum. -/
def Datum.mtx : Datum → Option Mtx
  | .queue => some .pool
  | .value => some .counter
  | .files => some .files
  | .errlog => some .errlog
  | .setup => none

theorem changes_cases {pc : Pc I} {d : Datum} (h : pc.op.changes d = true) : (∃ m, d.mtx = some m ∧ pc.holds = some m) ∨ (pc.final = true ∧ pc.isMain = true ∧ d ≠ .queue) := by
  cases pc <;> simp [Pc.op, Op.changes] at h <;> first
    | (subst h; exact .inl ⟨_, rfl, rfl⟩)
    | (subst h; exact .inr ⟨rfl, rfl, by simp⟩)
    | exact .inr ⟨rfl, rfl, h⟩

theorem accesses_cases {pc : Pc I} {d : Datum} (h : pc.op.accesses d = true) :
    (∃ m, d.mtx = some m ∧ pc.holds = some m) ∨ (d = .files ∧ pc.reads = true) ∨ (pc.final = true ∧ pc.isMain = true ∧ d ≠ .queue) ∨ (d = .setup ∧ ¬ pc.Idle) := by
  cases pc <;> simp [Pc.op, Op.accesses] at h <;> first
    | (subst h; exact .inl ⟨_, rfl, rfl⟩)
    | (subst h; exact .inr (.inl ⟨rfl, rfl⟩))
    | (subst h; exact .inr (.inr (.inl ⟨rfl, rfl, by simp⟩)))
    | exact .inr (.inr (.inl ⟨rfl, rfl, h⟩))
    | (subst h; exact .inr (.inr (.inr ⟨rfl, by simp [Pc.Idle]⟩)))

/-- **C105 (no data race).** It never happens that two threads are about to access the same datum, one of them in order to change it. -/
theorem C105_no_race (hw : w.Ok) {n : Nat} (hn : 0 < n) {s : State I} (hs : Reachable w n s) : ¬ s.Race := by
  obtain ⟨a, m, h⟩ := hs.good hw hn
  have hi := h.inv
  rintro ⟨i, j, pi, pj, d, hne, h1, h2, h3, h4⟩
  have idleOnly : ∀ {pc : Pc I}, pc.Idle → pc.op.accesses d = true → d = .queue := by
    intro pc hid hacc
    rcases hid with rfl | rfl | rfl
    · cases hacc
    · exact (by simpa [Pc.op, Op.accesses] using hacc : Datum.queue = d).symm
    · cases hacc
  have idleOnly' : ∀ {pc : Pc I}, pc.Idle → pc.op.changes d = true → d = .queue := by
    intro pc hid hacc
    rcases hid with rfl | rfl | rfl
    · cases hacc
    · exact (by simpa [Pc.op, Op.changes] using hacc : Datum.queue = d).symm
    · cases hacc
  rcases changes_cases h4 with ⟨m, g1, g2⟩ | ⟨g1, g2, g3⟩
  · rcases accesses_cases h3 with ⟨m', k1, k2⟩ | ⟨k1, k2⟩ | ⟨k1, k2, k3⟩ | ⟨k1, _⟩
    · rw [g1] at k1
      cases k1
      exact hne (hi.own.unique h1 h2 k2 g2)
    · subst k1
      cases g1
      have := hi.own.noReader h2 h1 g2
      rw [k2] at this
      cases this
    · have h0 := hi.eq0 h1 k2
      subst h0
      exact k3 (idleOnly' ((hi.quiet _ h1 k1).2.2 j pj (fun e => hne e.symm) h2) h4)
    · subst k1; cases g1
  · have h0 := hi.eq0 h2 g2
    subst h0
    exact g3 (idleOnly ((hi.quiet _ h2 g1).2.2 i pi hne h1) h3)

/-- **C105 (nobody is left behind).** When the main thread looks at the error log or takes the result without locking a mutex, when it destroys the scanner, and when the scan has ended, no
worker is about to do anything with the scanner, and there is no task in the queue. -/
theorem C105_quiet (hw : w.Ok) {n : Nat} (hn : 0 < n) {s : State I} (hs : Reachable w n s) {x : Pc I} (hx : s.pcs[0]? = some x)
    (hf : x.op = .read .errlog ∨ x.op = .write .errlog ∨ x.op = .write .files ∨ x.op = .destroy ∨ ∃ r, x = .finished r) :
    s.queue = [] ∧ ∀ (tid : Nat) (pc : Pc I), tid ≠ 0 → s.pcs[tid]? = some pc → pc.op.needsScanner = false := by
  obtain ⟨a, m, h⟩ := hs.good hw hn
  have hro := h.inv.role 0 x hx
  have hfin : x.final = true := by
    rcases hf with h | h | h | h | ⟨r, h⟩
    · cases x <;> first | rfl | cases h
    · cases x <;> first | rfl | (cases h; done) | (cases hro; done)
    · cases x <;> first | rfl | (cases h; done) | (cases hro; done)
    · cases x <;> first | rfl | cases h
    · rw [h]; rfl
  obtain ⟨g1, _, g2⟩ := h.inv.quiet x hx hfin
  refine ⟨g1, fun tid pc h0 hp => ?_⟩
  rcases g2 tid pc h0 hp with rfl | rfl | rfl <;> rfl

/-! ## Progress -/

theorem acquire_some {s : State I} {m : Mtx} (ho : s.owner m = none) (hr : m = .files → s.readers = []) (tid : Nat) (pc : Pc I) : ∃ s', acquire s m tid pc = some s' := by
  unfold acquire
  rw [ho]
  simp only
  split
  · rename_i h; exact absurd (hr h.1) h.2
  · exact ⟨_, rfl⟩

/-- Which threads can go on at once. -/
theorem run_some (w : World I) {s : State I} {tid : Nat} {pc : Pc I} (hp : s.pcs[tid]? = some pc) (hsl : pc.sleeps = false) (hfin : ∀ r, pc ≠ .finished r)
    (hacq : ∀ m, pc.op = .acquire m → s.owner m = none ∧ (m = .files → s.readers = [])) (hsh : pc.op = .acquireShared → s.owner .files = none) :
    ∃ wake s', run w tid wake s = some s' := by
  have acq : ∀ m pc', pc.op = .acquire m → ∃ s', acquire s m tid pc' = some s' := fun m pc' h => acquire_some (hacq m h).1 (hacq m h).2 tid pc'
  unfold run
  rw [hp]
  cases pc with
  | incLock k => exact ⟨0, acq _ _ rfl⟩
  | addLock k => exact ⟨0, acq _ _ rfl⟩
  | lock => exact ⟨0, acq _ _ rfl⟩
  | insLock p i => exact ⟨0, acq _ _ rfl⟩
  | errLock p m => exact ⟨0, acq _ _ rfl⟩
  | ctLock p => exact ⟨0, acq _ _ rfl⟩
  | wLock => exact ⟨0, acq _ _ rfl⟩
  | findLock p =>
    refine ⟨0, ?_⟩
    simp only [acquireShared, hsh rfl]
    exact ⟨_, rfl⟩
  | addNotify k =>
    simp only [notifyPool]
    cases hany : s.pcs.any Pc.isAsleep with
    | false =>
      refine ⟨tid, ?_⟩
      rw [hp]
      exact ⟨_, rfl⟩
    | true =>
      obtain ⟨x, hx, hx'⟩ := List.any_eq_true.mp hany
      obtain ⟨i, hi⟩ := List.getElem?_of_mem hx
      have : x = .asleep := by cases x <;> first | rfl | cases hx'
      subst this
      refine ⟨i, ?_⟩
      rw [hi]
      exact ⟨_, rfl⟩
  | asleep => cases hsl
  | wSleep => cases hsl
  | finished r => exact absurd rfl (hfin r)
  | test => refine ⟨0, ?_⟩; simp only; split <;> exact ⟨_, rfl⟩
  | filter p => refine ⟨0, ?_⟩; simp only; split <;> exact ⟨_, rfl⟩
  | load p => refine ⟨0, ?_⟩; simp only; split <;> exact ⟨_, rfl⟩
  | ins p i => refine ⟨0, ?_⟩; simp only; split <;> exact ⟨_, rfl⟩
  | dirTest p => refine ⟨0, ?_⟩; simp only; split <;> exact ⟨_, rfl⟩
  | spawn p rest err => refine ⟨0, ?_⟩; cases rest <;> cases err <;> exact ⟨_, rfl⟩
  | wTest => refine ⟨0, ?_⟩; simp only; split <;> exact ⟨_, rfl⟩
  | _ => exact ⟨0, _, rfl⟩

/-- **C105 (no deadlock, no lost wake-up).** As long as the scan has not ended, some thread can go on without waking up spuriously. -/
theorem C105_progress (hw : w.Ok) {n : Nat} (hn : 0 < n) {s : State I} (hs : Reachable w n s) (he : ¬ ∃ r, s.Ended r) : ∃ tid wake s', run w tid wake s = some s' := by
  obtain ⟨a, m, h⟩ := hs.good hw hn
  have hi := h.inv
  -- a thread that has a mutex, or shares one
  by_cases hown : ∃ (tid : Nat) (pc : Pc I), s.pcs[tid]? = some pc ∧ (pc.holds ≠ none ∨ pc.reads = true)
  · obtain ⟨tid, pc, hp, hh⟩ := hown
    obtain ⟨wake, s', h1⟩ := run_some w hp (by cases pc <;> first | rfl | (rcases hh with h | h <;> first | exact absurd rfl h | cases h))
      (by rintro r rfl; rcases hh with h | h; exact h rfl; cases h)
      (by intro m hm; cases pc <;> first | (cases hm; done) | (rcases hh with h | h <;> first | exact absurd rfl h | cases h))
      (by intro hm; cases pc <;> first | (cases hm; done) | (rcases hh with h | h <;> first | exact absurd rfl h | cases h))
    exact ⟨tid, wake, s', h1⟩
  have hfree : ∀ m, s.owner m = none := by
    intro m
    cases ho : s.owner m with
    | none => rfl
    | some t =>
      obtain ⟨x, hx, hh⟩ := (hi.own.own m t).mp ho
      exact absurd ⟨t, x, hx, .inl (by rw [hh]; simp)⟩ hown
  have hread : s.readers = [] := by
    cases hr : s.readers with
    | nil => rfl
    | cons t l =>
      obtain ⟨x, hx, hh⟩ := (hi.own.rd t).mp (by rw [hr]; simp)
      exact absurd ⟨t, x, hx, .inr hh⟩ hown
  -- a thread that is awake
  by_cases hawake : ∃ (tid : Nat) (pc : Pc I), s.pcs[tid]? = some pc ∧ pc.sleeps = false ∧ ∀ r, pc ≠ .finished r
  · obtain ⟨tid, pc, hp, h1, h2⟩ := hawake
    obtain ⟨wake, s', h3⟩ := run_some w hp h1 h2 (fun m _ => ⟨hfree m, fun _ => hread⟩) (fun _ => hfree _)
    exact ⟨tid, wake, s', h3⟩
  exfalso
  have hall : ∀ (tid : Nat) (pc : Pc I), s.pcs[tid]? = some pc → pc = .asleep ∨ pc = .wSleep := by
    intro tid pc hp
    refine Classical.byContradiction fun hc => hawake ⟨tid, pc, hp, ?_, ?_⟩
    · cases pc <;> first | rfl | exact absurd (.inl rfl) hc | exact absurd (.inr rfl) hc
    · rintro r rfl
      have h0 := hi.eq0 hp rfl
      subst h0
      exact he ⟨r, hp⟩
  obtain ⟨x, hx⟩ := hi.main
  have hmain : x = .wSleep := by
    rcases hall 0 x hx with rfl | rfl
    · have := hi.role 0 _ hx; cases this
    · rfl
  subst hmain
  have hv : s.value ≠ 0 := by
    rcases hi.ctWake hx with g | ⟨tid, g⟩
    · exact g
    · rcases hall tid _ g with h | h <;> cases h
  have hc := count_tasks h.rel (steps_inv hw h.steps)
  rw [hi.early hx rfl, sum_zero] at hc
  · have hq : s.queue ≠ [] := by
      intro e
      rw [e] at hc
      simp at hc
      exact hv hc
    rcases hi.poolWake hq with ⟨i, y, g1, g2, g3⟩ | ⟨k, g⟩
    · rcases hall i y g2 with rfl | rfl
      · cases g3
      · exact g1 (hi.eq0 g2 rfl)
    · rw [hx] at g; cases g
  · intro pc hpc
    obtain ⟨i, hpi⟩ := List.getElem?_of_mem hpc
    rcases hall i pc hpi with rfl | rfl <;> rfl

/-- **C105 (termination).** In a tree of finite height, the threads do not run forever, unless they wake up spuriously forever: the number of operations is bounded in terms of
the tree, the number of workers, and the number of spurious wake-ups. -/
theorem C105_bounded (hw : w.Ok) {n : Nat} (hn : 0 < n) {h : Nat} (hh : w.Height h w.root) :
    ∃ bound : Nat, ∀ (s₀ : State I) (as : List Act) (s : State I), Start n s₀ → exec w as s₀ = some s → as.length ≤ bound + 3 * as.countP Act.isSpurious := by
  obtain ⟨N, hN⟩ := C49_terminates hw hh
  refine ⟨38 + 2 * n + 35 * N, fun s₀ as s h0 has => ?_⟩
  obtain ⟨a, m, g1, g2⟩ := h0.good.exec hw hn as has
  have h1 := hN _ _ g1.steps
  have h2 := h0.weight_le
  have h3 := List.length_eq_countP_add_countP Act.isSpurious (l := as)
  have h4 : as.countP (fun a => !a.isSpurious) = as.countP (fun a => decide ¬ a.isSpurious = true) := by
    congr 1
    funext a
    cases a.isSpurious <;> rfl
  omega

/-- **C105 (it ends).** In a tree of finite height, every execution can be completed, without spurious wake-ups. -/
theorem C105_ends (hw : w.Ok) {n : Nat} (hn : 0 < n) {h : Nat} (hh : w.Height h w.root) {s : State I} (hs : Reachable w n s) :
    ∃ as s' r, exec w as s = some s' ∧ s'.Ended r := by
  obtain ⟨s₀, bs, h1, h2⟩ := hs
  obtain ⟨N, hN⟩ := C105_bounded hw hn hh
  suffices ∀ (k : Nat) (cs : List Act) (t : State I), cs.countP Act.isSpurious = bs.countP Act.isSpurious → exec w cs s₀ = some t →
      N + 3 * bs.countP Act.isSpurious - cs.length ≤ k → ∃ as s' r, exec w as t = some s' ∧ s'.Ended r from
    this _ bs s rfl h2 (Nat.le_refl _)
  intro k
  induction k with
  | zero =>
    intro cs t hc hx hk
    by_cases he : ∃ r, t.Ended r
    · obtain ⟨r, he⟩ := he
      exact ⟨[], t, r, rfl, he⟩
    · obtain ⟨tid, wake, t', ht⟩ := C105_progress hw hn ⟨s₀, cs, h1, hx⟩ he
      have := hN s₀ (cs ++ [.run tid wake]) t' h1 (by rw [exec_append, hx]; simp [exec, step, ht])
      simp [List.countP_append, Act.isSpurious] at this
      omega
  | succ k ih =>
    intro cs t hc hx hk
    by_cases he : ∃ r, t.Ended r
    · obtain ⟨r, he⟩ := he
      exact ⟨[], t, r, rfl, he⟩
    · obtain ⟨tid, wake, t', ht⟩ := C105_progress hw hn ⟨s₀, cs, h1, hx⟩ he
      have hst : exec w [.run tid wake] t = some t' := by simp [exec, step, ht]
      obtain ⟨as, s', r, g1, g2⟩ := ih (cs ++ [.run tid wake]) t' (by simp [List.countP_append, Act.isSpurious, hc]) (by rw [exec_append, hx]; exact hst)
        (by simp; omega)
      exact ⟨.run tid wake :: as, s', r, by rw [show Act.run tid wake :: as = [Act.run tid wake] ++ as from rfl, exec_append, hst]; exact g1, g2⟩

/-- **C105 (the pool can be used again).** When the scan has ended, the pool is as it has to be for the next scan. -/
theorem C105_left (hw : w.Ok) {n : Nat} (hn : 0 < n) {s : State I} (hs : Reachable w n s) {r : Except Str (List (Path × I))} (he : s.Ended r) :
    Start n { s.at 0 (.incLock .main) with files := [], errlog := [], alive := true, loads := [] } := by
  obtain ⟨a, m, h⟩ := hs.good hw hn
  have hi := h.inv
  obtain ⟨q1, q2, q3⟩ := hi.quiet _ he rfl
  have hg : ∀ i, (s.pcs.set 0 (.incLock .main))[i]? = if i = 0 then some (.incLock .main) else s.pcs[i]? := fun i => get_set he _ i
  have owners : ∀ m t, s.owner m = some t → m = .pool ∧ s.pcs[t]? = some .test := by
    intro m t ho
    obtain ⟨x, hx, hh⟩ := (hi.own.own m t).mp ho
    by_cases h0 : t = 0
    · subst h0
      unfold State.Ended at he
      rw [he] at hx; cases hx; cases hh
    · rcases q3 t x h0 hx with rfl | rfl | rfl
      · cases hh
      · cases hh; exact ⟨rfl, hx⟩
      · cases hh
  refine ⟨by simpa [State.at] using hi.len, by simp only [State.at]; rw [hg]; rfl, ?_, ?_, ?_, ?_, q1, q2, rfl, rfl, rfl, rfl⟩
  · intro tid pc hp
    simp only [State.at] at hp
    rw [hg, if_neg (by omega)] at hp
    exact q3 _ pc (by omega) hp
  · intro tid
    simp only [State.at]
    rw [hg]
    constructor
    · intro ho
      have := (owners _ _ ho).2
      have h0 : tid ≠ 0 := by
        rintro rfl
        unfold State.Ended at he
        rw [he] at this; cases this
      rw [if_neg h0]; exact this
    · intro hp
      by_cases h0 : tid = 0
      · rw [if_pos h0] at hp; cases hp
      · rw [if_neg h0] at hp
        exact (hi.own.own _ _).mpr ⟨_, hp, rfl⟩
  · intro m hm
    cases ho : s.owner m with
    | none => exact ho
    | some t => exact absurd (owners m t ho).1 hm
  · simp only [State.at]
    cases hr : s.readers with
    | nil => rfl
    | cons t l =>
      obtain ⟨x, hx, hh⟩ := (hi.own.rd t).mp (by rw [hr]; simp)
      by_cases h0 : t = 0
      · subst h0
        unfold State.Ended at he
        rw [he] at hx; cases hx; cases hh
      · rcases q3 t x h0 hx with rfl | rfl | rfl <;> cases hh

/-! ## Examples -/

section Examples

/-- The state before a scan, with `n` workers that are about to look for tasks. -/
def initial (n : Nat) : State I := ⟨.incLock .main :: List.replicate n .lock, fun _ => none, [], [], 0, [], [], true, []⟩

theorem initial_start (n : Nat) : Start n (initial n : State I) := by
  refine ⟨by simp [initial], rfl, ?_, ?_, fun _ _ => rfl, rfl, rfl, rfl, rfl, rfl, rfl, rfl⟩
  · intro tid pc hp
    simp only [initial, List.getElem?_cons_succ, List.getElem?_replicate] at hp
    split at hp
    · cases hp; exact .inl rfl
    · cases hp
  · intro tid
    constructor
    · intro h; cases h
    · intro hp
      cases tid with
      | zero => cases hp
      | succ k =>
        simp only [initial, List.getElem?_cons_succ, List.getElem?_replicate] at hp
        split at hp <;> cases hp

/-- All scans of the example tree end, and all of them end with an exception. -/
example (n : Nat) (hn : 0 < n) : ∃ as s text, exec exampleWorld as (initial n) = some s ∧ s.Ended (.error text) := by
  obtain ⟨as, s, r, h1, h2⟩ := C105_ends exampleWorld_ok hn exampleWorld_height ⟨_, [], initial_start n, rfl⟩
  have hs : Reachable exampleWorld n s := ⟨_, as, initial_start n, h1⟩
  obtain ⟨text, rfl⟩ := (C105_throws exampleWorld_ok hn hs h2).mpr ⟨_, "bad tags".toList, example_b, .load (.inr ⟨.inl rfl, by decide +kernel, rfl⟩) rfl⟩
  exact ⟨as, s, text, h1, h2⟩

/-- Let the threads take turns: each goes on for `slice` actions, or as long as it can. The actions, and the last state. -/
def turns (w : World I) (slice : Nat) : Nat → Nat → Nat → State I → List Act × State I
  | 0, _, _, s => ([], s)
  | fuel + 1, tid, used, s =>
    let wake := s.pcs.findIdx Pc.isAsleep
    match if used < slice then run w tid wake s else none with
    | some s' => ((.run tid wake :: (turns w slice fuel tid (used + 1) s').1), (turns w slice fuel tid (used + 1) s').2)
    | none => turns w slice fuel (if tid + 1 < s.pcs.length then tid + 1 else 0) 0 s

theorem turns_exec (w : World I) (slice fuel tid used : Nat) (s : State I) : exec w (turns w slice fuel tid used s).1 s = some (turns w slice fuel tid used s).2 := by
  induction fuel generalizing tid used s with
  | zero => rfl
  | succ fuel ih =>
    simp only [turns]
    split
    · rename_i s' h
      have h : run w tid (s.pcs.findIdx Pc.isAsleep) s = some s' := by
        split at h
        · exact h
        · cases h
      simp only [exec, step, h]
      exact ih _ _ _
    · exact ih _ _ _

theorem turns_reachable (w : World I) (n slice fuel : Nat) : Reachable w n (turns w slice fuel 0 0 (initial n)).2 :=
  ⟨_, _, initial_start n, turns_exec w slice fuel 0 0 (initial n)⟩

/-- The tree of `exampleWorld`, with a loader that does not fail. -/
def goodWorld : World Nat := { exampleWorld with load := fun p => .ok p.names.length }

/-- The text of the exception. -/
def State.text (s : State I) : Option Str :=
  match (s.pcs[0]? : Option (Pc I)) with
  | some (.finished (.error m)) => some m
  | _ => none

/-- The result. -/
def State.list (s : State I) : Option (List (Path × I)) :=
  match (s.pcs[0]? : Option (Pc I)) with
  | some (.finished (.ok files)) => some files
  | _ => none

/-- Two workers that take turns after each operation. -/
example : (turns exampleWorld 1 600 0 0 (initial 2)).2.text = some "bad tags\n".toList := by decide +kernel

/-- Two workers, three operations at a time, and three workers, thirty operations at a time. -/
example : (turns goodWorld 3 600 0 0 (initial 2)).2.list = some [(⟨false, ["src".toList], false⟩, 1), (⟨false, ["src".toList, "a.cpp".toList], false⟩, 2),
    (⟨false, ["src".toList, "lib".toList], false⟩, 2), (⟨false, ["src".toList, "lib".toList, "b.cpp".toList], false⟩, 3)] ∧
    (turns goodWorld 30 600 0 0 (initial 3)).2.list = (turns goodWorld 3 600 0 0 (initial 2)).2.list := by decide +kernel

/-- Two workers can read the map at the same time. The main thread slept, and was woken up when a task was added. -/
def both : List Act := List.replicate 10 (.run 0 0) ++ List.replicate 43 (.run 1 0) ++ List.replicate 5 (.run 2 0) ++ List.replicate 6 (.run 1 0)

example : (exec goodWorld both (initial 2)).map (fun s => (s.readers, s.pcs.map Pc.sleeps, s.value)) = some ([1, 2], [false, false, false], 3) := by decide +kernel

end Examples

end Maike.Tree.Threads
