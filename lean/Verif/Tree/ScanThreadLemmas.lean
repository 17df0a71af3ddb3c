import Verif.Tree.ScanThreads

/-! # The directory scanner, one operation at a time: transitions and who has which mutex -/

namespace Maike.Tree.Threads

open Fs Paths
open Maike.Db.Map (insertNew)

variable {I : Type} {w : World I}

/-! ## Classification of program counters -/

/-- Which mutex a thread has. -/
def Pc.holds : Pc I → Option Mtx
  | .inc _ | .incNotify _ | .incUnlock _ | .ctDec _ | .ctNotify | .ctUnlock | .wTest | .wUnlock => some .counter
  | .add _ | .addNotify _ | .addUnlock _ | .test | .unlock _ => some .pool
  | .ins _ _ | .insUnlock _ _ => some .files
  | .errPush _ _ | .errUnlock _ => some .errlog
  | _ => none

def Pc.reads : Pc I → Bool
  | .find _ | .findUnlock _ _ => true
  | _ => false

/-- The main thread after it has waited for the tasks. -/
def Pc.final : Pc I → Bool
  | .wUnlock | .readLog | .takeLog | .takeFiles | .drop _ | .finished _ => true
  | _ => false

def Adder.isMain : Adder → Bool
  | .main => true
  | _ => false

def Pc.isMain : Pc I → Bool
  | .incLock k | .inc k | .incNotify k | .incUnlock k | .addLock k | .add k | .addNotify k | .addUnlock k => k.isMain
  | .wLock | .wTest | .wSleep | .wUnlock | .readLog | .takeLog | .takeFiles | .drop _ | .finished _ => true
  | _ => false

/-- What is known about a task besides its phase. -/
def Pc.Ok (w : World I) : Pc I → Prop
  | .findLock p | .find p => w.leftOut p = .ok false
  | .insLock p i | .ins p i => w.load p = .ok i
  | _ => True

/-! ## The transitions as relations -/

inductive Acq : Pc I → Mtx → Pc I → Prop
  | inc (k) : Acq (.incLock k) .counter (.inc k)
  | add (k) : Acq (.addLock k) .pool (.add k)
  | test : Acq .lock .pool .test
  | ins (p i) : Acq (.insLock p i) .files (.ins p i)
  | err (p m) : Acq (.errLock p m) .errlog (.errPush p m)
  | ct (p) : Acq (.ctLock p) .counter (.ctDec p)
  | wait : Acq .wLock .counter .wTest

inductive Rls (s : State I) : Pc I → Mtx → Pc I → Prop
  | inc (k) : Rls s (.incUnlock k) .counter (.addLock k)
  | add (k) : Rls s (.addUnlock k) .pool k.next
  | sleep : s.queue = [] → Rls s .test .pool .asleep
  | take (p) : Rls s (.unlock p) .pool (.filter p)
  | ins (p) : Rls s (.insUnlock p true) .files (.dirTest p)
  | insNot (p) : Rls s (.insUnlock p false) .files (.ctLock p)
  | err (p) : Rls s (.errUnlock p) .errlog (.ctLock p)
  | ct : Rls s .ctUnlock .counter .lock
  | wSleep : s.value ≠ 0 → Rls s .wTest .counter .wSleep
  | wait : Rls s .wUnlock .counter .readLog

/-- The mutexes and the other threads do not change. -/
inductive Dat (w : World I) (s : State I) : Pc I → Pc I → State I → Prop
  | inc (k) : Dat w s (.inc k) (.incNotify k) { s with value := s.value + 1 }
  | add (k) : Dat w s (.add k) (.addNotify k) { s with queue := s.queue ++ [k.path w] }
  | pop (p q) : s.queue = p :: q → Dat w s .test (.unlock p) { s with queue := q }
  | filterErr (p m) : w.leftOut p = .error m → Dat w s (.filter p) (.errLock p m) s
  | filterOut (p) : w.leftOut p = .ok true → Dat w s (.filter p) (.ctLock p) s
  | filter (p) : w.leftOut p = .ok false → Dat w s (.filter p) (.findLock p) s
  | find (p) : Dat w s (.find p) (.findUnlock p (Db.Map.lookup p.normal s.files).isSome) s
  | loadErr (p m) : w.load p = .error m → Dat w s (.load p) (.errLock p m) { s with loads := p :: s.loads }
  | load (p i) : w.load p = .ok i → Dat w s (.load p) (.insLock p i) { s with loads := p :: s.loads }
  | insNot (p i x) : Db.Map.lookup p.normal s.files = some x → Dat w s (.ins p i) (.insUnlock p false) s
  | ins (p i) : Db.Map.lookup p.normal s.files = none → Dat w s (.ins p i) (.insUnlock p true) { s with files := insertNew p.normal i s.files }
  | dirErr (p m) : w.isDir p.normal = .error m → Dat w s (.dirTest p) (.errLock p m) s
  | dirNot (p) : w.isDir p.normal = .ok false → Dat w s (.dirTest p) (.ctLock p) s
  | dir (p) : w.isDir p.normal = .ok true → Dat w s (.dirTest p) (.spawn p (w.names p.normal).1 (w.names p.normal).2) s
  | spawn (p n rest err) : Dat w s (.spawn p (n :: rest) err) (.incLock (.task p n rest err)) s
  | spawnEnd (p) : Dat w s (.spawn p [] none) (.ctLock p) s
  | spawnErr (p m) : Dat w s (.spawn p [] (some m)) (.errLock p m) s
  | errPush (p m) : Dat w s (.errPush p m) (.errUnlock p) { s with errlog := m :: s.errlog }
  | ctDec (p) : Dat w s (.ctDec p) .ctNotify { s with value := s.value - 1 }
  | wTest : s.value = 0 → Dat w s .wTest .wUnlock s
  | readLog : s.errlog ≠ [] → Dat w s .readLog .takeLog s
  | readFiles : s.errlog = [] → Dat w s .readLog .takeFiles s
  | takeLog : Dat w s .takeLog (.drop (.error (scanException s.errlog))) { s with errlog := [] }
  | takeFiles : Dat w s .takeFiles (.drop (.ok s.files)) { s with files := [] }
  | drop (r) : Dat w s (.drop r) (.finished r) { s with alive := false }

/-- Waking up a worker, or the main thread. -/
inductive Woken (pcs : List (Pc I)) : List (Pc I) → Prop
  | none : Woken pcs pcs
  | worker (k) : pcs[k]? = some .asleep → Woken pcs (pcs.set k .lock)
  | main : pcs[0]? = some .wSleep → Woken pcs (pcs.set 0 .wLock)

inductive Ntf (s : State I) : Pc I → Pc I → List (Pc I) → Prop
  | inc (k pcs) : Woken s.pcs pcs → (s.pcs[0]? = some .wSleep → pcs[0]? = some .wLock) → pcs.length = s.pcs.length → Ntf s (.incNotify k) (.incUnlock k) pcs
  | ct (pcs) : Woken s.pcs pcs → (∀ pc, pcs[0]? = some pc → pc ≠ .wSleep) → Ntf s .ctNotify .ctUnlock pcs
  | add (k pcs) : Woken s.pcs pcs → (s.pcs.any Pc.isAsleep = true → ∃ i : Nat, s.pcs[i]? = some .asleep ∧ pcs[i]? = some .lock) → Ntf s (.addNotify k) (.addUnlock k) pcs

inductive Go (w : World I) (s : State I) (tid : Nat) : Pc I → State I → Prop
  | acq {pc m pc'} : Acq pc m pc' → s.owner m = none → (m = .files → s.readers = []) →
      Go w s tid pc ({ s with owner := setOwner s.owner m (some tid) }.at tid pc')
  | rls {pc m pc'} : Rls s pc m pc' → Go w s tid pc (release s m tid pc')
  | acqShared (p) : s.owner .files = none → Go w s tid (.findLock p) ({ s with readers := tid :: s.readers }.at tid (.find p))
  | rlsShared (p found) : Go w s tid (.findUnlock p found) (releaseShared s tid (if found then .ctLock p else .load p))
  | dat {pc pc' s'} : Dat w s pc pc' s' → Go w s tid pc (s'.at tid pc')
  | ntf {pc pc' pcs} : Ntf s pc pc' pcs → Go w s tid pc ({ s with pcs := pcs }.at tid pc')

theorem acquire_go {s s' : State I} {m : Mtx} {tid : Nat} {pc pc' : Pc I} (h : acquire s m tid pc' = some s') (ha : Acq pc m pc') : Go w s tid pc s' := by
  unfold acquire at h
  split at h
  · rename_i ho
    split at h
    · cases h
    · rename_i hf
      simp only [Option.some.injEq] at h
      subst h
      exact .acq ha ho fun e => Classical.byContradiction fun hr => hf ⟨e, hr⟩
  · cases h

theorem notifyMain_woken (s : State I) : ∃ pcs, Woken s.pcs pcs ∧ (s.pcs[0]? = some .wSleep → pcs[0]? = some .wLock) ∧ (∀ pc, pcs[0]? = some pc → pc ≠ .wSleep) ∧
    pcs.length = s.pcs.length ∧ notifyMain s = { s with pcs := pcs } := by
  unfold notifyMain
  split
  · rename_i h
    have hl : 0 < s.pcs.length := by
      rcases Nat.lt_or_ge 0 s.pcs.length with h' | h'
      · exact h'
      · rw [List.getElem?_eq_none h'] at h; cases h
    refine ⟨_, .main h, fun _ => by simp [hl], ?_, by simp, rfl⟩
    intro pc he
    simp only [List.getElem?_set_self hl, Option.some.injEq] at he
    rw [← he]; intro h; cases h
  · rename_i h
    exact ⟨_, .none, fun e => absurd e h, fun pc hp e => h (by rw [hp, e]), rfl, rfl⟩

theorem notifyPool_woken {s s' : State I} {wake : Nat} (h : notifyPool s wake = some s') : ∃ pcs, Woken s.pcs pcs ∧
    (s.pcs.any Pc.isAsleep = true → ∃ i : Nat, s.pcs[i]? = some .asleep ∧ pcs[i]? = some .lock) ∧ s' = { s with pcs := pcs } := by
  unfold notifyPool at h
  split at h
  · rename_i he
    simp only [Option.some.injEq] at h
    have hl : wake < s.pcs.length := by
      rcases Nat.lt_or_ge wake s.pcs.length with h' | h'
      · exact h'
      · rw [List.getElem?_eq_none h'] at he; cases he
    exact ⟨_, .worker wake he, fun _ => ⟨wake, he, by simp [hl]⟩, h.symm⟩
  · split at h
    · cases h
    · rename_i hn
      simp only [Option.some.injEq] at h
      exact ⟨_, .none, fun e => absurd e hn, h.symm⟩

theorem run_go {s s' : State I} {tid wake : Nat} (h : run w tid wake s = some s') : ∃ pc, s.pcs[tid]? = some pc ∧ Go w s tid pc s' := by
  unfold run at h
  split at h
  · cases h
  · rename_i pc hp
    refine ⟨pc, hp, ?_⟩
    split at h
    · exact acquire_go h (.inc _)
    · cases h; exact .dat (.inc _)
    · cases h
      obtain ⟨pcs, h1, h2, _, h3, h4⟩ := notifyMain_woken s
      rw [h4]
      exact .ntf (.inc _ _ h1 h2 h3)
    · cases h; exact .rls (.inc _)
    · exact acquire_go h (.add _)
    · cases h; exact .dat (.add _)
    · obtain ⟨s1, h1, h2⟩ := Option.map_eq_some_iff.mp h
      obtain ⟨pcs, h3, h4, h5⟩ := notifyPool_woken h1
      subst h5
      cases h2
      exact .ntf (.add _ _ h3 h4)
    · cases h; exact .rls (.add _)
    · exact acquire_go h .test
    · split at h
      · rename_i hq; cases h; exact .rls (.sleep hq)
      · rename_i p q hq; cases h; exact .dat (.pop p q hq)
    · cases h
    · cases h; exact .rls (.take _)
    · split at h
      · rename_i m hl; cases h; exact .dat (.filterErr _ m hl)
      · rename_i hl; cases h; exact .dat (.filterOut _ hl)
      · rename_i hl; cases h; exact .dat (.filter _ hl)
    · unfold acquireShared at h
      split at h
      · rename_i ho; cases h; exact .acqShared _ ho
      · cases h
    · cases h; exact .dat (.find _)
    · cases h; exact .rlsShared _ _
    · split at h
      · rename_i m hl; cases h; exact .dat (.loadErr _ m hl)
      · rename_i i hl; cases h; exact .dat (.load _ i hl)
    · exact acquire_go h (.ins _ _)
    · split at h
      · rename_i x hl; cases h; exact .dat (.insNot _ _ x hl)
      · rename_i hl; cases h; exact .dat (.ins _ _ hl)
    · rename_i p b
      cases h
      cases b
      · exact .rls (.insNot _)
      · exact .rls (.ins _)
    · split at h
      · rename_i m hl; cases h; exact .dat (.dirErr _ m hl)
      · rename_i hl; cases h; exact .dat (.dirNot _ hl)
      · rename_i hl; cases h; exact .dat (.dir _ hl)
    · cases h; exact .dat (.spawn _ _ _ _)
    · cases h; exact .dat (.spawnEnd _)
    · cases h; exact .dat (.spawnErr _ _)
    · exact acquire_go h (.err _ _)
    · cases h; exact .dat (.errPush _ _)
    · cases h; exact .rls (.err _)
    · exact acquire_go h (.ct _)
    · cases h; exact .dat (.ctDec _)
    · cases h
      obtain ⟨pcs, h1, _, h2, _, h4⟩ := notifyMain_woken s
      rw [h4]
      exact .ntf (.ct _ h1 h2)
    · cases h; exact .rls .ct
    · exact acquire_go h .wait
    · split at h
      · rename_i hv; cases h; exact .dat (.wTest hv)
      · rename_i hv; cases h; exact .rls (.wSleep hv)
    · cases h
    · cases h; exact .rls .wait
    · cases h
      by_cases he : s.errlog = []
      · rw [if_pos he]; exact .dat (.readFiles he)
      · rw [if_neg he]; exact .dat (.readLog he)
    · cases h; exact .dat .takeLog
    · cases h; exact .dat .takeFiles
    · cases h; exact .dat (.drop _)
    · cases h

/-! ## Lists of program counters -/

theorem lt_of_get {α : Type} {l : List α} {k : Nat} {x : α} (h : l[k]? = some x) : k < l.length := by
  rcases Nat.lt_or_ge k l.length with h' | h'
  · exact h'
  · rw [List.getElem?_eq_none h'] at h; cases h

theorem get_set {α : Type} {l : List α} {k : Nat} {x : α} (h : l[k]? = some x) (y : α) (i : Nat) :
    (l.set k y)[i]? = if i = k then some y else l[i]? := by
  have := lt_of_get h
  by_cases e : i = k
  · rw [if_pos e, e, List.getElem?_set_self this]
  · rw [if_neg e, List.getElem?_set_ne (Ne.symm e)]

theorem set_split {α : Type} {l : List α} {k : Nat} {x : α} (h : l[k]? = some x) : ∃ a b, l = a ++ x :: b ∧ ∀ y, l.set k y = a ++ y :: b := by
  have hl := lt_of_get h
  have hx : l[k] = x := by rw [List.getElem?_eq_getElem hl] at h; exact Option.some.inj h
  refine ⟨l.take k, l.drop (k + 1), ?_, fun y => ?_⟩
  · rw [← hx, List.getElem_cons_drop, List.take_append_drop]
  · rw [List.set_eq_take_append_cons_drop, if_pos hl]

/-- Sleeping threads. -/
def Pc.sleeps : Pc I → Bool
  | .asleep | .wSleep => true
  | _ => false

/-- What waking up does: threads that do not sleep go on as before, and those that do go on as before or lock their mutex. -/
inductive Roused : Pc I → Pc I → Prop
  | same (pc) : Roused pc pc
  | worker : Roused .asleep .lock
  | main : Roused .wSleep .wLock

theorem Woken.get {pcs pcs' : List (Pc I)} (h : Woken pcs pcs') {k : Nat} {pc' : Pc I} (hg : pcs'[k]? = some pc') : ∃ pc, pcs[k]? = some pc ∧ Roused pc pc' := by
  cases h with
  | none => exact ⟨pc', hg, .same _⟩
  | worker i hi =>
    rw [get_set hi] at hg
    split at hg
    · rename_i e; cases hg; exact ⟨_, e ▸ hi, .worker⟩
    · exact ⟨pc', hg, .same _⟩
  | main hi =>
    rw [get_set hi] at hg
    split at hg
    · rename_i e; cases hg; exact ⟨_, e ▸ hi, .main⟩
    · exact ⟨pc', hg, .same _⟩

theorem Woken.up {pcs pcs' : List (Pc I)} (h : Woken pcs pcs') {k : Nat} {pc : Pc I} (hg : pcs[k]? = some pc) : ∃ pc', pcs'[k]? = some pc' ∧ Roused pc pc' := by
  cases h with
  | none => exact ⟨pc, hg, .same _⟩
  | worker i hi =>
    rw [get_set hi]
    by_cases e : k = i
    · subst e; rw [hi] at hg; cases hg; exact ⟨_, if_pos rfl, .worker⟩
    · exact ⟨pc, by rw [if_neg e, hg], .same _⟩
  | main hi =>
    rw [get_set hi]
    by_cases e : k = 0
    · subst e; rw [hi] at hg; cases hg; exact ⟨_, if_pos rfl, .main⟩
    · exact ⟨pc, by rw [if_neg e, hg], .same _⟩

theorem Woken.keep {pcs pcs' : List (Pc I)} (h : Woken pcs pcs') {k : Nat} {pc : Pc I} (hg : pcs[k]? = some pc) (hs : pc.sleeps = false) : pcs'[k]? = some pc := by
  obtain ⟨pc', h1, h2⟩ := h.up hg
  cases h2 with
  | same => exact h1
  | worker => cases hs
  | main => cases hs

theorem Woken.length {pcs pcs' : List (Pc I)} (h : Woken pcs pcs') : pcs'.length = pcs.length := by
  cases h <;> simp

/-- Something that is not affected by waking up. -/
theorem Woken.flatMap {β : Type} {pcs pcs' : List (Pc I)} (h : Woken pcs pcs') (f : Pc I → List β) (h1 : f .lock = f .asleep) (h2 : f .wLock = f .wSleep) :
    pcs'.flatMap f = pcs.flatMap f := by
  cases h with
  | none => rfl
  | worker k hk =>
    obtain ⟨a, b, e1, e2⟩ := set_split hk
    rw [e2, e1]; simp [h1]
  | main hk =>
    obtain ⟨a, b, e1, e2⟩ := set_split hk
    rw [e2, e1]; simp [h2]

theorem Woken.sum {pcs pcs' : List (Pc I)} (h : Woken pcs pcs') (f : Pc I → Nat) (h1 : f .lock = f .asleep) (h2 : f .wLock = f .wSleep) :
    (pcs'.map f).sum = (pcs.map f).sum := by
  cases h with
  | none => rfl
  | worker k hk =>
    obtain ⟨a, b, e1, e2⟩ := set_split hk
    rw [e2, e1]; simp [h1]
  | main hk =>
    obtain ⟨a, b, e1, e2⟩ := set_split hk
    rw [e2, e1]; simp [h2]

/-! ## The effect of a step on mutexes -/

/-- What a step does with the mutexes is what the program counters say. -/
inductive Locks (s : State I) (tid : Nat) (pc pc' : Pc I) (s' : State I) : Prop
  | keep : pc'.holds = pc.holds → pc'.reads = pc.reads → s'.owner = s.owner → s'.readers = s.readers → Locks s tid pc pc' s'
  | acq (m) : pc.holds = none → pc'.holds = some m → pc.reads = false → pc'.reads = false → s.owner m = none → (m = .files → s.readers = []) →
      s'.owner = setOwner s.owner m (some tid) → s'.readers = s.readers → Locks s tid pc pc' s'
  | rls (m) : pc.holds = some m → pc'.holds = none → pc.reads = false → pc'.reads = false → s'.owner = setOwner s.owner m none → s'.readers = s.readers → Locks s tid pc pc' s'
  | acqShared : pc.holds = none → pc'.holds = none → pc.reads = false → pc'.reads = true → s.owner .files = none → s'.owner = s.owner → s'.readers = tid :: s.readers →
      Locks s tid pc pc' s'
  | rlsShared : pc.holds = none → pc'.holds = none → pc.reads = true → pc'.reads = false → s'.owner = s.owner → s'.readers = s.readers.filter (· ≠ tid) → Locks s tid pc pc' s'

theorem Go.locks {s s' : State I} {tid : Nat} {pc : Pc I} (h : Go w s tid pc s') :
    ∃ pcs pc', s'.pcs = pcs.set tid pc' ∧ Woken s.pcs pcs ∧ pc.sleeps = false ∧ pc'.isMain = pc.isMain ∧ Locks s tid pc pc' s' := by
  cases h with
  | @acq _ m pc' ha ho hr =>
    refine ⟨_, pc', rfl, .none, ?_, ?_, .acq m ?_ ?_ ?_ ?_ ho hr rfl rfl⟩ <;> cases ha <;> rfl
  | @rls _ m pc' ha =>
    refine ⟨_, pc', rfl, .none, ?_, ?_, .rls m ?_ ?_ ?_ ?_ rfl rfl⟩ <;> cases ha <;> first | rfl | (rename_i k; cases k <;> rfl)
  | acqShared p ho => exact ⟨_, _, rfl, .none, rfl, rfl, .acqShared rfl rfl rfl rfl ho rfl rfl⟩
  | rlsShared p b => cases b <;> exact ⟨_, _, rfl, .none, rfl, rfl, .rlsShared rfl rfl rfl rfl rfl rfl⟩
  | @dat _ pc' s1 hd =>
    refine ⟨s.pcs, pc', ?_, .none, ?_, ?_, .keep ?_ ?_ ?_ ?_⟩ <;> cases hd <;> rfl
  | @ntf _ pc' pcs hn =>
    refine ⟨pcs, pc', rfl, ?_, ?_, ?_, .keep ?_ ?_ rfl rfl⟩ <;> cases hn <;> first | rfl | assumption

/-- Mutexes are owned by the threads whose program counter says so. -/
structure Own (s : State I) : Prop where
  own : ∀ m tid, s.owner m = some tid ↔ ∃ pc, s.pcs[tid]? = some pc ∧ pc.holds = some m
  rd : ∀ tid, tid ∈ s.readers ↔ ∃ pc, s.pcs[tid]? = some pc ∧ pc.reads = true
  excl : s.owner .files ≠ none → s.readers = []

theorem roused_holds {pc pc' : Pc I} (h : Roused pc pc') : pc'.holds = pc.holds ∧ pc'.reads = pc.reads ∧ pc'.isMain = pc.isMain := by
  cases h <;> exact ⟨rfl, rfl, rfl⟩

theorem Woken.own {s : State I} (h : Own s) {pcs : List (Pc I)} (hw : Woken s.pcs pcs) : Own { s with pcs := pcs } := by
  refine ⟨fun m tid => ?_, fun tid => ?_, h.excl⟩
  · rw [show ({ s with pcs := pcs } : State I).owner = s.owner from rfl, h.own]
    constructor
    · rintro ⟨pc, h1, h2⟩
      obtain ⟨pc', h3, h4⟩ := hw.up h1
      exact ⟨pc', h3, by rw [(roused_holds h4).1, h2]⟩
    · rintro ⟨pc, h1, h2⟩
      obtain ⟨pc', h3, h4⟩ := hw.get h1
      exact ⟨pc', h3, by rw [← (roused_holds h4).1, h2]⟩
  · rw [show ({ s with pcs := pcs } : State I).readers = s.readers from rfl, h.rd]
    constructor
    · rintro ⟨pc, h1, h2⟩
      obtain ⟨pc', h3, h4⟩ := hw.up h1
      exact ⟨pc', h3, by rw [(roused_holds h4).2.1, h2]⟩
    · rintro ⟨pc, h1, h2⟩
      obtain ⟨pc', h3, h4⟩ := hw.get h1
      exact ⟨pc', h3, by rw [← (roused_holds h4).2.1, h2]⟩

theorem Own.move {s s' : State I} {tid : Nat} {pc pc' : Pc I} (h : Own s) (hp : s.pcs[tid]? = some pc) (hs : s'.pcs = s.pcs.set tid pc') (hl : Locks s tid pc pc' s') : Own s' := by
  have hg : ∀ i, s'.pcs[i]? = if i = tid then some pc' else s.pcs[i]? := fun i => by rw [hs, get_set hp]
  have hme : ∀ m, s.owner m = some tid ↔ pc.holds = some m := by
    intro m
    rw [h.own, hp]
    exact ⟨fun ⟨_, h1, h2⟩ => by cases h1; exact h2, fun h1 => ⟨_, rfl, h1⟩⟩
  have hmr : tid ∈ s.readers ↔ pc.reads = true := by
    rw [h.rd, hp]
    exact ⟨fun ⟨_, h1, h2⟩ => by cases h1; exact h2, fun h1 => ⟨_, rfl, h1⟩⟩
  have ex : ∀ (P : Pc I → Prop) i, (∃ x, (if i = tid then some pc' else s.pcs[i]?) = some x ∧ P x) ↔ (i = tid ∧ P pc') ∨ (i ≠ tid ∧ ∃ x, s.pcs[i]? = some x ∧ P x) := by
    intro P i
    by_cases e : i = tid
    · simp [e]
    · simp [e]
  have hown : ∀ m i, i ≠ tid → ((∃ x, s.pcs[i]? = some x ∧ x.holds = some m) ↔ s.owner m = some i) := fun m i _ => (h.own m i).symm
  have hrd : ∀ i, i ≠ tid → ((∃ x, s.pcs[i]? = some x ∧ x.reads = true) ↔ i ∈ s.readers) := fun i _ => (h.rd i).symm
  refine ⟨fun m i => ?_, fun i => ?_, ?_⟩
  · rw [hg, ex]
    by_cases e : i = tid
    · subst e
      simp only [true_and, ne_eq, not_true_eq_false, false_and, or_false]
      cases hl with
      | keep h1 h2 h3 h4 => rw [h3, hme, h1]
      | acq m' h1 h2 h3 h4 h5 h6 h7 h8 =>
        rw [h7, h2]
        unfold setOwner
        split
        · rename_i e; simp [e]
        · rename_i e
          rw [hme, h1]
          constructor
          · intro h; cases h
          · intro h; exact absurd (Option.some.inj h).symm e
      | rls m' h1 h2 h3 h4 h5 h6 =>
        rw [h5, h2]
        unfold setOwner
        split
        · simp
        · rename_i e
          rw [hme, h1]
          constructor
          · intro h; exact absurd (Option.some.inj h).symm e
          · intro h; cases h
      | acqShared h1 h2 h3 h4 h5 h6 h7 => rw [h6, hme, h1, h2]
      | rlsShared h1 h2 h3 h4 h5 h6 => rw [h5, hme, h1, h2]
    · simp only [e, false_and, ne_eq, not_false_eq_true, true_and, false_or]
      rw [hown m i e]
      cases hl with
      | keep h1 h2 h3 h4 => rw [h3]
      | acq m' h1 h2 h3 h4 h5 h6 h7 h8 =>
        rw [h7]
        unfold setOwner
        split
        · rename_i em
          rw [em, h5]
          constructor
          · intro h; exact absurd (Option.some.inj h).symm e
          · intro h; cases h
        · rfl
      | rls m' h1 h2 h3 h4 h5 h6 =>
        rw [h5]
        unfold setOwner
        split
        · rename_i em
          rw [em, (hme m').mpr h1]
          constructor
          · intro h; cases h
          · intro h; exact absurd (Option.some.inj h).symm e
        · rfl
      | acqShared h1 h2 h3 h4 h5 h6 h7 => rw [h6]
      | rlsShared h1 h2 h3 h4 h5 h6 => rw [h5]
  · rw [hg, ex]
    by_cases e : i = tid
    · subst e
      simp only [true_and, ne_eq, not_true_eq_false, false_and, or_false]
      cases hl with
      | keep h1 h2 h3 h4 => rw [h4, hmr, h2]
      | acq m' h1 h2 h3 h4 h5 h6 h7 h8 => rw [h8, hmr, h3, h4]
      | rls m' h1 h2 h3 h4 h5 h6 => rw [h6, hmr, h3, h4]
      | acqShared h1 h2 h3 h4 h5 h6 h7 => rw [h7]; simp [h4]
      | rlsShared h1 h2 h3 h4 h5 h6 => rw [h6]; simp [h4]
    · simp only [e, false_and, ne_eq, not_false_eq_true, true_and, false_or]
      rw [hrd i e]
      cases hl with
      | keep h1 h2 h3 h4 => rw [h4]
      | acq m' h1 h2 h3 h4 h5 h6 h7 h8 => rw [h8]
      | rls m' h1 h2 h3 h4 h5 h6 => rw [h6]
      | acqShared h1 h2 h3 h4 h5 h6 h7 => rw [h7]; simp [e]
      | rlsShared h1 h2 h3 h4 h5 h6 => rw [h6]; simp [e]
  · cases hl with
    | keep h1 h2 h3 h4 => rw [h3, h4]; exact h.excl
    | acq m' h1 h2 h3 h4 h5 h6 h7 h8 =>
      rw [h7, h8]
      unfold setOwner
      split
      · rename_i em; exact fun _ => h6 em.symm
      · exact h.excl
    | rls m' h1 h2 h3 h4 h5 h6 =>
      rw [h5, h6]
      unfold setOwner
      split
      · intro h; exact absurd rfl h
      · exact h.excl
    | acqShared h1 h2 h3 h4 h5 h6 h7 => rw [h6]; intro h; exact absurd h5 h
    | rlsShared h1 h2 h3 h4 h5 h6 =>
      rw [h5, h6]
      intro hh
      rw [h.excl hh]; rfl

/-- Different threads do not have the same mutex. -/
theorem Own.unique {s : State I} (h : Own s) {i j : Nat} {pi pj : Pc I} (hi : s.pcs[i]? = some pi) (hj : s.pcs[j]? = some pj) {m : Mtx} (h1 : pi.holds = some m) (h2 : pj.holds = some m) :
    i = j := by
  have g1 := (h.own m i).mpr ⟨pi, hi, h1⟩
  have g2 := (h.own m j).mpr ⟨pj, hj, h2⟩
  rw [g1] at g2
  exact Option.some.inj g2

/-- There are no readers while a thread changes the map. -/
theorem Own.noReader {s : State I} (h : Own s) {i j : Nat} {pi pj : Pc I} (hi : s.pcs[i]? = some pi) (hj : s.pcs[j]? = some pj) (h1 : pi.holds = some .files) : pj.reads = false := by
  have g1 := (h.own _ i).mpr ⟨pi, hi, h1⟩
  have g2 := h.excl (by rw [g1]; simp)
  cases hr : pj.reads with
  | false => rfl
  | true =>
    have := (h.rd j).mpr ⟨pj, hj, hr⟩
    rw [g2] at this
    cases this

end Maike.Tree.Threads
