import Verif.TaskList.ThreadLemmas

/-! # `TaskList::process`: critical sections can be regarded as single actions -/

namespace Maike.TaskList.Threads

/-- Where the main thread is in terms of `Model.lean`. -/
def absPc (s : State) : Pc := match s.mpc with
  | .loop => .loop
  | .reading r => .reading r
  | .incLock | .inc | .incNotify | .incUnlock | .addLock | .add => .reading []
  | .addNotify | .addUnlock => TaskList.wrapPc s.suf
  | .evLock | .evTest | .evSleep | .evReset => .waiting
  | .evUnlock => .loop
  | .ctLock | .ctTest | .ctSleep | .ctUnlock | .epLock | .epTake => .draining
  | .epUnlock (some t) | .dropCounter (some t) | .dropEvent (some t) => .rethrown t
  | .epUnlock none | .dropCounter none | .dropEvent none => .returned s.num
  | .returned n => .returned n
  | .rethrown t => .rethrown t

/-- The counter has been increased for a task that has not yet been submitted. -/
def pend : MPc → Nat
  | .incNotify | .incUnlock | .addLock | .add => 1
  | _ => 0

/-- What a worker is doing, in terms of `Model.lean`. -/
def WPc.run : WPc → Option (Nat × Stage)
  | .lock | .test | .asleep => none
  | .unlock t | .body t => some (t, .body)
  | .epLock t | .epStore t => some (t, .throwing)
  | .epUnlock t | .evLock t | .evSet t => some (t, .exiting)
  | .evNotify t | .evUnlock t | .ctLock t | .ctDec t => some (t, .unlocking)
  | .ctNotify _ | .ctUnlock _ => none

structure Rel (s : State) (a : TaskList.State) : Prop where
  pc : a.pc = absPc s
  pre : a.pre = s.pre
  suf : a.suf = s.suf
  results : a.results = s.results
  event : a.event = s.status
  counter : s.value = a.counter + pend s.mpc
  num : a.num = s.num
  queue : a.queue = s.queue
  running : a.running.Perm (s.wpcs.filterMap WPc.run)
  eptr : a.eptr = s.eptr
  hist : a.hist = s.hist

/-- The end of `process`. -/
def MPc.final : MPc → Bool
  | .ctUnlock | .epLock | .epTake | .epUnlock _ | .dropCounter _ | .dropEvent _ | .returned _ | .rethrown _ => true
  | _ => false

/-- The exception has been taken from the pool. -/
def MPc.taken : MPc → Bool
  | .epUnlock _ | .dropCounter _ | .dropEvent _ | .returned _ | .rethrown _ => true
  | _ => false

def WPc.awake : WPc → Bool
  | .lock | .test => true
  | _ => false

structure Inv (j : Job) (s : State) : Prop where
  len : s.wpcs.length = j.workers
  own : Own s
  reset : s.mpc = .evReset → s.status = true
  quiet : s.mpc.final = true → s.value = 0 ∧ s.queue = [] ∧ ∀ p ∈ s.wpcs, p.Idle
  clean : s.mpc.taken = true → s.eptr = none
  evWake : s.mpc = .evSleep → s.status = true → ∃ t, .evNotify t ∈ s.wpcs
  ctWake : s.mpc = .ctSleep → s.value = 0 → ∃ t, .ctNotify t ∈ s.wpcs
  poolWake : .asleep ∈ s.wpcs → s.queue.length ≤ s.wpcs.countP WPc.awake + (if s.mpc = .addNotify then 1 else 0)

/-! ## Weights -/

def MPc.weight : MPc → Nat
  | .reading _ => 6 | .incLock => 5 | .inc => 4 | .incNotify => 3 | .incUnlock => 2 | .addLock => 1 | .add => 0
  | .addNotify => 7 | .addUnlock => 4 | .evLock => 3 | .evTest => 2 | .evReset => 1 | .evSleep => 0 | .evUnlock => 1 | .loop => 0
  | .ctLock => 4 | .ctTest => 3 | .ctUnlock => 2 | .epLock => 1 | .epTake => 0 | .ctSleep => 0
  | .epUnlock _ => 3 | .dropCounter _ => 2 | .dropEvent _ => 1 | .returned _ => 0 | .rethrown _ => 0

def WPc.weight : WPc → Nat
  | .lock => 2 | .test => 1 | .asleep => 0 | .unlock _ => 1 | .body _ => 0
  | .epLock _ => 1 | .epStore _ => 0 | .epUnlock _ => 2 | .evLock _ => 1 | .evSet _ => 0
  | .evNotify _ => 6 | .evUnlock _ => 2 | .ctLock _ => 1 | .ctDec _ => 0
  | .ctNotify _ => 8 | .ctUnlock _ => 3

def weight (s : State) : Nat := s.mpc.weight + (s.wpcs.map WPc.weight).sum

/-! ## Simulation -/

theorem wrapPc_weight (suf : List Nat) : (wrapPc suf).weight ≤ 3 := by unfold wrapPc; split <;> simp [MPc.weight]

theorem absPc_wrap {s : State} (h : s.mpc = wrapPc s.suf) : absPc s = TaskList.wrapPc s.suf := by
  by_cases hs : s.suf = [] <;> simp [absPc, TaskList.wrapPc, h, wrapPc, hs]

theorem pend_wrap (suf : List Nat) : pend (wrapPc suf) = 0 := by unfold wrapPc; split <;> rfl

/-- A step that is not visible in `Model.lean`, or one that is. -/
def Sim (j : Job) (s s' : State) (a : TaskList.State) : Prop :=
  (Rel s' a ∧ weight s' < weight s) ∨ ∃ a', TaskList.Step j a a' ∧ Rel s' a' ∧ weight s' < weight s + 12

theorem sim_main {j : Job} {s s' : State} {a : TaskList.State} (hi : Inv j s) (hr : Rel s a) (hs : Main j s s') : Sim j s s' a := by
  cases hs with
  | drain hp h1 h2 =>
    refine .inr ⟨_, .loopDrain a (by rw [hr.pc, absPc, hp]) (by rw [hr.suf, h1]) (by rw [hr.pre, h2]), ⟨rfl, hr.pre, hr.suf, hr.results, hr.event, ?_, hr.num, hr.queue, hr.running, hr.eptr, hr.hist⟩, ?_⟩
    · have := hr.counter; rw [hp] at this; exact this
    · simp only [weight, hp, MPc.weight]; omega
  | read t suf hp h1 =>
    refine .inr ⟨_, .loopRead a t suf (by rw [hr.pc, absPc, hp]) (by rw [hr.suf, h1]), ⟨rfl, hr.pre, hr.suf, hr.results, hr.event, ?_, hr.num, hr.queue, hr.running, hr.eptr, hr.hist⟩, ?_⟩
    · have := hr.counter; rw [hp] at this; exact this
    · simp only [weight, hp, MPc.weight]; omega
  | ready hp =>
    refine .inl ⟨⟨?_, hr.pre, hr.suf, hr.results, hr.event, ?_, hr.num, hr.queue, hr.running, hr.eptr, hr.hist⟩, ?_⟩
    · rw [hr.pc, absPc, hp]; rfl
    · have := hr.counter; rw [hp] at this; exact this
    · simp only [weight, hp, MPc.weight]; omega
  | readOk d ds hp h1 =>
    refine .inr ⟨_, .readOk a d ds (by rw [hr.pc, absPc, hp]) (by rw [hr.results, h1]), ⟨rfl, hr.pre, hr.suf, hr.results, hr.event, ?_, hr.num, hr.queue, hr.running, hr.eptr, hr.hist⟩, ?_⟩
    · have := hr.counter; rw [hp] at this; exact this
    · simp only [weight, hp, MPc.weight]; omega
  | readPending d ds t suf hp h1 h2 =>
    refine .inr ⟨_, .readPending a d ds t suf (by rw [hr.pc, absPc, hp]) (by rw [hr.results, h1]) (by rw [hr.suf, h2]),
      ⟨(absPc_wrap (s := { s with pre := s.pre ++ [t], suf := suf, mpc := wrapPc suf }) rfl).symm, by simp [hr.pre], rfl, hr.results, hr.event, ?_, hr.num, hr.queue, hr.running, hr.eptr, hr.hist⟩, ?_⟩
    · have := hr.counter; rw [hp] at this; show s.value = a.counter + pend (wrapPc suf); rw [pend_wrap]; exact this
    · have := wrapPc_weight suf
      simp only [weight]; omega
  | readFail d ds hp h1 =>
    refine .inr ⟨_, .readFail a d ds (by rw [hr.pc, absPc, hp]) (by rw [hr.results, h1]), ⟨rfl, rfl, rfl, hr.results, hr.event, ?_, hr.num, hr.queue, hr.running, hr.eptr, hr.hist⟩, ?_⟩
    · have := hr.counter; rw [hp] at this; exact this
    · simp only [weight, hp, MPc.weight]; omega
  | inc hp =>
    refine .inl ⟨⟨?_, hr.pre, hr.suf, hr.results, hr.event, ?_, hr.num, hr.queue, hr.running, hr.eptr, hr.hist⟩, ?_⟩
    · rw [hr.pc, absPc, hp]; rfl
    · have := hr.counter; rw [hp] at this; simp only [pend] at this ⊢; omega
    · simp only [weight, hp, MPc.weight]; omega
  | incNotify hp =>
    refine .inl ⟨⟨?_, hr.pre, hr.suf, hr.results, hr.event, ?_, hr.num, hr.queue, hr.running, hr.eptr, hr.hist⟩, ?_⟩
    · rw [hr.pc, absPc, hp]; rfl
    · have := hr.counter; rw [hp] at this; exact this
    · simp only [weight, hp, MPc.weight]; omega
  | add t suf hp h1 =>
    refine .inr ⟨_, .submit a t suf (by rw [hr.pc, absPc, hp]) (by rw [hr.suf, h1]),
      ⟨rfl, hr.pre, rfl, hr.results, hr.event, ?_, by simp [hr.num], by simp [hr.queue], hr.running, hr.eptr, by simp [hr.hist]⟩, ?_⟩
    · have := hr.counter; rw [hp] at this; simp only [pend] at this ⊢; omega
    · simp only [weight, hp, MPc.weight]; omega
  | addWake wake hp hw =>
    obtain ⟨l₁, l₂, e1, e2, _⟩ := getElem?_split hw
    refine .inl ⟨⟨?_, hr.pre, hr.suf, hr.results, hr.event, ?_, hr.num, hr.queue, ?_, hr.eptr, hr.hist⟩, ?_⟩
    · rw [hr.pc, absPc, hp]; rfl
    · have := hr.counter; rw [hp] at this; exact this
    · have := hr.running; rw [e1] at this; simpa [e2, WPc.run, List.filterMap_cons] using this
    · simp only [weight, hp, e2, MPc.weight]; rw [e1]; simp [WPc.weight]; omega
  | addNone hp hn =>
    refine .inl ⟨⟨?_, hr.pre, hr.suf, hr.results, hr.event, ?_, hr.num, hr.queue, hr.running, hr.eptr, hr.hist⟩, ?_⟩
    · rw [hr.pc, absPc, hp]; rfl
    · have := hr.counter; rw [hp] at this; exact this
    · simp only [weight, hp, MPc.weight]; omega
  | evTest hp h1 =>
    refine .inl ⟨⟨?_, hr.pre, hr.suf, hr.results, hr.event, ?_, hr.num, hr.queue, hr.running, hr.eptr, hr.hist⟩, ?_⟩
    · rw [hr.pc, absPc, hp]; rfl
    · have := hr.counter; rw [hp] at this; exact this
    · simp only [weight, hp, MPc.weight]; omega
  | evReset hp =>
    refine .inr ⟨_, .wake a (by rw [hr.pc, absPc, hp]) (by rw [hr.event]; exact hi.reset hp),
      ⟨rfl, rfl, by simp [hr.pre, hr.suf], hr.results, rfl, ?_, hr.num, hr.queue, hr.running, hr.eptr, hr.hist⟩, ?_⟩
    · have := hr.counter; rw [hp] at this; exact this
    · simp only [weight, hp, MPc.weight]; omega
  | ctTest hp h1 =>
    refine .inl ⟨⟨?_, hr.pre, hr.suf, hr.results, hr.event, ?_, hr.num, hr.queue, hr.running, hr.eptr, hr.hist⟩, ?_⟩
    · rw [hr.pc, absPc, hp]; rfl
    · have := hr.counter; rw [hp] at this; exact this
    · simp only [weight, hp, MPc.weight]; omega
  | epTake hp =>
    have hv := (hi.quiet (by rw [hp]; rfl)).1
    have hc := hr.counter
    rw [hp, hv] at hc
    simp only [pend] at hc
    cases he : s.eptr with
    | none =>
      refine .inr ⟨_, .ret a (by rw [hr.pc, absPc, hp]) (by omega) (by rw [hr.eptr, he]), ⟨?_, hr.pre, hr.suf, hr.results, hr.event, ?_, hr.num, hr.queue, hr.running, ?_, hr.hist⟩, ?_⟩
      · show Pc.returned a.num = _; rw [hr.num]; rfl
      · rw [hv]; exact hc
      · show a.eptr = none; rw [hr.eptr, he]
      · simp only [weight, hp, MPc.weight]; omega
    | some t =>
      refine .inr ⟨_, .rethrow a t (by rw [hr.pc, absPc, hp]) (by omega) (by rw [hr.eptr, he]), ⟨rfl, hr.pre, hr.suf, hr.results, hr.event, ?_, hr.num, hr.queue, hr.running, rfl, hr.hist⟩, ?_⟩
      · rw [hv]; exact hc
      · simp only [weight, hp, MPc.weight]; omega
  | dropCounter e hp =>
    refine .inl ⟨⟨?_, hr.pre, hr.suf, hr.results, hr.event, ?_, hr.num, hr.queue, hr.running, hr.eptr, hr.hist⟩, ?_⟩
    · rw [hr.pc, absPc, hp]; cases e <;> rfl
    · have := hr.counter; rw [hp] at this; exact this
    · simp only [weight, hp, MPc.weight]; omega
  | rethrow t hp =>
    refine .inl ⟨⟨?_, hr.pre, hr.suf, hr.results, hr.event, ?_, hr.num, hr.queue, hr.running, hr.eptr, hr.hist⟩, ?_⟩
    · rw [hr.pc, absPc, hp]; rfl
    · have := hr.counter; rw [hp] at this; exact this
    · simp only [weight, hp, MPc.weight]; omega
  | ret hp =>
    refine .inl ⟨⟨?_, hr.pre, hr.suf, hr.results, hr.event, ?_, hr.num, hr.queue, hr.running, hr.eptr, hr.hist⟩, ?_⟩
    · rw [hr.pc, absPc, hp]; rfl
    · have := hr.counter; rw [hp] at this; exact this
    · simp only [weight, hp, MPc.weight]; omega
  | acq m p h0 hc =>
    refine .inl ?_
    rcases hc with ⟨hp, rfl, rfl⟩ | ⟨hp, rfl, rfl⟩ | ⟨hp, rfl, rfl⟩ | ⟨hp, rfl, rfl⟩ | ⟨hp, rfl, rfl⟩ <;>
      refine ⟨⟨?_, hr.pre, hr.suf, hr.results, hr.event, ?_, hr.num, hr.queue, hr.running, hr.eptr, hr.hist⟩, ?_⟩ <;>
      first
        | (rw [hr.pc, absPc, hp]; rfl)
        | (have := hr.counter; rw [hp] at this; exact this)
        | (simp only [weight, hp, MPc.weight]; omega)
  | rel m p hc =>
    refine .inl ?_
    rcases hc with ⟨hp, rfl, rfl⟩ | ⟨hp, rfl, rfl⟩ | ⟨hp, rfl, rfl, _⟩ | ⟨hp, rfl, rfl⟩ | ⟨hp, rfl, rfl, _⟩ | ⟨hp, rfl, rfl⟩ | ⟨⟨e', hp, rfl⟩, rfl⟩
    rotate_left 1
    · refine ⟨⟨?_, hr.pre, hr.suf, hr.results, hr.event, ?_, hr.num, hr.queue, hr.running, hr.eptr, hr.hist⟩, ?_⟩
      · rw [hr.pc, absPc, hp]; exact (absPc_wrap (s := { s with owner := setOwner s.owner .pool none, mpc := wrapPc s.suf }) rfl).symm
      · have := hr.counter; rw [hp] at this; show s.value = a.counter + pend (wrapPc s.suf); rw [pend_wrap]; exact this
      · have := wrapPc_weight s.suf
        have h4 : s.mpc.weight = 4 := by rw [hp]; rfl
        simp only [weight]; omega
    all_goals
      refine ⟨⟨?_, hr.pre, hr.suf, hr.results, hr.event, ?_, hr.num, hr.queue, hr.running, hr.eptr, hr.hist⟩, ?_⟩ <;>
      first
        | (rw [hr.pc, absPc, hp]; rfl)
        | (rw [hr.pc, absPc, hp]; cases e' <;> rfl)
        | (have := hr.counter; rw [hp] at this; exact this)
        | (simp only [weight, hp, MPc.weight]; omega)

theorem sim_work {j : Job} {s s' : State} {a : TaskList.State} (hi : Inv j s) (ha : TaskList.InvA j a) (hr : Rel s a) {k : Nat} {p p' : WPc}
    (hk : s.wpcs[k]? = some p) (hp : p ≠ .asleep) (hs : Work k s p p' s') : Sim j s s' a := by
  obtain ⟨l₁, l₂, e1, e2, _⟩ := getElem?_split hk
  have hrun := hr.running
  rw [e1] at hrun
  simp only [List.filterMap_append, List.filterMap_cons] at hrun
  have hw : (s.wpcs.map WPc.weight).sum = (l₁.map WPc.weight).sum + p.weight + (l₂.map WPc.weight).sum := by rw [e1]; simp; omega
  have hw' : ∀ q : WPc, ((l₁ ++ q :: l₂).map WPc.weight).sum = (l₁.map WPc.weight).sum + q.weight + (l₂.map WPc.weight).sum := by intro q; simp; omega
  have hmem : ∀ {x}, p.run = some x → ∃ r₁ r₂, a.running = r₁ ++ x :: r₂ ∧ (r₁ ++ r₂).Perm (l₁.filterMap WPc.run ++ l₂.filterMap WPc.run) := by
    intro x hx
    rw [hx] at hrun
    obtain ⟨r₁, r₂, e⟩ := List.append_of_mem (hrun.mem_iff.mpr (by simp : x ∈ _))
    refine ⟨r₁, r₂, e, ?_⟩
    rw [e] at hrun
    exact (List.perm_cons x).mp ((List.perm_middle.symm.trans hrun).trans List.perm_middle)
  have hput : ∀ {r₁ r₂ : List (Nat × Stage)} {q : WPc} {y}, (r₁ ++ r₂).Perm (l₁.filterMap WPc.run ++ l₂.filterMap WPc.run) → q.run = some y →
      (r₁ ++ y :: r₂).Perm ((l₁ ++ q :: l₂).filterMap WPc.run) := by
    intro r₁ r₂ q y h hq
    simp only [List.filterMap_append, List.filterMap_cons, hq]
    exact (List.perm_middle.trans (h.cons y)).trans List.perm_middle.symm
  have hsame : ∀ {q : WPc}, q.run = p.run → a.running.Perm ((l₁ ++ q :: l₂).filterMap WPc.run) := by
    intro q hq
    simpa only [List.filterMap_append, List.filterMap_cons, hq] using hrun
  cases hs with
  | sleep hq =>
    refine .inl ⟨⟨hr.pc, hr.pre, hr.suf, hr.results, hr.event, hr.counter, hr.num, hr.queue, by simp only [e2]; exact hsame rfl, hr.eptr, hr.hist⟩, ?_⟩
    simp only [weight, e2, hw, hw', WPc.weight]; omega
  | pop t q hq =>
    have hlen : a.running.length < j.workers := by
      rw [hrun.length_eq, ← hi.len, e1]
      simp only [WPc.run, List.length_append, List.length_cons]
      have h1 := List.length_filterMap_le WPc.run l₁
      have h2 := List.length_filterMap_le WPc.run l₂
      omega
    refine .inr ⟨_, .take a t q hlen (by rw [hr.queue, hq]), ⟨hr.pc, hr.pre, hr.suf, hr.results, hr.event, hr.counter, hr.num, rfl, ?_, hr.eptr, by simp [hr.hist]⟩, ?_⟩
    · simp only [e2]
      have := hput (r₁ := a.running) (r₂ := []) (q := .unlock t) (y := (t, .body)) (by simpa [WPc.run] using hrun) rfl
      exact this
    · simp only [weight, e2, hw, hw', WPc.weight]; omega
  | success t =>
    obtain ⟨r₁, r₂, hx, hperm⟩ := hmem (x := (t, .body)) rfl
    refine .inr ⟨_, .finSuccess a r₁ t r₂ hx, ⟨hr.pc, hr.pre, hr.suf, by simp [hr.results], hr.event, hr.counter, hr.num, hr.queue, by simp only [e2]; exact hput hperm rfl, hr.eptr, by simp [hr.hist]⟩, ?_⟩
    simp only [weight, e2, hw, hw', WPc.weight]; omega
  | failure t =>
    obtain ⟨r₁, r₂, hx, hperm⟩ := hmem (x := (t, .body)) rfl
    refine .inr ⟨_, .finFailure a r₁ t r₂ hx, ⟨hr.pc, hr.pre, hr.suf, by simp [hr.results], hr.event, hr.counter, hr.num, hr.queue, by simp only [e2]; exact hput hperm rfl, hr.eptr, by simp [hr.hist]⟩, ?_⟩
    simp only [weight, e2, hw, hw', WPc.weight]; omega
  | threw t =>
    obtain ⟨r₁, r₂, hx, hperm⟩ := hmem (x := (t, .body)) rfl
    refine .inr ⟨_, .finThrew a r₁ t r₂ hx, ⟨hr.pc, hr.pre, hr.suf, hr.results, hr.event, hr.counter, hr.num, hr.queue, by simp only [e2]; exact hput hperm rfl, hr.eptr, by simp [hr.hist]⟩, ?_⟩
    simp only [weight, e2, hw, hw', WPc.weight]; omega
  | epStore t =>
    obtain ⟨r₁, r₂, hx, hperm⟩ := hmem (x := (t, .throwing)) rfl
    refine .inr ⟨_, .store a r₁ t r₂ hx, ⟨hr.pc, hr.pre, hr.suf, hr.results, hr.event, hr.counter, hr.num, hr.queue, by simp only [e2]; exact hput hperm rfl, by simp only [hr.eptr]; cases s.eptr <;> rfl, hr.hist⟩, ?_⟩
    simp only [weight, e2, hw, hw', WPc.weight]; omega
  | evSet t =>
    obtain ⟨r₁, r₂, hx, hperm⟩ := hmem (x := (t, .exiting)) rfl
    refine .inr ⟨_, .setEvent a r₁ t r₂ hx, ⟨hr.pc, hr.pre, hr.suf, hr.results, rfl, hr.counter, hr.num, hr.queue, by simp only [e2]; exact hput hperm rfl, hr.eptr, hr.hist⟩, ?_⟩
    simp only [weight, e2, hw, hw', WPc.weight]; omega
  | evWake t hm =>
    refine .inl ⟨⟨by rw [hr.pc, absPc, hm]; rfl, hr.pre, hr.suf, hr.results, hr.event, by have := hr.counter; rw [hm] at this; exact this, hr.num, hr.queue,
      by simp only [e2]; exact hsame rfl, hr.eptr, hr.hist⟩, ?_⟩
    simp only [weight, e2, hw, hw', WPc.weight, hm, MPc.weight]; omega
  | evNone t hm =>
    refine .inl ⟨⟨hr.pc, hr.pre, hr.suf, hr.results, hr.event, hr.counter, hr.num, hr.queue, by simp only [e2]; exact hsame rfl, hr.eptr, hr.hist⟩, ?_⟩
    simp only [weight, e2, hw, hw', WPc.weight]; omega
  | ctDec t =>
    obtain ⟨r₁, r₂, hx, hperm⟩ := hmem (x := (t, .unlocking)) rfl
    refine .inr ⟨_, .unlock a r₁ t r₂ hx, ⟨hr.pc, hr.pre, hr.suf, hr.results, hr.event, ?_, hr.num, hr.queue, ?_, hr.eptr, hr.hist⟩, ?_⟩
    · have h1 := ha.ctr
      have h2 := hr.counter
      rw [hx] at h1
      simp only [List.length_append, List.length_cons] at h1
      show s.value - 1 = a.counter - 1 + pend s.mpc
      omega
    · simp only [e2, List.filterMap_append, List.filterMap_cons, WPc.run]; exact hperm
    · simp only [weight, e2, hw, hw', WPc.weight]; omega
  | ctWake t hm =>
    refine .inl ⟨⟨by rw [hr.pc, absPc, hm]; rfl, hr.pre, hr.suf, hr.results, hr.event, by have := hr.counter; rw [hm] at this; exact this, hr.num, hr.queue,
      by simp only [e2]; exact hsame rfl, hr.eptr, hr.hist⟩, ?_⟩
    simp only [weight, e2, hw, hw', WPc.weight, hm, MPc.weight]; omega
  | ctNone t hm =>
    refine .inl ⟨⟨hr.pc, hr.pre, hr.suf, hr.results, hr.event, hr.counter, hr.num, hr.queue, by simp only [e2]; exact hsame rfl, hr.eptr, hr.hist⟩, ?_⟩
    simp only [weight, e2, hw, hw', WPc.weight]; omega
  | acq m p p' h0 hc =>
    rcases hc with ⟨rfl, rfl, rfl⟩ | ⟨t, ⟨rfl, rfl, rfl⟩ | ⟨rfl, rfl, rfl⟩ | ⟨rfl, rfl, rfl⟩⟩ <;>
      exact .inl ⟨⟨hr.pc, hr.pre, hr.suf, hr.results, hr.event, hr.counter, hr.num, hr.queue, by simp only [e2]; exact hsame rfl, hr.eptr, hr.hist⟩,
        by simp only [weight, e2, hw, hw', WPc.weight]; omega⟩
  | rel m p p' hc =>
    rcases hc with ⟨t, ⟨rfl, rfl, rfl⟩ | ⟨rfl, rfl, rfl⟩ | ⟨rfl, rfl, rfl⟩ | ⟨rfl, rfl, rfl⟩⟩ <;>
      exact .inl ⟨⟨hr.pc, hr.pre, hr.suf, hr.results, hr.event, hr.counter, hr.num, hr.queue, by simp only [e2]; exact hsame rfl, hr.eptr, hr.hist⟩,
        by simp only [weight, e2, hw, hw', WPc.weight]; omega⟩
  | wake => exact absurd rfl hp

end Maike.TaskList.Threads
