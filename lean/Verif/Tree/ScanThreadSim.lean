import Verif.Tree.ScanThreadLemmas

/-! # The directory scanner, one operation at a time: every action is none or one step of the scanner in `Scanner.lean` -/

namespace Maike.Tree.Threads

open Fs Paths
open Maike.Db.Map (insertNew)

variable {I : Type} {w : World I}

/-! ## Tasks -/

/-- The phase of a task that has put its path into the map. -/
def afterIns (w : World I) (p : Path) : Phase :=
  match w.isDir p.normal with
  | .error m => .failing m
  | .ok false => .ending
  | .ok true => .spawning (w.names p.normal).1 (w.names p.normal).2

/-- The task that a thread performs. -/
def Adder.current : Adder → Bool → List (Path × Phase)
  | .main, _ => []
  | .task p n rest err, false => [(p, .spawning (n :: rest) err)]
  | .task p _ rest err, true => [(p, .spawning rest err)]

/-- The tasks that a thread has: the one that it performs, and the one that it is about to put into the queue. -/
def Pc.tasks (w : World I) : Pc I → List (Path × Phase)
  | .incLock k | .inc k => k.current false ++ (if k.isMain then [(k.path w, .pending)] else [])
  | .incNotify k | .incUnlock k | .addLock k | .add k => k.current true ++ [(k.path w, .pending)]
  | .addNotify k | .addUnlock k => k.current true
  | .unlock p | .filter p | .findLock p | .find p => [(p, .pending)]
  | .findUnlock p found => [(p, if found then .ending else .checked)]
  | .load p | .insLock p _ | .ins p _ => [(p, .checked)]
  | .insUnlock p inserted => [(p, if inserted then afterIns w p else .ending)]
  | .dirTest p => [(p, afterIns w p)]
  | .spawn p rest err => [(p, .spawning rest err)]
  | .errLock p m | .errPush p m => [(p, .failing m)]
  | .errUnlock p | .ctLock p | .ctDec p => [(p, .ending)]
  | _ => []

/-- Counted in advance: the task for the start directory. -/
def Pc.early : Pc I → Nat
  | .incLock k | .inc k => if k.isMain then 1 else 0
  | _ => 0

/-- Loaded, but not yet in the map. -/
def Pc.loaded : Pc I → List Path
  | .insLock p _ | .ins p _ => [p]
  | _ => []

/-- The result. -/
def Pc.result : Pc I → Option (Except Str (List (Path × I)))
  | .drop r | .finished r => some r
  | _ => none

def pends (q : List Path) : List (Path × Phase) := q.map (·, .pending)

structure Rel (w : World I) (s : State I) (a : Scan I) : Prop where
  tasks : ∃ done : List Path, a.tasks.Perm (done.map (·, .done) ++ (pends s.queue ++ s.pcs.flatMap (Pc.tasks w)))
  counter : a.shared.counter = s.value + (s.pcs.map Pc.early).sum
  loads : s.loads.Perm (a.shared.loads ++ s.pcs.flatMap Pc.loaded)
  data : ∀ pc, s.pcs[0]? = some pc → pc.result = none → s.files = a.shared.files ∧ s.errlog = a.shared.errlog
  result : ∀ pc r, s.pcs[0]? = some pc → pc.result = some r → takeResult a = some r

/-! ## Weights -/

/-- A bound for the number of actions until the next step of `Scanner.lean`, including those of the threads that are woken up. -/
def Pc.weight : Pc I → Nat
  | .incLock k => if k.isMain then 38 else 14
  | .inc k => if k.isMain then 37 else 13
  | .incNotify _ => 36
  | .incUnlock _ => 32
  | .addLock _ => 31
  | .add _ => 30
  | .addNotify _ => 20
  | .addUnlock _ => 17
  | .lock => 2
  | .test => 1
  | .asleep => 0
  | .unlock _ => 6
  | .filter _ => 5
  | .findLock _ => 4
  | .find _ => 3
  | .findUnlock _ _ => 20
  | .load _ => 19
  | .insLock _ _ => 18
  | .ins _ _ => 17
  | .insUnlock _ _ => 20
  | .dirTest _ => 19
  | .spawn _ _ _ => 15
  | .errLock _ _ => 18
  | .errPush _ _ => 17
  | .errUnlock _ => 20
  | .ctLock _ => 10
  | .ctDec _ => 9
  | .ctNotify => 8
  | .ctUnlock => 5
  | .wLock => 8
  | .wTest => 7
  | .wSleep => 6
  | .wUnlock => 5
  | .readLog => 4
  | .takeLog => 3
  | .takeFiles => 3
  | .drop _ => 2
  | .finished _ => 0

def State.weight (s : State I) : Nat := (s.pcs.map Pc.weight).sum + 6 * s.queue.length

theorem woken_weight {pcs pcs' : List (Pc I)} (h : Woken pcs pcs') : (pcs'.map Pc.weight).sum ≤ (pcs.map Pc.weight).sum + 2 := by
  cases h with
  | none => omega
  | worker k hk =>
    obtain ⟨a, b, e1, e2⟩ := set_split hk
    rw [e2, e1]; simp [Pc.weight]; omega
  | main hk =>
    obtain ⟨a, b, e1, e2⟩ := set_split hk
    rw [e2, e1]; simp [Pc.weight]; omega

theorem set_sum {pcs : List (Pc I)} {tid : Nat} {pc : Pc I} (h : pcs[tid]? = some pc) (f : Pc I → Nat) (pc' : Pc I) :
    ((pcs.set tid pc').map f).sum + f pc = (pcs.map f).sum + f pc' := by
  obtain ⟨a, b, e1, e2⟩ := set_split h
  rw [e2, e1]; simp; omega

theorem set_flat {β : Type} [BEq β] {pcs : List (Pc I)} {tid : Nat} {pc : Pc I} (h : pcs[tid]? = some pc) (f : Pc I → List β) (pc' : Pc I) (x : β) :
    List.count x ((pcs.set tid pc').flatMap f) + List.count x (f pc) = List.count x (pcs.flatMap f) + List.count x (f pc') := by
  obtain ⟨a, b, e1, e2⟩ := set_split h
  rw [e2, e1]; simp [List.count_append]; omega

/-! ## Simulation -/

/-- How a state is changed by an action of one thread: `pc'` is where it goes on. -/
structure Moves (s : State I) (tid : Nat) (pc pc' : Pc I) (s' : State I) : Prop where
  here : s.pcs[tid]? = some pc
  awake : pc.sleeps = false
  pcs : ∃ pcs, Woken s.pcs pcs ∧ s'.pcs = pcs.set tid pc'

theorem Moves.flat {s s' : State I} {tid : Nat} {pc pc' : Pc I} (h : Moves s tid pc pc' s') {β : Type} [BEq β] (f : Pc I → List β) (h1 : f .lock = f .asleep) (h2 : f .wLock = f .wSleep)
    (x : β) : List.count x (s'.pcs.flatMap f) + List.count x (f pc) = List.count x (s.pcs.flatMap f) + List.count x (f pc') := by
  obtain ⟨pcs, g1, g2⟩ := h.pcs
  rw [g2, set_flat (g1.keep h.here h.awake), g1.flatMap f h1 h2]

theorem Moves.sum {s s' : State I} {tid : Nat} {pc pc' : Pc I} (h : Moves s tid pc pc' s') (f : Pc I → Nat) (h1 : f .lock = f .asleep) (h2 : f .wLock = f .wSleep) :
    (s'.pcs.map f).sum + f pc = (s.pcs.map f).sum + f pc' := by
  obtain ⟨pcs, g1, g2⟩ := h.pcs
  rw [g2, set_sum (g1.keep h.here h.awake), g1.sum f h1 h2]

/-- The main thread after the action. -/
theorem Moves.get0 {s s' : State I} {tid : Nat} {pc pc' : Pc I} (h : Moves s tid pc pc' s') {x : Pc I} (hx : s'.pcs[0]? = some x) :
    (tid = 0 ∧ x = pc') ∨ (tid ≠ 0 ∧ ∃ y, s.pcs[0]? = some y ∧ Roused y x) := by
  obtain ⟨pcs, g1, g2⟩ := h.pcs
  rw [g2, get_set (g1.keep h.here h.awake)] at hx
  split at hx
  · rename_i e; cases hx; exact .inl ⟨e.symm, rfl⟩
  · rename_i e; exact .inr ⟨fun h => e h.symm, g1.get hx⟩

theorem roused_result {x y : Pc I} (h : Roused x y) : y.result = x.result := by cases h <;> rfl

/-- The data agree, unless the result has been taken. -/
def SameData (s : State I) (a : Scan I) : Prop := s.files = a.shared.files ∧ s.errlog = a.shared.errlog

theorem Rel.stutter {s s' : State I} {a : Scan I} (hr : Rel w s a) {tid : Nat} {pc pc' : Pc I} (hm : Moves s tid pc pc' s')
    (ht : ∀ x, List.count x (pends s'.queue) + List.count x (pc'.tasks w) = List.count x (pends s.queue) + List.count x (pc.tasks w))
    (hc : s'.value + pc'.early = s.value + pc.early)
    (hl : ∀ x, List.count x s'.loads + List.count x pc.loaded = List.count x s.loads + List.count x pc'.loaded)
    (hd : (tid = 0 ∧ ∀ r, pc'.result = some r → (SameData s a → takeResult a = some r) ∧ (pc.result = some r ∨ pc.result = none)) ∨ (s'.files = s.files ∧ s'.errlog = s.errlog ∧ pc'.result = none))
    (hd0 : tid = 0 → pc'.result = none → s'.files = s.files ∧ s'.errlog = s.errlog ∧ pc.result = none) :
    Rel w s' a := by
  obtain ⟨done, hdone⟩ := hr.tasks
  refine ⟨⟨done, ?_⟩, ?_, ?_, ?_, ?_⟩
  · rw [List.perm_iff_count] at hdone ⊢
    intro x
    have h1 := hdone x
    have h2 := hm.flat (Pc.tasks w) rfl rfl x
    have h3 := ht x
    simp only [List.count_append] at h1 ⊢
    omega
  · have h1 := hm.sum Pc.early rfl rfl
    have h2 := hr.counter
    omega
  · have h0 := hr.loads
    rw [List.perm_iff_count] at h0 ⊢
    intro x
    have h1 := h0 x
    have h2 := hm.flat Pc.loaded rfl rfl x
    have h3 := hl x
    simp only [List.count_append] at h1 ⊢
    omega
  · intro x hx hn
    rcases hm.get0 hx with ⟨e, rfl⟩ | ⟨e, y, hy, hro⟩
    · obtain ⟨g1, g2, g3⟩ := hd0 e hn
      rw [g1, g2]
      exact hr.data _ (e ▸ hm.here) g3
    · rcases hd with ⟨e', _⟩ | ⟨g1, g2, _⟩
      · exact absurd e' e
      · rw [g1, g2]
        exact hr.data y hy (by rw [← roused_result hro, hn])
  · intro x r hx hn
    rcases hm.get0 hx with ⟨e, rfl⟩ | ⟨e, y, hy, hro⟩
    · rcases hd with ⟨_, g⟩ | ⟨_, _, g⟩
      · obtain ⟨g1, g2⟩ := g r hn
        rcases g2 with g2 | g2
        · exact hr.result _ r (e ▸ hm.here) g2
        · exact g1 (hr.data _ (e ▸ hm.here) g2)
      · rw [g] at hn; cases hn
    · exact hr.result y r hy (by rw [← roused_result hro, hn])

theorem perm_split {α : Type} {l : List α} {x : α} {m : List α} (h : l.Perm (x :: m)) : ∃ a b, l = a ++ x :: b ∧ (a ++ b).Perm m := by
  obtain ⟨a, b, e⟩ := List.append_of_mem (h.mem_iff.mpr (by simp : x ∈ x :: m))
  refine ⟨a, b, e, ?_⟩
  rw [e] at h
  exact (List.perm_cons x).mp (List.perm_middle.symm.trans h)

theorem Rel.advance {s s' : State I} {a : Scan I} (hr : Rel w s a) {tid : Nat} {pc pc' : Pc I} (hm : Moves s tid pc pc' s')
    {p : Path} {ph ph' : Phase} {sh : Shared I} {new : List Path} (had : Tree.advance w a.shared p ph = some (sh, ph', new)) (hp : pc.tasks w = [(p, ph)]) (hq : s'.queue = s.queue)
    (extra : List Path)
    (ht : ∀ x, List.count x (extra.map fun q => (q, Phase.done)) + List.count x (pc'.tasks w) = List.count x ((p, ph') :: pends new))
    (hc : s'.value + pc'.early + a.shared.counter = s.value + pc.early + sh.counter)
    (hl : ∀ x, List.count x s'.loads + List.count x pc.loaded + List.count x a.shared.loads = List.count x s.loads + List.count x pc'.loaded + List.count x sh.loads)
    (h0 : tid ≠ 0) (hd : s'.files = sh.files ∧ s'.errlog = sh.errlog) (hres : ∀ x, s.pcs[0]? = some x → x.result = none) :
    ∃ a', Step w a a' ∧ Rel w s' a' := by
  obtain ⟨done, hdone⟩ := hr.tasks
  have hcnt := List.perm_iff_count.mp hdone
  have hflat := fun x => hm.flat (Pc.tasks w) rfl rfl x
  have hmem : (p, ph) ∈ a.tasks := by
    rw [hdone.mem_iff]
    refine List.mem_append_right _ (List.mem_append_right _ (List.mem_flatMap.mpr ⟨pc, List.mem_of_getElem? hm.here, ?_⟩))
    rw [hp]; simp
  obtain ⟨A, B, e⟩ := List.append_of_mem hmem
  obtain ⟨tasks, shared⟩ := a
  simp only at e had hc hl hdone hcnt
  subst e
  refine ⟨_, .mk had, ⟨done ++ extra, ?_⟩, ?_, ?_, ?_, ?_⟩
  · rw [List.perm_iff_count]
    intro x
    have h1 := hcnt x
    have h2 := hflat x
    have h3 := ht x
    rw [hp] at h2
    rw [hq]
    simp only [List.count_append, List.map_append, List.count_cons, List.count_nil, pends] at h1 h2 h3 ⊢
    omega
  · have h1 := hm.sum Pc.early rfl rfl
    have h2 := hr.counter
    simp only at h2 ⊢
    omega
  · have h0 := hr.loads
    rw [List.perm_iff_count] at h0 ⊢
    intro x
    have h1 := h0 x
    have h2 := hm.flat Pc.loaded rfl rfl x
    have h3 := hl x
    simp only [List.count_append] at h1 ⊢
    omega
  · intro x hx _
    exact hd
  · intro x r hx hn
    rcases hm.get0 hx with ⟨e, rfl⟩ | ⟨e, y, hy, hro⟩
    · exact absurd e h0
    · have := hres y hy
      rw [roused_result hro, this] at hn
      cases hn

/-! ## Invariant -/

structure Inv (w : World I) (n : Nat) (s : State I) : Prop where
  len : s.pcs.length = n + 1
  own : Own s
  /-- thread 0 is the main thread, the others are workers -/
  role : ∀ (tid : Nat) (pc : Pc I), s.pcs[tid]? = some pc → pc.isMain = decide (tid = 0)
  ok : ∀ (tid : Nat) (pc : Pc I), s.pcs[tid]? = some pc → pc.Ok w
  quiet : ∀ x, s.pcs[0]? = some x → x.final = true → s.queue = [] ∧ s.value = 0 ∧ ∀ tid pc, tid ≠ 0 → s.pcs[tid]? = some pc → pc.Idle
  log : s.pcs[0]? = some .takeLog → s.errlog ≠ []
  nolog : s.pcs[0]? = some .takeFiles → s.errlog = []
  alive : s.alive = false ↔ ∃ r, s.pcs[0]? = some (.finished r)
  poolWake : s.queue ≠ [] → (∃ tid pc, tid ≠ 0 ∧ s.pcs[tid]? = some pc ∧ pc.isAsleep = false) ∨ ∃ k, s.pcs[0]? = some (.addNotify k)
  ctWake : s.pcs[0]? = some .wSleep → s.value ≠ 0 ∨ ∃ tid : Nat, s.pcs[tid]? = some .ctNotify

theorem result_final {x : Pc I} (h : x.result ≠ none) : x.final = true := by
  cases x <;> first | rfl | exact absurd rfl h

/-- While a worker is busy, the result has not been taken. -/
theorem Inv.busy {n : Nat} {s : State I} (hi : Inv w n s) {tid : Nat} {pc : Pc I} (hp : s.pcs[tid]? = some pc) (h0 : tid ≠ 0) (hb : ¬ pc.Idle) (x : Pc I) (hx : s.pcs[0]? = some x) :
    x.final = false ∧ x.result = none := by
  have h1 : x.final = false := by
    cases h : x.final with
    | false => rfl
    | true => exact absurd ((hi.quiet x hx h).2.2 tid pc h0 hp) hb
  refine ⟨h1, Classical.byContradiction fun h => ?_⟩
  rw [result_final h] at h1
  cases h1

theorem Inv.ne0 {n : Nat} {s : State I} (hi : Inv w n s) {tid : Nat} {pc : Pc I} (hp : s.pcs[tid]? = some pc) (h : pc.isMain = false) : tid ≠ 0 := by
  have := hi.role tid pc hp
  rw [h] at this
  intro e
  rw [e] at this
  cases this

theorem Inv.eq0 {n : Nat} {s : State I} (hi : Inv w n s) {tid : Nat} {pc : Pc I} (hp : s.pcs[tid]? = some pc) (h : pc.isMain = true) : tid = 0 := by
  have := hi.role tid pc hp
  rw [h] at this
  simpa using this.symm

/-! ## The counter -/

theorem live_sum (l : List (Path × Phase)) (P : List Path) (h : ∃ m, l.Perm (P.map (·, Phase.done) ++ m) ∧ ∀ t ∈ m, t.2 ≠ .done) :
    (l.map fun t => t.2.live).sum + P.length = l.length := by
  obtain ⟨m, h1, h2⟩ := h
  have e1 : (l.map fun t => t.2.live).sum = ((P.map (·, Phase.done) ++ m).map fun t => t.2.live).sum := (h1.map _).sum_nat
  rw [e1, h1.length_eq]
  have h3 : (m.map fun t => t.2.live).sum = m.length := by
    clear h1 e1
    induction m with
    | nil => rfl
    | cons x m ih =>
      have hx := h2 x (by simp)
      have := ih fun t ht => h2 t (by simp [ht])
      obtain ⟨q, ph⟩ := x
      cases ph <;> simp_all [Phase.live] <;> omega
  have h4 : ∀ P : List Path, ((P.map (·, Phase.done)).map fun t : Path × Phase => t.2.live).sum = 0 := by
    intro P
    induction P with
    | nil => rfl
    | cons x P ih => simpa [Phase.live] using ih
  rw [List.map_append, List.sum_append, h3, h4]
  simp
  omega

theorem tasks_live {pc : Pc I} {t : Path × Phase} (h : t ∈ pc.tasks w) : t.2 ≠ .done := by
  have hc : ∀ (k : Adder) (b : Bool), t ∈ k.current b → t.2 ≠ .done := by
    intro k b h
    cases k <;> cases b <;> simp [Adder.current] at h <;> rw [h] <;> simp
  have ha : ∀ p, afterIns w p ≠ .done := by
    intro p
    unfold afterIns
    split <;> simp
  cases pc <;> simp only [Pc.tasks, List.mem_append, List.mem_singleton, List.not_mem_nil] at h
  case incLock k => rcases h with h | h; exact hc _ _ h; split at h <;> simp at h; rw [h]; simp
  case inc k => rcases h with h | h; exact hc _ _ h; split at h <;> simp at h; rw [h]; simp
  case addNotify k => exact hc _ _ h
  case addUnlock k => exact hc _ _ h
  case findUnlock p b => rw [h]; cases b <;> simp
  case insUnlock p b => rw [h]; cases b <;> simp [ha]
  case dirTest p => rw [h]; simp [ha]
  all_goals first | (rcases h with h | h; exact hc _ _ h; rw [h]; simp) | (rw [h]; simp)

/-- The counter of the scanner is the number of tasks that have not ended. -/
theorem count_tasks {s : State I} {a : Scan I} (hr : Rel w s a) (ha : Tree.Inv w a) :
    s.value + (s.pcs.map Pc.early).sum = s.queue.length + (s.pcs.map fun pc => (pc.tasks w).length).sum := by
  obtain ⟨done, h⟩ := hr.tasks
  have h1 := live_sum a.tasks done ⟨_, h, ?_⟩
  · rw [← hr.counter, ha.counter]
    have h2 := h.length_eq
    simp only [List.length_append, List.length_map, pends, List.length_flatMap] at h2
    omega
  · intro t ht
    rcases List.mem_append.mp ht with ht | ht
    · obtain ⟨q, _, e⟩ := List.mem_map.mp ht
      rw [← e]; simp
    · obtain ⟨pc, _, h3⟩ := List.mem_flatMap.mp ht
      exact tasks_live h3

theorem early_le (pc : Pc I) : pc.early ≤ (pc.tasks w).length := by
  cases pc <;> simp [Pc.early] <;> (rename_i k; cases k <;> simp [Pc.tasks, Adder.isMain, Adder.current])

/-- The counter is not zero when a task is about to decrease it. -/
theorem value_pos {s : State I} {a : Scan I} (hr : Rel w s a) (ha : Tree.Inv w a) {tid : Nat} {p : Path} (hp : s.pcs[tid]? = some (.ctDec p)) : 0 < s.value := by
  have h1 := count_tasks hr ha
  obtain ⟨A, B, e, _⟩ := set_split hp
  rw [e] at h1
  have h2 : ∀ l : List (Pc I), (l.map Pc.early).sum ≤ (l.map fun pc => (pc.tasks w).length).sum := by
    intro l
    induction l with
    | nil => simp
    | cons x l ih => have := early_le (w := w) x; simp only [List.map_cons, List.sum_cons]; omega
  have h3 := h2 A
  have h4 := h2 B
  have h5 : ((Pc.ctDec p : Pc I).tasks w).length = 1 := rfl
  have h6 : (Pc.ctDec p : Pc I).early = 0 := rfl
  simp only [List.map_append, List.map_cons, List.sum_append, List.sum_cons, h5, h6] at h1
  omega

theorem sum_zero {α : Type} (l : List α) (f : α → Nat) (h : ∀ x ∈ l, f x = 0) : (l.map f).sum = 0 := by
  induction l with
  | nil => rfl
  | cons x l ih => simp only [List.map_cons, List.sum_cons, h x (by simp), ih fun y hy => h y (by simp [hy])]

/-- When the task for the start directory has been counted, nothing else is counted in advance. -/
theorem Inv.early {n : Nat} {s : State I} (hi : Inv w n s) {x : Pc I} (hx : s.pcs[0]? = some x) (h : x.early = 0) : (s.pcs.map Pc.early).sum = 0 := by
  refine sum_zero _ _ fun pc hpc => ?_
  obtain ⟨tid, ht⟩ := List.getElem?_of_mem hpc
  by_cases e : tid = 0
  · subst e; rw [hx] at ht; cases ht; exact h
  · have := hi.role tid pc ht
    rw [decide_eq_false e] at this
    cases pc <;> first | rfl | (rename_i k; cases k <;> first | rfl | cases this)

/-! ## Simulation -/

/-- An action is no step of `Scanner.lean`, and the weight decreases, or it is one step. -/
def Sim (w : World I) (s : State I) (a : Scan I) (s' : State I) : Prop :=
  (Rel w s' a ∧ s'.weight < s.weight) ∨ (∃ a', Step w a a' ∧ Rel w s' a' ∧ s'.weight ≤ s.weight + 34)

theorem weight_set {s s' : State I} {tid : Nat} {pc pc' : Pc I} (hp : s.pcs[tid]? = some pc) (hs : s'.pcs = s.pcs.set tid pc') :
    s'.weight + pc.weight + 6 * s.queue.length = s.weight + pc'.weight + 6 * s'.queue.length := by
  unfold State.weight
  have := set_sum hp Pc.weight pc'
  rw [hs]
  omega

theorem Moves.plain {s s' : State I} {tid : Nat} {pc pc' : Pc I} (hp : s.pcs[tid]? = some pc) (ha : pc.sleeps = false) (hs : s'.pcs = s.pcs.set tid pc') : Moves s tid pc pc' s' :=
  ⟨hp, ha, _, .none, hs⟩

/-- Steps that change nothing but the program counter and mutexes. -/
theorem Rel.quietly {s s' : State I} {a : Scan I} (hr : Rel w s a) {tid : Nat} {pc pc' : Pc I} (hm : Moves s tid pc pc' s')
    (hq : s'.queue = s.queue) (hv : s'.value = s.value) (hlo : s'.loads = s.loads) (hf : s'.files = s.files) (he : s'.errlog = s.errlog)
    (ht : pc'.tasks w = pc.tasks w) (hc : pc'.early = pc.early) (hl : pc'.loaded = pc.loaded) (h1 : pc.result = none) (h2 : pc'.result = none) : Rel w s' a :=
  hr.stutter hm (fun x => by rw [hq, ht]) (by rw [hv, hc]) (fun x => by rw [hlo, hl]) (.inr ⟨hf, he, h2⟩) (fun _ _ => ⟨hf, he, h1⟩)

theorem sim_go {n : Nat} {s s' : State I} {a : Scan I} (hi : Inv w n s) (hr : Rel w s a) (ha : Tree.Inv w a) {tid : Nat} {pc : Pc I} (hp : s.pcs[tid]? = some pc) (hg : Go w s tid pc s') :
    Sim w s a s' := by
  cases hg with
  | @acq _ m pc' h1 _ _ =>
    left
    have hm : Moves s tid pc pc' ({ s with owner := setOwner s.owner m (some tid) }.at tid pc') := .plain hp (by cases h1 <;> rfl) rfl
    have hw := weight_set (s' := { s with owner := setOwner s.owner m (some tid) }.at tid pc') hp rfl
    refine ⟨hr.quietly hm rfl rfl rfl rfl rfl ?_ ?_ ?_ ?_ ?_, ?_⟩
    · cases h1 <;> rfl
    · cases h1 <;> rfl
    · cases h1 <;> rfl
    · cases h1 <;> rfl
    · cases h1 <;> rfl
    · simp only [State.at] at hw ⊢
      cases h1
      case inc => simp only [Pc.weight] at hw; split at hw <;> omega
      all_goals simp only [Pc.weight] at hw; omega
  | @rls _ m pc' h1 =>
    left
    have hm : Moves s tid pc pc' (release s m tid pc') := .plain hp (by cases h1 <;> rfl) rfl
    have hw := weight_set (s' := release s m tid pc') hp rfl
    refine ⟨hr.quietly hm rfl rfl rfl rfl rfl ?_ ?_ ?_ ?_ ?_, ?_⟩
    · cases h1 <;> first | rfl | (rename_i k; cases k <;> rfl)
    · cases h1 <;> first | rfl | (rename_i k; cases k <;> rfl)
    · cases h1 <;> first | rfl | (rename_i k; cases k <;> rfl)
    · cases h1 <;> first | rfl | (rename_i k; cases k <;> rfl)
    · cases h1 <;> first | rfl | (rename_i k; cases k <;> rfl)
    · simp only [release, State.at] at hw ⊢
      cases h1
      case add k => cases k <;> simp only [Adder.next, Pc.weight] at hw ⊢ <;> omega
      all_goals simp only [Pc.weight] at hw; omega
  | acqShared p ho =>
    left
    have hm : Moves s tid (.findLock p) (.find p) ({ s with readers := tid :: s.readers }.at tid (.find p)) := .plain hp rfl rfl
    have hw := weight_set (s' := { s with readers := tid :: s.readers }.at tid (.find p)) hp rfl
    refine ⟨hr.quietly hm rfl rfl rfl rfl rfl rfl rfl rfl rfl rfl, ?_⟩
    simp only [State.at, Pc.weight] at hw ⊢
    omega
  | rlsShared p b =>
    left
    cases b
    · have hm : Moves s tid (.findUnlock p false) (.load p) (releaseShared s tid (.load p)) := .plain hp rfl rfl
      have hw := weight_set (s' := releaseShared s tid (.load p)) hp rfl
      refine ⟨hr.quietly hm rfl rfl rfl rfl rfl rfl rfl rfl rfl rfl, ?_⟩
      simp only [releaseShared, State.at, Pc.weight, Bool.false_eq_true, if_false] at hw ⊢
      omega
    · have hm : Moves s tid (.findUnlock p true) (.ctLock p) (releaseShared s tid (.ctLock p)) := .plain hp rfl rfl
      have hw := weight_set (s' := releaseShared s tid (.ctLock p)) hp rfl
      refine ⟨hr.quietly hm rfl rfl rfl rfl rfl rfl rfl rfl rfl rfl, ?_⟩
      simp only [releaseShared, State.at, Pc.weight, if_true] at hw ⊢
      omega
  | @ntf _ pc' pcs hn =>
    left
    have hwo : Woken s.pcs pcs := by cases hn <;> assumption
    have hsl : pc.sleeps = false := by cases hn <;> rfl
    have hm : Moves s tid pc pc' ({ s with pcs := pcs }.at tid pc') := ⟨hp, hsl, pcs, hwo, rfl⟩
    refine ⟨hr.quietly hm rfl rfl rfl rfl rfl ?_ ?_ ?_ ?_ ?_, ?_⟩
    · cases hn <;> rfl
    · cases hn <;> rfl
    · cases hn <;> rfl
    · cases hn <;> rfl
    · cases hn <;> rfl
    · have h1 := woken_weight hwo
      have h2 := set_sum (hwo.keep hp hsl) Pc.weight pc'
      simp only [State.weight, State.at]
      cases hn <;> simp only [Pc.weight] at h2 <;> omega
  | @dat _ pc' s1 hd =>
    have hs1 : s1.pcs = s.pcs := by cases hd <;> rfl
    have hsl : pc.sleeps = false := by cases hd <;> rfl
    have hm : Moves s tid pc pc' (s1.at tid pc') := .plain hp hsl (by simp only [State.at, hs1])
    have hw := weight_set (s' := s1.at tid pc') (pc' := pc') hp (by simp only [State.at, hs1])
    have busy : pc.isMain = false → ¬ pc.Idle → tid ≠ 0 ∧ (∀ x, s.pcs[0]? = some x → x.result = none) ∧ s.files = a.shared.files ∧ s.errlog = a.shared.errlog := by
      intro h1 h2
      have h0 := hi.ne0 hp h1
      have h3 := fun x hx => (hi.busy hp h0 h2 x hx).2
      refine ⟨h0, h3, ?_⟩
      have hl : 0 < s.pcs.length := by rw [hi.len]; omega
      have hx : s.pcs[0]? = some s.pcs[0] := List.getElem?_eq_getElem hl
      exact hr.data _ hx (h3 _ hx)
    cases hd with
    | inc k =>
      cases k with
      | main =>
        left
        have h0 := hi.eq0 hp rfl
        refine ⟨hr.stutter hm (fun x => by simp [Pc.tasks, Adder.isMain, Adder.current, State.at]) (by simp [Pc.early, Adder.isMain, State.at]) (fun x => rfl)
          (.inr ⟨rfl, rfl, rfl⟩) (fun _ _ => ⟨rfl, rfl, rfl⟩), ?_⟩
        simp only [State.at, Pc.weight, Adder.isMain, if_true] at hw ⊢
        omega
      | task p q rest err =>
        right
        obtain ⟨h0, h1, h2, h3⟩ := busy rfl (by simp [Pc.Idle])
        obtain ⟨a', g1, g2⟩ := hr.advance hm (p := p) (ph := .spawning (q :: rest) err) rfl rfl rfl []
          (fun x => by simp [Pc.tasks, Adder.current, Adder.path, pends, List.count_cons, List.count_nil]) (by simp [State.at, Pc.early, Adder.isMain]; omega)
          (fun x => by simp [State.at, Pc.loaded]) h0 ⟨h2, h3⟩ h1
        refine ⟨a', g1, g2, ?_⟩
        simp only [State.at, Pc.weight, Adder.isMain, Bool.false_eq_true, if_false] at hw ⊢
        omega
    | add k =>
      left
      refine ⟨hr.stutter hm (fun x => by simp [Pc.tasks, pends, State.at, List.count_append, List.count_cons]; omega) rfl (fun x => rfl)
          (.inr ⟨rfl, rfl, rfl⟩) (fun _ _ => ⟨rfl, rfl, rfl⟩), ?_⟩
      simp only [State.at, Pc.weight, List.length_append, List.length_singleton] at hw ⊢
      omega
    | pop p q hq =>
      left
      refine ⟨hr.stutter hm (fun x => by simp [Pc.tasks, pends, State.at, hq, List.count_cons]) rfl (fun x => rfl)
          (.inr ⟨rfl, rfl, rfl⟩) (fun _ _ => ⟨rfl, rfl, rfl⟩), ?_⟩
      simp only [State.at, Pc.weight, hq, List.length_cons] at hw ⊢
      omega
    | filterErr p m hl =>
      right
      obtain ⟨h0, h1, h2, h3⟩ := busy rfl (by simp [Pc.Idle])
      obtain ⟨a', g1, g2⟩ := hr.advance hm (p := p) (ph := .pending) (sh := a.shared) (ph' := .failing m) (new := []) (by simp only [Tree.advance, hl]) rfl rfl []
          (fun x => by simp [Pc.tasks, pends]) rfl (fun x => rfl) h0 ⟨h2, h3⟩ h1
      refine ⟨a', g1, g2, ?_⟩
      simp only [State.at, Pc.weight] at hw ⊢
      omega
    | filterOut p hl =>
      right
      obtain ⟨h0, h1, h2, h3⟩ := busy rfl (by simp [Pc.Idle])
      obtain ⟨a', g1, g2⟩ := hr.advance hm (p := p) (ph := .pending) (sh := a.shared) (ph' := .ending) (new := []) (by simp only [Tree.advance, hl]) rfl rfl []
          (fun x => by simp [Pc.tasks, pends]) rfl (fun x => rfl) h0 ⟨h2, h3⟩ h1
      refine ⟨a', g1, g2, ?_⟩
      simp only [State.at, Pc.weight] at hw ⊢
      omega
    | filter p hl =>
      left
      refine ⟨hr.quietly hm rfl rfl rfl rfl rfl rfl rfl rfl rfl rfl, ?_⟩
      simp only [State.at, Pc.weight] at hw ⊢
      omega
    | find p =>
      right
      obtain ⟨h0, h1, h2, h3⟩ := busy rfl (by simp [Pc.Idle])
      have hok : w.leftOut p = .ok false := hi.ok _ _ hp
      obtain ⟨a', g1, g2⟩ := hr.advance hm (p := p) (ph := .pending) (sh := a.shared) (ph' := if (Db.Map.lookup p.normal s.files).isSome then .ending else .checked) (new := [])
          (by simp only [Tree.advance, hok, ← h2]; cases Db.Map.lookup p.normal s.files <;> rfl) rfl rfl []
          (fun x => by simp [Pc.tasks, pends]) rfl (fun x => rfl) h0 ⟨h2, h3⟩ h1
      refine ⟨a', g1, g2, ?_⟩
      simp only [State.at, Pc.weight] at hw ⊢
      omega
    | loadErr p m hl =>
      right
      obtain ⟨h0, h1, h2, h3⟩ := busy rfl (by simp [Pc.Idle])
      obtain ⟨a', g1, g2⟩ := hr.advance hm (p := p) (ph := .checked) (sh := { a.shared with loads := p :: a.shared.loads }) (ph' := .failing m) (new := []) (by simp only [Tree.advance, hl]) rfl rfl []
          (fun x => by simp [Pc.tasks, pends]) rfl (fun x => by simp [Pc.loaded, State.at, List.count_cons]; omega) h0 ⟨h2, h3⟩ h1
      refine ⟨a', g1, g2, ?_⟩
      simp only [State.at, Pc.weight] at hw ⊢
      omega
    | load p i hl =>
      left
      refine ⟨hr.stutter hm (fun x => rfl) rfl (fun x => by simp [Pc.loaded, State.at, List.count_cons])
          (.inr ⟨rfl, rfl, rfl⟩) (fun _ _ => ⟨rfl, rfl, rfl⟩), ?_⟩
      simp only [State.at, Pc.weight] at hw ⊢
      omega
    | insNot p i y hl =>
      right
      obtain ⟨h0, h1, h2, h3⟩ := busy rfl (by simp [Pc.Idle])
      have hok : w.load p = .ok i := hi.ok _ _ hp
      obtain ⟨a', g1, g2⟩ := hr.advance hm (p := p) (ph := .checked) (sh := { a.shared with loads := p :: a.shared.loads }) (ph' := .ending) (new := [])
          (by simp only [Tree.advance, hok, ← h2, hl]) rfl rfl []
          (fun x => by simp [Pc.tasks, pends]) rfl (fun x => by simp [Pc.loaded, State.at, List.count_cons]; omega) h0 ⟨h2, h3⟩ h1
      refine ⟨a', g1, g2, ?_⟩
      simp only [State.at, Pc.weight] at hw ⊢
      omega
    | ins p i hl =>
      right
      obtain ⟨h0, h1, h2, h3⟩ := busy rfl (by simp [Pc.Idle])
      have hok : w.load p = .ok i := hi.ok _ _ hp
      obtain ⟨a', g1, g2⟩ := hr.advance hm (p := p) (ph := .checked) (sh := { a.shared with files := insertNew p.normal i s.files, loads := p :: a.shared.loads }) (ph' := afterIns w p) (new := [])
          (by
            simp only [Tree.advance, hok, ← h2, hl, afterIns]
            cases w.isDir p.normal with
            | error m => rfl
            | ok b => cases b <;> rfl) rfl rfl []
          (fun x => by simp [Pc.tasks, pends]) rfl (fun x => by simp [Pc.loaded, State.at, List.count_cons]; omega) h0 ⟨rfl, h3⟩ h1
      refine ⟨a', g1, g2, ?_⟩
      simp only [State.at, Pc.weight] at hw ⊢
      omega
    | dirErr p m hl =>
      left
      refine ⟨hr.quietly hm rfl rfl rfl rfl rfl (by simp [Pc.tasks, afterIns, hl]) rfl rfl rfl rfl, ?_⟩
      simp only [State.at, Pc.weight] at hw ⊢
      omega
    | dirNot p hl =>
      left
      refine ⟨hr.quietly hm rfl rfl rfl rfl rfl (by simp [Pc.tasks, afterIns, hl]) rfl rfl rfl rfl, ?_⟩
      simp only [State.at, Pc.weight] at hw ⊢
      omega
    | dir p hl =>
      left
      refine ⟨hr.quietly hm rfl rfl rfl rfl rfl (by simp [Pc.tasks, afterIns, hl]) rfl rfl rfl rfl, ?_⟩
      simp only [State.at, Pc.weight] at hw ⊢
      omega
    | spawn p q rest err =>
      left
      refine ⟨hr.quietly hm rfl rfl rfl rfl rfl rfl rfl rfl rfl rfl, ?_⟩
      simp only [State.at, Pc.weight, Adder.isMain, Bool.false_eq_true, if_false] at hw ⊢
      omega
    | spawnEnd p =>
      right
      obtain ⟨h0, h1, h2, h3⟩ := busy rfl (by simp [Pc.Idle])
      obtain ⟨a', g1, g2⟩ := hr.advance hm (p := p) (ph := .spawning [] none) (sh := a.shared) (ph' := .ending) (new := []) rfl rfl rfl []
          (fun x => by simp [Pc.tasks, pends]) rfl (fun x => rfl) h0 ⟨h2, h3⟩ h1
      refine ⟨a', g1, g2, ?_⟩
      simp only [State.at, Pc.weight] at hw ⊢
      omega
    | spawnErr p m =>
      right
      obtain ⟨h0, h1, h2, h3⟩ := busy rfl (by simp [Pc.Idle])
      obtain ⟨a', g1, g2⟩ := hr.advance hm (p := p) (ph := .spawning [] (some m)) (sh := a.shared) (ph' := .failing m) (new := []) rfl rfl rfl []
          (fun x => by simp [Pc.tasks, pends]) rfl (fun x => rfl) h0 ⟨h2, h3⟩ h1
      refine ⟨a', g1, g2, ?_⟩
      simp only [State.at, Pc.weight] at hw ⊢
      omega
    | errPush p m =>
      right
      obtain ⟨h0, h1, h2, h3⟩ := busy rfl (by simp [Pc.Idle])
      obtain ⟨a', g1, g2⟩ := hr.advance hm (p := p) (ph := .failing m) (sh := { a.shared with errlog := m :: a.shared.errlog }) (ph' := .ending) (new := []) rfl rfl rfl []
          (fun x => by simp [Pc.tasks, pends]) rfl (fun x => rfl) h0 ⟨h2, by simp [State.at, h3]⟩ h1
      refine ⟨a', g1, g2, ?_⟩
      simp only [State.at, Pc.weight] at hw ⊢
      omega
    | ctDec p =>
      right
      obtain ⟨h0, h1, h2, h3⟩ := busy rfl (by simp [Pc.Idle])
      have hpos := value_pos hr ha hp
      have hcnt := hr.counter
      obtain ⟨a', g1, g2⟩ := hr.advance hm (p := p) (ph := .ending) (sh := { a.shared with counter := a.shared.counter - 1 }) (ph' := .done) (new := []) rfl rfl rfl [p]
          (fun x => by simp [Pc.tasks, pends]) (by simp [State.at, Pc.early]; omega) (fun x => rfl) h0 ⟨h2, h3⟩ h1
      refine ⟨a', g1, g2, ?_⟩
      simp only [State.at, Pc.weight] at hw ⊢
      omega
    | wTest hv =>
      left
      refine ⟨hr.quietly hm rfl rfl rfl rfl rfl rfl rfl rfl rfl rfl, ?_⟩
      simp only [State.at, Pc.weight] at hw ⊢
      omega
    | readLog hv =>
      left
      refine ⟨hr.quietly hm rfl rfl rfl rfl rfl rfl rfl rfl rfl rfl, ?_⟩
      simp only [State.at, Pc.weight] at hw ⊢
      omega
    | readFiles hv =>
      left
      refine ⟨hr.quietly hm rfl rfl rfl rfl rfl rfl rfl rfl rfl rfl, ?_⟩
      simp only [State.at, Pc.weight] at hw ⊢
      omega
    | takeLog =>
      left
      have h0 := hi.eq0 hp rfl
      subst h0
      refine ⟨hr.stutter hm (fun x => rfl) rfl (fun x => rfl) (.inl ⟨rfl, ?_⟩) (fun _ h => by cases h), ?_⟩
      · intro r hres
        cases hres
        refine ⟨fun hsd => ?_, .inr rfl⟩
        have hc := hr.counter
        rw [hi.early hp rfl, (hi.quiet _ hp rfl).2.1] at hc
        unfold takeResult
        rw [hc, ← hsd.2]
        simp [hi.log hp]
      · simp only [State.at, Pc.weight] at hw ⊢
        omega
    | takeFiles =>
      left
      have h0 := hi.eq0 hp rfl
      subst h0
      refine ⟨hr.stutter hm (fun x => rfl) rfl (fun x => rfl) (.inl ⟨rfl, ?_⟩) (fun _ h => by cases h), ?_⟩
      · intro r hres
        cases hres
        refine ⟨fun hsd => ?_, .inr rfl⟩
        have hc := hr.counter
        rw [hi.early hp rfl, (hi.quiet _ hp rfl).2.1] at hc
        unfold takeResult
        rw [hc, ← hsd.2, ← hsd.1]
        simp [hi.nolog hp]
      · simp only [State.at, Pc.weight] at hw ⊢
        omega
    | drop r =>
      left
      have h0 := hi.eq0 hp rfl
      subst h0
      refine ⟨hr.stutter hm (fun x => rfl) rfl (fun x => rfl) (.inl ⟨rfl, ?_⟩) (fun _ h => by cases h), ?_⟩
      · intro r' hres
        exact ⟨fun _ => hr.result _ _ hp hres, .inl hres⟩
      · simp only [State.at, Pc.weight] at hw ⊢
        omega

end Maike.Tree.Threads
