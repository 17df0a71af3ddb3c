import Verif.Tree.ScanThreadSim

/-! # The directory scanner, one operation at a time: who is woken up, and what is left at the end -/

namespace Maike.Tree.Threads

open Fs Paths

variable {I : Type} {w : World I}

theorem Inv.main {n : Nat} {s : State I} (hi : Inv w n s) : ∃ x, s.pcs[0]? = some x :=
  ⟨_, List.getElem?_eq_getElem (by rw [hi.len]; omega)⟩

/-- When `wait(0)` finds that the counter is zero, all workers are idle, and there are no tasks. -/
theorem quiet_of_zero {n : Nat} {s : State I} {a : Scan I} (hi : Inv w n s) (hr : Rel w s a) (ha : Tree.Inv w a) (hp : s.pcs[0]? = some .wTest) (hv : s.value = 0) :
    s.queue = [] ∧ ∀ tid pc, tid ≠ 0 → s.pcs[tid]? = some pc → pc.Idle := by
  have hc := count_tasks hr ha
  rw [hi.early hp rfl, hv] at hc
  refine ⟨List.length_eq_zero_iff.mp (by omega), fun tid pc h0 hpc => ?_⟩
  obtain ⟨A, B, e, _⟩ := set_split hpc
  rw [e] at hc
  simp only [List.map_append, List.map_cons, List.sum_append, List.sum_cons] at hc
  have ht : (pc.tasks w).length = 0 := by omega
  have hro := hi.role tid pc hpc
  rw [decide_eq_false h0] at hro
  have hh : pc.holds ≠ some .counter := fun h => h0 (hi.own.unique hpc hp h rfl)
  cases pc <;> first
    | exact .inl rfl
    | exact .inr (.inl rfl)
    | exact .inr (.inr rfl)
    | exact absurd rfl hh
    | exact Bool.noConfusion hro
    | exact absurd ht (Nat.succ_ne_zero _)
    | (rename_i k; cases k <;> first | exact Bool.noConfusion hro | exact absurd ht (Nat.succ_ne_zero _))

/-- The state of another thread after an action. -/
theorem Moves.get {s s' : State I} {tid : Nat} {pc pc' : Pc I} (h : Moves s tid pc pc' s') {i : Nat} {x : Pc I} (hx : s'.pcs[i]? = some x) :
    (i = tid ∧ x = pc') ∨ (i ≠ tid ∧ ∃ y, s.pcs[i]? = some y ∧ Roused y x) := by
  obtain ⟨pcs, g1, g2⟩ := h.pcs
  rw [g2, get_set (g1.keep h.here h.awake)] at hx
  split at hx
  · rename_i e; cases hx; exact .inl ⟨e, rfl⟩
  · rename_i e; exact .inr ⟨e, g1.get hx⟩

theorem Moves.self {s s' : State I} {tid : Nat} {pc pc' : Pc I} (h : Moves s tid pc pc' s') : s'.pcs[tid]? = some pc' := by
  obtain ⟨pcs, g1, g2⟩ := h.pcs
  rw [g2, get_set (g1.keep h.here h.awake), if_pos rfl]

theorem Moves.other {s s' : State I} {tid : Nat} {pc pc' : Pc I} (h : Moves s tid pc pc' s') {i : Nat} {y : Pc I} (hi : i ≠ tid) (hy : s.pcs[i]? = some y) :
    ∃ x, s'.pcs[i]? = some x ∧ Roused y x := by
  obtain ⟨pcs, g1, g2⟩ := h.pcs
  rw [g2, get_set (g1.keep h.here h.awake), if_neg hi]
  exact g1.up hy

theorem Locks.woken {s s' : State I} {tid : Nat} {pc pc' : Pc I} (h : Locks s tid pc pc' s') (pcs : List (Pc I)) : Locks { s with pcs := pcs } tid pc pc' s' := by
  cases h with
  | keep h1 h2 h3 h4 => exact .keep h1 h2 h3 h4
  | acq m h1 h2 h3 h4 h5 h6 h7 h8 => exact .acq m h1 h2 h3 h4 h5 h6 h7 h8
  | rls m h1 h2 h3 h4 h5 h6 => exact .rls m h1 h2 h3 h4 h5 h6
  | acqShared h1 h2 h3 h4 h5 h6 h7 => exact .acqShared h1 h2 h3 h4 h5 h6 h7
  | rlsShared h1 h2 h3 h4 h5 h6 => exact .rlsShared h1 h2 h3 h4 h5 h6

/-- What the actions do with the data. -/
inductive Data (s : State I) (pc pc' : Pc I) (s' : State I) : Prop
  | same : pc'.final = pc.final ∨ (pc = .wTest ∧ s.value = 0) → pc' ≠ .takeLog → pc' ≠ .takeFiles → (∀ r, pc' ≠ .finished r) → (∀ r, pc ≠ .finished r) → (∀ k, pc ≠ .addNotify k) → pc ≠ .ctNotify →
      (pc' = .wSleep → s.value ≠ 0) → (pc' = .asleep → s.queue = []) →
      s'.queue = s.queue → s'.value = s.value → s'.errlog = s.errlog → s'.alive = s.alive → Data s pc pc' s'
  | inc (k) : pc = .inc k → pc' = .incNotify k → s'.queue = s.queue → s'.value = s.value + 1 → s'.errlog = s.errlog → s'.alive = s.alive → Data s pc pc' s'
  | add (k) : pc = .add k → pc' = .addNotify k → s'.value = s.value → s'.errlog = s.errlog → s'.alive = s.alive → Data s pc pc' s'
  | pop (p q) : pc = .test → pc' = .unlock p → s.queue = p :: q → s'.queue = q → s'.value = s.value → s'.errlog = s.errlog → s'.alive = s.alive → Data s pc pc' s'
  | push (p m) : pc = .errPush p m → pc' = .errUnlock p → s'.queue = s.queue → s'.value = s.value → s'.alive = s.alive → Data s pc pc' s'
  | dec (p) : pc = .ctDec p → pc' = .ctNotify → s'.queue = s.queue → s'.value = s.value - 1 → s'.errlog = s.errlog → s'.alive = s.alive → Data s pc pc' s'
  | readLog : pc = .readLog → (pc' = .takeLog ∧ s.errlog ≠ []) ∨ (pc' = .takeFiles ∧ s.errlog = []) → s'.queue = s.queue → s'.value = s.value → s'.errlog = s.errlog → s'.alive = s.alive → Data s pc pc' s'
  | take (r) : pc = .takeLog ∨ pc = .takeFiles → pc' = .drop r → s'.queue = s.queue → s'.value = s.value → s'.alive = s.alive → Data s pc pc' s'
  | drop (r) : pc = .drop r → pc' = .finished r → s'.queue = s.queue → s'.value = s.value → s'.errlog = s.errlog → s'.alive = false → Data s pc pc' s'
  | addNotify (k) : pc = .addNotify k → pc' = .addUnlock k → (s.pcs.any Pc.isAsleep = true → ∃ i : Nat, s.pcs[i]? = some .asleep ∧ s'.pcs[i]? = some .lock) →
      s'.queue = s.queue → s'.value = s.value → s'.errlog = s.errlog → s'.alive = s.alive → Data s pc pc' s'
  | ctNotify : pc = .ctNotify → pc' = .ctUnlock → (s'.pcs[0]? ≠ some .wSleep) → s'.queue = s.queue → s'.value = s.value → s'.errlog = s.errlog → s'.alive = s.alive → Data s pc pc' s'

theorem Go.data {s s' : State I} {tid : Nat} {pc : Pc I} (hp : s.pcs[tid]? = some pc) (h : Go w s tid pc s') :
    ∃ pc', Moves s tid pc pc' s' ∧ pc'.isMain = pc.isMain ∧ Locks s tid pc pc' s' ∧ (pc.Ok w → pc'.Ok w) ∧ Data s pc pc' s' := by
  cases h with
  | @acq _ m pc' ha ho hr =>
    refine ⟨pc', .plain hp (by cases ha <;> rfl) rfl, by cases ha <;> rfl, .acq m ?_ ?_ ?_ ?_ ho hr rfl rfl, ?_, ?_⟩
    · cases ha <;> rfl
    · cases ha <;> rfl
    · cases ha <;> rfl
    · cases ha <;> rfl
    · cases ha <;> exact id
    · cases ha <;> exact .same (.inl rfl) (by simp) (by simp) (by simp) (by simp) (by simp) (by simp) (by simp) (by simp) rfl rfl rfl rfl
  | @rls _ m pc' ha =>
    refine ⟨pc', .plain hp (by cases ha <;> rfl) rfl, by cases ha <;> first | rfl | (rename_i k; cases k <;> rfl), .rls m ?_ ?_ ?_ ?_ rfl rfl, ?_, ?_⟩
    · cases ha <;> rfl
    · cases ha <;> first | rfl | (rename_i k; cases k <;> rfl)
    · cases ha <;> rfl
    · cases ha <;> first | rfl | (rename_i k; cases k <;> rfl)
    · cases ha <;> first | exact fun _ => trivial | (rename_i k; cases k <;> exact fun _ => trivial)
    · cases ha
      case add k => cases k <;> exact .same (.inl rfl) (by simp [Adder.next]) (by simp [Adder.next]) (by simp [Adder.next]) (by simp) (by simp) (by simp) (by simp [Adder.next]) (by simp [Adder.next]) rfl rfl rfl rfl
      case sleep h => exact .same (.inl rfl) (by simp) (by simp) (by simp) (by simp) (by simp) (by simp) (by simp) (fun _ => h) rfl rfl rfl rfl
      case wSleep h => exact .same (.inl rfl) (by simp) (by simp) (by simp) (by simp) (by simp) (by simp) (fun _ => h) (by simp) rfl rfl rfl rfl
      all_goals exact .same (.inl rfl) (by simp) (by simp) (by simp) (by simp) (by simp) (by simp) (by simp) (by simp) rfl rfl rfl rfl
  | acqShared p ho =>
    exact ⟨_, .plain hp rfl rfl, rfl, .acqShared rfl rfl rfl rfl ho rfl rfl, id, .same (.inl rfl) (by simp) (by simp) (by simp) (by simp) (by simp) (by simp) (by simp) (by simp) rfl rfl rfl rfl⟩
  | rlsShared p b =>
    cases b <;> exact ⟨_, .plain hp rfl rfl, rfl, .rlsShared rfl rfl rfl rfl rfl rfl, fun _ => trivial,
      .same (.inl rfl) (by simp) (by simp) (by simp) (by simp) (by simp) (by simp) (by simp) (by simp) rfl rfl rfl rfl⟩
  | @ntf _ pc' pcs hn =>
    have hwo : Woken s.pcs pcs := by cases hn <;> assumption
    have hsl : pc.sleeps = false := by cases hn <;> rfl
    refine ⟨pc', ⟨hp, hsl, pcs, hwo, rfl⟩, by cases hn <;> rfl, .keep ?_ ?_ rfl rfl, ?_, ?_⟩
    · cases hn <;> rfl
    · cases hn <;> rfl
    · cases hn <;> exact fun _ => trivial
    · have hk := hwo.keep hp hsl
      cases hn with
      | inc k _ h1 h2 h3 => exact .same (.inl rfl) (by simp) (by simp) (by simp) (by simp) (by simp) (by simp) (by simp) (by simp) rfl rfl rfl rfl
      | ct _ h1 h2 =>
        refine .ctNotify rfl rfl ?_ rfl rfl rfl rfl
        simp only [State.at]
        rw [get_set hk]
        split
        · simp
        · intro e; exact h2 _ e rfl
      | add k _ h1 h2 =>
        refine .addNotify k rfl rfl ?_ rfl rfl rfl rfl
        intro h
        obtain ⟨i, g1, g2⟩ := h2 h
        refine ⟨i, g1, ?_⟩
        simp only [State.at]
        rw [get_set hk, if_neg, g2]
        intro e
        rw [e, hp] at g1
        cases g1
  | @dat _ pc' s1 hd =>
    have hs1 : s1.pcs = s.pcs := by cases hd <;> rfl
    refine ⟨pc', .plain hp (by cases hd <;> rfl) (by simp only [State.at, hs1]), by cases hd <;> rfl, .keep ?_ ?_ ?_ ?_, ?_, ?_⟩
    · cases hd <;> rfl
    · cases hd <;> rfl
    · cases hd <;> rfl
    · cases hd <;> rfl
    · cases hd
      case filter h => exact fun _ => h
      case load h => exact fun _ => h
      all_goals exact fun _ => trivial
    · cases hd
      case inc k => exact .inc k rfl rfl rfl rfl rfl rfl
      case add k => exact .add k rfl rfl rfl rfl rfl
      case pop p q h => exact .pop p q rfl rfl h rfl rfl rfl rfl
      case errPush p m => exact .push p m rfl rfl rfl rfl rfl
      case ctDec p => exact .dec p rfl rfl rfl rfl rfl rfl
      case readLog h => exact .readLog rfl (.inl ⟨rfl, h⟩) rfl rfl rfl rfl
      case readFiles h => exact .readLog rfl (.inr ⟨rfl, h⟩) rfl rfl rfl rfl
      case takeLog => exact .take _ (.inl rfl) rfl rfl rfl rfl
      case takeFiles => exact .take _ (.inr rfl) rfl rfl rfl rfl
      case drop r => exact .drop r rfl rfl rfl rfl rfl rfl
      case wTest h => exact .same (.inr ⟨rfl, h⟩) (by simp) (by simp) (by simp) (by simp) (by simp) (by simp) (by simp) (by simp) rfl rfl rfl rfl
      all_goals exact .same (.inl rfl) (by simp) (by simp) (by simp) (by simp) (by simp) (by simp) (by simp) (by simp) rfl rfl rfl rfl

theorem roused_eq {x y : Pc I} (h : Roused x y) (hy : y ≠ .lock) (hy' : y ≠ .wLock) : x = y := by
  cases h with
  | same => rfl
  | worker => exact absurd rfl hy
  | main => exact absurd rfl hy'

theorem roused_final {x y : Pc I} (h : Roused x y) : y.final = x.final := by cases h <;> rfl

theorem roused_idle {x y : Pc I} (h : Roused x y) (hx : x.Idle) : y.Idle := by
  cases h with
  | same => exact hx
  | worker => exact .inl rfl
  | main => rcases hx with h | h | h <;> cases h

theorem Inv.go {n : Nat} (hn : 0 < n) {s s' : State I} {a : Scan I} (hi : Inv w n s) (hr : Rel w s a) (ha : Tree.Inv w a) {tid : Nat} {pc : Pc I} (hp : s.pcs[tid]? = some pc)
    (hg : Go w s tid pc s') : Inv w n s' := by
  obtain ⟨pc', hm, hro, hl, hok, hd⟩ := hg.data hp
  obtain ⟨pcs, hw, hs⟩ := hm.pcs
  have hk := hw.keep hp hm.awake
  -- an action of another thread when the main thread is at the end
  have idle : tid ≠ 0 → ∀ y, s.pcs[0]? = some y → y.final = true → pc.Idle := fun h0 y hy hf => (hi.quiet y hy hf).2.2 tid pc h0 hp
  have isame : tid ≠ 0 → ∀ y, s.pcs[0]? = some y → y.final = true → s'.queue = s.queue ∧ s'.value = s.value ∧ s'.errlog = s.errlog ∧ pc'.Idle := by
    intro h0 y hy hf
    have hq := (hi.quiet y hy hf).1
    have hidle : pc'.Idle ∨ ∃ p q, s.queue = p :: q := by
      rcases idle h0 y hy hf with rfl | rfl | rfl
      · cases hg with
        | acq h => cases h; have := hm.self; simp only [State.at] at this; rw [get_set hp, if_pos rfl] at this; cases this; exact .inl (.inr (.inl rfl))
        | rls h => cases h
        | dat h => cases h
        | ntf h => cases h
      · cases hg with
        | acq h => cases h
        | rls h => cases h; have := hm.self; simp only [release, State.at] at this; rw [get_set hp, if_pos rfl] at this; cases this; exact .inl (.inr (.inr rfl))
        | dat h => cases h; rename_i p q h; exact .inr ⟨p, q, h⟩
        | ntf h => cases h
      · cases hg with
        | acq h => cases h
        | rls h => cases h
        | dat h => cases h
        | ntf h => cases h
    have hidle : pc'.Idle := by
      rcases hidle with h | ⟨p, q, h⟩
      · exact h
      · rw [hq] at h; cases h
    have hid := idle h0 y hy hf
    cases hd with
    | same _ _ _ _ _ _ _ _ _ h1 h2 h3 h4 => exact ⟨h1, h2, h3, hidle⟩
    | inc k h => rw [h] at hid; rcases hid with h | h | h <;> cases h
    | add k h => rw [h] at hid; rcases hid with h | h | h <;> cases h
    | pop p q h1 h2 h3 => rw [hq] at h3; cases h3
    | push p m h => rw [h] at hid; rcases hid with h | h | h <;> cases h
    | dec p h => rw [h] at hid; rcases hid with h | h | h <;> cases h
    | readLog h => rw [h] at hid; rcases hid with h | h | h <;> cases h
    | take r h => rcases h with h | h <;> rw [h] at hid <;> rcases hid with h | h | h <;> cases h
    | drop r h => rw [h] at hid; rcases hid with h | h | h <;> cases h
    | addNotify k h => rw [h] at hid; rcases hid with h | h | h <;> cases h
    | ctNotify h => rw [h] at hid; rcases hid with h | h | h <;> cases h
  refine ⟨?_, ?_, ?_, ?_, ?_, ?_, ?_, ?_, ?_, ?_⟩
  · rw [hs, List.length_set, hw.length]; exact hi.len
  · exact Own.move (s := { s with pcs := pcs }) (hw.own hi.own) hk hs (hl.woken pcs)
  · intro i x hx
    rcases hm.get hx with ⟨rfl, rfl⟩ | ⟨_, y, hy, h⟩
    · rw [hro]; exact hi.role _ _ hp
    · rw [(roused_holds h).2.2]; exact hi.role _ _ hy
  · intro i x hx
    rcases hm.get hx with ⟨rfl, rfl⟩ | ⟨_, y, hy, h⟩
    · exact hok (hi.ok _ _ hp)
    · cases h with
      | same => exact hi.ok _ _ hy
      | worker => trivial
      | main => trivial
  · -- quiet
    intro x hx hf
    rcases hm.get hx with ⟨e, rfl⟩ | ⟨e, y, hy, h⟩
    · subst e
      have others : (∀ tid pc, tid ≠ 0 → s.pcs[tid]? = some pc → pc.Idle) → ∀ tid pc, tid ≠ 0 → s'.pcs[tid]? = some pc → pc.Idle := by
        intro hall i z h0 hz
        rcases hm.get hz with ⟨e, _⟩ | ⟨_, y, hy, h⟩
        · exact absurd e h0
        · exact roused_idle h (hall i y h0 hy)
      have keep : pc.final = true → s'.queue = s.queue → s'.value = s.value → s'.queue = [] ∧ s'.value = 0 ∧ ∀ tid pc, tid ≠ 0 → s'.pcs[tid]? = some pc → pc.Idle := by
        intro h1 h2 h3
        obtain ⟨g1, g2, g3⟩ := hi.quiet _ hp h1
        exact ⟨by rw [h2, g1], by rw [h3, g2], others g3⟩
      cases hd with
      | same h0 _ _ _ _ _ _ _ _ h1 h2 h3 h4 =>
        rcases h0 with h0 | ⟨h0, hv⟩
        · exact keep (by rw [← h0, hf]) h1 h2
        · subst h0
          obtain ⟨g1, g2⟩ := quiet_of_zero hi hr ha hp hv
          exact ⟨by rw [h1, g1], by rw [h2, hv], others g2⟩
      | inc k h1 h2 => rw [h2] at hf; cases hf
      | add k h1 h2 => rw [h2] at hf; cases hf
      | pop p q h1 h2 h3 => rw [h2] at hf; cases hf
      | push p m h1 h2 => rw [h2] at hf; cases hf
      | dec p h1 h2 => rw [h2] at hf; cases hf
      | readLog h1 h2 h3 h4 => exact keep (by rw [h1]; rfl) h3 h4
      | take r h1 h2 h3 h4 => exact keep (by rcases h1 with h1 | h1 <;> rw [h1] <;> rfl) h3 h4
      | drop r h1 h2 h3 h4 => exact keep (by rw [h1]; rfl) h3 h4
      | addNotify k h1 h2 => rw [h2] at hf; cases hf
      | ctNotify h1 h2 => rw [h2] at hf; cases hf
    · rw [roused_final h] at hf
      obtain ⟨g1, g2, g3⟩ := hi.quiet _ hy hf
      obtain ⟨k1, k2, _, k4⟩ := isame (fun h => e h.symm) y hy hf
      refine ⟨by rw [k1, g1], by rw [k2, g2], fun i z h0 hz => ?_⟩
      rcases hm.get hz with ⟨_, rfl⟩ | ⟨_, y, hy, h⟩
      · exact k4
      · exact roused_idle h (g3 i y h0 hy)
  · -- log
    intro hx
    rcases hm.get hx with ⟨e, he⟩ | ⟨e, y, hy, h⟩
    · cases hd with
      | same _ h _ => exact absurd he.symm h
      | inc k h1 h2 => rw [h2] at he; cases he
      | add k h1 h2 => rw [h2] at he; cases he
      | pop p q h1 h2 h3 => rw [h2] at he; cases he
      | push p m h1 h2 => rw [h2] at he; cases he
      | dec p h1 h2 => rw [h2] at he; cases he
      | readLog h1 h2 h3 h4 h5 =>
        rw [h5]
        rcases h2 with ⟨_, h2⟩ | ⟨h2, _⟩
        · exact h2
        · rw [h2] at he; cases he
      | take r h1 h2 => rw [h2] at he; cases he
      | drop r h1 h2 => rw [h2] at he; cases he
      | addNotify k h1 h2 => rw [h2] at he; cases he
      | ctNotify h1 h2 => rw [h2] at he; cases he
    · have := roused_eq h (by simp) (by simp)
      subst this
      rw [(isame (fun h => e h.symm) _ hy rfl).2.2.1]
      exact hi.log hy
  · -- nolog
    intro hx
    rcases hm.get hx with ⟨e, he⟩ | ⟨e, y, hy, h⟩
    · cases hd with
      | same _ _ h => exact absurd he.symm h
      | inc k h1 h2 => rw [h2] at he; cases he
      | add k h1 h2 => rw [h2] at he; cases he
      | pop p q h1 h2 h3 => rw [h2] at he; cases he
      | push p m h1 h2 => rw [h2] at he; cases he
      | dec p h1 h2 => rw [h2] at he; cases he
      | readLog h1 h2 h3 h4 h5 =>
        rw [h5]
        rcases h2 with ⟨h2, _⟩ | ⟨_, h2⟩
        · rw [h2] at he; cases he
        · exact h2
      | take r h1 h2 => rw [h2] at he; cases he
      | drop r h1 h2 => rw [h2] at he; cases he
      | addNotify k h1 h2 => rw [h2] at he; cases he
      | ctNotify h1 h2 => rw [h2] at he; cases he
    · have := roused_eq h (by simp) (by simp)
      subst this
      rw [(isame (fun h => e h.symm) _ hy rfl).2.2.1]
      exact hi.nolog hy
  · -- alive
    have keep : s'.alive = s.alive → (∀ r, pc ≠ .finished r) → (∀ r, pc' ≠ .finished r) → (s'.alive = false ↔ ∃ r, s'.pcs[0]? = some (.finished r)) := by
      intro h1 h2 h3
      rw [h1, hi.alive]
      constructor
      · rintro ⟨r, hx⟩
        have e : 0 ≠ tid := fun e => h2 r (by rw [← e, hx] at hp; exact (Option.some.inj hp).symm)
        obtain ⟨x, g1, g2⟩ := hm.other e hx
        cases g2
        exact ⟨r, g1⟩
      · rintro ⟨r, hx⟩
        rcases hm.get hx with ⟨e, he⟩ | ⟨e, y, hy, h⟩
        · exact absurd he.symm (h3 r)
        · exact ⟨r, (roused_eq h (by simp) (by simp)) ▸ hy⟩
    cases hd with
    | same _ _ _ g1 g2 _ _ _ _ h1 h2 h3 h4 => exact keep h4 g2 g1
    | inc k h1 h2 _ _ _ h3 => exact keep h3 (by simp [h1]) (by simp [h2])
    | add k h1 h2 _ _ h3 => exact keep h3 (by simp [h1]) (by simp [h2])
    | pop p q h1 h2 _ _ _ _ h3 => exact keep h3 (by simp [h1]) (by simp [h2])
    | push p m h1 h2 _ _ h3 => exact keep h3 (by simp [h1]) (by simp [h2])
    | dec p h1 h2 _ _ _ h3 => exact keep h3 (by simp [h1]) (by simp [h2])
    | readLog h1 h2 _ _ _ h3 => exact keep h3 (by simp [h1]) (by rcases h2 with ⟨h2, _⟩ | ⟨h2, _⟩ <;> simp [h2])
    | take r h1 h2 _ _ h3 => exact keep h3 (by rcases h1 with h1 | h1 <;> simp [h1]) (by simp [h2])
    | drop r h1 h2 _ _ _ h3 =>
      rw [h3]
      have h0 := hi.eq0 hp (by rw [h1]; rfl)
      subst h0
      exact ⟨fun _ => ⟨r, by rw [hm.self, h2]⟩, fun _ => rfl⟩
    | addNotify k h1 h2 _ _ _ _ h3 => exact keep h3 (by simp [h1]) (by simp [h2])
    | ctNotify h1 h2 _ _ _ _ h3 => exact keep h3 (by simp [h1]) (by simp [h2])
  · -- poolWake
    intro hq
    by_cases h0 : tid = 0
    · subst h0
      by_cases hsq : s.queue = []
      · cases hd with
        | same _ _ _ _ _ _ _ _ _ h1 => rw [h1, hsq] at hq; exact absurd rfl hq
        | inc k h1 h2 h3 => rw [h3, hsq] at hq; exact absurd rfl hq
        | add k h1 h2 => exact .inr ⟨k, by rw [hm.self, h2]⟩
        | pop p q h1 h2 h3 => rw [hsq] at h3; cases h3
        | push p m h1 h2 h3 => rw [h3, hsq] at hq; exact absurd rfl hq
        | dec p h1 h2 h3 => rw [h3, hsq] at hq; exact absurd rfl hq
        | readLog h1 h2 h3 => rw [h3, hsq] at hq; exact absurd rfl hq
        | take r h1 h2 h3 => rw [h3, hsq] at hq; exact absurd rfl hq
        | drop r h1 h2 h3 => rw [h3, hsq] at hq; exact absurd rfl hq
        | addNotify k h1 h2 _ h3 => rw [h3, hsq] at hq; exact absurd rfl hq
        | ctNotify h1 h2 _ h3 => rw [h3, hsq] at hq; exact absurd rfl hq
      · rcases hi.poolWake hsq with ⟨i, y, g1, g2, g3⟩ | ⟨k, hk0⟩
        · obtain ⟨x, k1, k2⟩ := hm.other g1 g2
          refine .inl ⟨i, x, g1, k1, ?_⟩
          cases k2 with
          | same => exact g3
          | worker => rfl
          | main => rfl
        · rw [hp] at hk0
          cases hk0
          cases hd with
          | same _ _ _ _ _ h => exact absurd rfl (h k)
          | inc k' h1 => cases h1
          | add k' h1 => cases h1
          | pop p q h1 => cases h1
          | push p m h1 => cases h1
          | dec p h1 => cases h1
          | readLog h1 => cases h1
          | take r h1 => rcases h1 with h1 | h1 <;> cases h1
          | drop r h1 => cases h1
          | ctNotify h1 => cases h1
          | addNotify k' h1 h2 h3 =>
            left
            cases hany : s.pcs.any Pc.isAsleep with
            | true =>
              obtain ⟨i, g1, g2⟩ := h3 hany
              refine ⟨i, .lock, fun e => ?_, g2, rfl⟩
              subst e
              rw [hp] at g1
              cases g1
            | false =>
              have hl : 1 < s.pcs.length := by rw [hi.len]; omega
              have hy : s.pcs[1]? = some s.pcs[1] := List.getElem?_eq_getElem hl
              obtain ⟨x, k1, k2⟩ := hm.other (by omega : 1 ≠ 0) hy
              refine ⟨1, x, by omega, k1, ?_⟩
              have hne : s.pcs[1].isAsleep = false := by
                have := List.any_eq_false.mp hany s.pcs[1] (List.getElem_mem _)
                simpa using this
              generalize s.pcs[1] = y at k2 hne
              cases k2 with
              | same => exact hne
              | worker => rfl
              | main => rfl
    · left
      refine ⟨tid, pc', h0, hm.self, ?_⟩
      cases hd with
      | same _ _ _ _ _ _ _ _ h h1 =>
        cases hpc : pc'.isAsleep with
        | false => rfl
        | true =>
          have : pc' = .asleep := by cases pc' <;> first | rfl | cases hpc
          rw [h1, h this] at hq
          exact absurd rfl hq
      | inc k h1 h2 => rw [h2]; rfl
      | add k h1 h2 => rw [h2]; rfl
      | pop p q h1 h2 => rw [h2]; rfl
      | push p m h1 h2 => rw [h2]; rfl
      | dec p h1 h2 => rw [h2]; rfl
      | readLog h1 h2 => rcases h2 with ⟨h2, _⟩ | ⟨h2, _⟩ <;> rw [h2] <;> rfl
      | take r h1 h2 => rw [h2]; rfl
      | drop r h1 h2 => rw [h2]; rfl
      | addNotify k h1 h2 => rw [h2]; rfl
      | ctNotify h1 h2 => rw [h2]; rfl
  · -- ctWake
    intro hx
    rcases hm.get hx with ⟨e, he⟩ | ⟨e, y, hy, h⟩
    · left
      cases hd with
      | same _ _ _ _ _ _ _ h _ _ h2 => rw [h2]; exact h he.symm
      | inc k h1 h2 => rw [h2] at he; cases he
      | add k h1 h2 => rw [h2] at he; cases he
      | pop p q h1 h2 h3 => rw [h2] at he; cases he
      | push p m h1 h2 => rw [h2] at he; cases he
      | dec p h1 h2 => rw [h2] at he; cases he
      | readLog h1 h2 => rcases h2 with ⟨h2, _⟩ | ⟨h2, _⟩ <;> rw [h2] at he <;> cases he
      | take r h1 h2 => rw [h2] at he; cases he
      | drop r h1 h2 => rw [h2] at he; cases he
      | addNotify k h1 h2 => rw [h2] at he; cases he
      | ctNotify h1 h2 => rw [h2] at he; cases he
    · have := roused_eq h (by simp) (by simp)
      subst this
      have keep : s'.value = s.value → pc ≠ .ctNotify → s'.value ≠ 0 ∨ ∃ tid : Nat, s'.pcs[tid]? = some .ctNotify := by
        intro h1 h2
        rcases hi.ctWake hy with g | ⟨i, g⟩
        · exact .inl (by rw [h1]; exact g)
        · have hne : i ≠ tid := fun e => h2 (by rw [e, hp] at g; exact Option.some.inj g)
          obtain ⟨z, k1, k2⟩ := hm.other hne g
          cases k2
          exact .inr ⟨i, k1⟩
      cases hd with
      | same _ _ _ _ _ _ g _ _ _ h2 => exact keep h2 g
      | inc k h1 h2 _ h4 => exact .inl (by omega)
      | add k h1 h2 h3 => exact keep h3 (by simp [h1])
      | pop p q h1 h2 h3 h4 h5 => exact keep h5 (by simp [h1])
      | push p m h1 h2 h3 h4 => exact keep h4 (by simp [h1])
      | dec p h1 h2 => exact .inr ⟨tid, by rw [hm.self, h2]⟩
      | readLog h1 h2 h3 h4 => exact keep h4 (by simp [h1])
      | take r h1 h2 h3 h4 => exact keep h4 (by rcases h1 with h1 | h1 <;> simp [h1])
      | drop r h1 h2 h3 h4 => exact keep h4 (by simp [h1])
      | addNotify k h1 h2 h3 h4 h5 => exact keep h5 (by simp [h1])
      | ctNotify h1 h2 h3 => exact absurd hx h3

/-! ## Waking up without a reason -/

theorem wakeUp_woken {s s' : State I} {tid : Nat} (h : wakeUp tid s = some s') (h0 : ∀ pc, s.pcs[tid]? = some pc → pc.isMain = decide (tid = 0)) :
    ∃ pcs, Woken s.pcs pcs ∧ s' = { s with pcs := pcs } := by
  unfold wakeUp at h
  split at h
  · rename_i hp
    cases h
    exact ⟨_, .worker tid hp, rfl⟩
  · rename_i hp
    cases h
    have := h0 _ hp
    have e : tid = 0 := by simpa [Pc.isMain] using this
    subst e
    exact ⟨_, .main hp, rfl⟩
  · cases h

theorem Inv.woken {n : Nat} {s : State I} (hi : Inv w n s) {pcs : List (Pc I)} (hw : Woken s.pcs pcs) : Inv w n { s with pcs := pcs } := by
  refine ⟨by simpa [hw.length] using hi.len, hw.own hi.own, ?_, ?_, ?_, ?_, ?_, ?_, ?_, ?_⟩
  · intro i x hx
    obtain ⟨y, hy, h⟩ := hw.get hx
    rw [(roused_holds h).2.2]; exact hi.role _ _ hy
  · intro i x hx
    obtain ⟨y, hy, h⟩ := hw.get hx
    cases h with
    | same => exact hi.ok _ _ hy
    | worker => trivial
    | main => trivial
  · intro x hx hf
    obtain ⟨y, hy, h⟩ := hw.get hx
    rw [roused_final h] at hf
    obtain ⟨g1, g2, g3⟩ := hi.quiet _ hy hf
    refine ⟨g1, g2, fun i z h0 hz => ?_⟩
    obtain ⟨y, hy, h⟩ := hw.get hz
    exact roused_idle h (g3 i y h0 hy)
  · intro hx
    obtain ⟨y, hy, h⟩ := hw.get hx
    exact hi.log ((roused_eq h (by simp) (by simp)) ▸ hy)
  · intro hx
    obtain ⟨y, hy, h⟩ := hw.get hx
    exact hi.nolog ((roused_eq h (by simp) (by simp)) ▸ hy)
  · rw [show ({ s with pcs := pcs } : State I).alive = s.alive from rfl, hi.alive]
    constructor
    · rintro ⟨r, hx⟩
      exact ⟨r, hw.keep hx rfl⟩
    · rintro ⟨r, hx⟩
      obtain ⟨y, hy, h⟩ := hw.get hx
      exact ⟨r, (roused_eq h (by simp) (by simp)) ▸ hy⟩
  · intro hq
    rcases hi.poolWake hq with ⟨i, y, g1, g2, g3⟩ | ⟨k, g⟩
    · obtain ⟨x, k1, k2⟩ := hw.up g2
      refine .inl ⟨i, x, g1, k1, ?_⟩
      cases k2 with
      | same => exact g3
      | worker => rfl
      | main => rfl
    · exact .inr ⟨k, hw.keep g rfl⟩
  · intro hx
    obtain ⟨y, hy, h⟩ := hw.get hx
    have := roused_eq h (by simp) (by simp)
    subst this
    rcases hi.ctWake hy with g | ⟨i, g⟩
    · exact .inl g
    · exact .inr ⟨i, hw.keep g rfl⟩

theorem Rel.woken {s : State I} {a : Scan I} (hr : Rel w s a) {pcs : List (Pc I)} (hw : Woken s.pcs pcs) : Rel w { s with pcs := pcs } a := by
  refine ⟨?_, ?_, ?_, ?_, ?_⟩
  · simp only [hw.flatMap (Pc.tasks w) rfl rfl]; exact hr.tasks
  · simp only [hw.sum Pc.early rfl rfl]; exact hr.counter
  · simp only [hw.flatMap Pc.loaded rfl rfl]; exact hr.loads
  · intro x hx hn
    obtain ⟨y, hy, h⟩ := hw.get hx
    exact hr.data y hy (by rw [← roused_result h, hn])
  · intro x r hx hn
    obtain ⟨y, hy, h⟩ := hw.get hx
    exact hr.result y r hy (by rw [← roused_result h, hn])

end Maike.Tree.Threads
