import Verif.Main.Threads
import Verif.Sched.ThreadStart

/-!
# Runs in which some workers cannot be started (C113)

core/bin/maike.cpp:328: the pool is created before the source directory is scanned. `Main/Threads.lean` has as many workers as the command line asks for; here, there are as many as could be started.
-/

namespace Maike.Main

open Fs Tree Paths
open Maike.Tree.Threads (State Pc Act Reachable Start exec step run wakeUp acquire release notifyPool notifyMain)

/-! ## Model -/

/-- The scan of the source directory has ended with this result, with the workers that could be started. -/
def ScanEndsWith (j : Job) (d : Disk) (outcomes : List Bool) (r : Except Str (List (Path × FileInfo))) : Prop :=
  ∃ t, Reachable (j.world d) (Sched.Start.workers outcomes).length t ∧ t.Ended r

/-! ## Lemmas -/

/-- Where the main thread may be if nobody else does anything, and the value of the counter. -/
def Alone {I : Type} : Pc I → Nat → Prop
  | .incLock .main, v | .inc .main, v => v = 0
  | .incNotify .main, v | .incUnlock .main, v | .addLock .main, v | .add .main, v | .addNotify .main, v | .addUnlock .main, v | .wLock, v | .wTest, v | .wSleep, v => v = 1
  | _, _ => False

theorem alone_step {I : Type} {w : World I} {a : Act} {s s' : State I} {pc : Pc I} (h1 : s.pcs = [pc]) (h2 : Alone pc s.value) (h : step w a s = some s') :
    ∃ pc', s'.pcs = [pc'] ∧ Alone pc' s'.value := by
  obtain ⟨pcs, owner, readers, queue, value, files, errlog, alive, loads⟩ := s
  simp only at h1 h2
  subst h1
  cases a with
  | spurious tid =>
    cases tid with
    | succ k => simp [step, wakeUp] at h
    | zero => cases pc <;> simp_all [step, wakeUp, Alone, State.at] <;> subst h <;> exact ⟨_, rfl, rfl⟩
  | run tid wake =>
    cases tid with
    | succ k => simp [step, run] at h
    | zero =>
      have hacq : ∀ {m : Tree.Threads.Mtx} {t : State I} {q : Pc I} {r : State I}, acquire t m 0 q = some r → r.pcs = t.pcs.set 0 q ∧ r.value = t.value := by
        intro m t q r hr
        unfold acquire at hr
        split at hr
        · split at hr
          · cases hr
          · cases hr; exact ⟨rfl, rfl⟩
        · cases hr
      simp only [step, run, List.getElem?_cons_zero] at h
      cases pc
      case incLock k | addLock k =>
        cases k
        case task => exact h2.elim
        obtain ⟨e1, e2⟩ := hacq h
        exact ⟨_, e1, by rw [e2]; exact h2⟩
      case inc k | incUnlock k | add k | addUnlock k =>
        cases k
        case task => exact h2.elim
        simp only [Alone] at h2
        subst h2
        cases h
        exact ⟨_, rfl, rfl⟩
      case incNotify k =>
        cases k
        case task => exact h2.elim
        cases h
        exact ⟨_, rfl, h2⟩
      case addNotify k =>
        cases k
        case task => exact h2.elim
        obtain ⟨t, ht, rfl⟩ := Option.map_eq_some_iff.mp h
        cases wake with
        | zero =>
          simp [notifyPool, Pc.isAsleep] at ht
          subst ht
          exact ⟨_, rfl, h2⟩
        | succ k =>
          simp [notifyPool, Pc.isAsleep] at ht
          subst ht
          exact ⟨_, rfl, h2⟩
      case wLock =>
        obtain ⟨e1, e2⟩ := hacq h
        exact ⟨_, e1, by rw [e2]; exact h2⟩
      case wTest =>
        simp only [Alone] at h2
        subst h2
        cases h
        exact ⟨_, rfl, rfl⟩
      case wSleep => cases h
      all_goals exact h2.elim

/-! ## Theorems -/

variable {m : Machine} {d : Disk} {args : List Str}

/-- **C113 (no workers).** If no thread can be started, then the scan of the source directory never ends: the program hangs. -/
theorem C113_hangs (j : Job) (d : Disk) {outcomes : List Bool} (h : true ∉ outcomes) (r : Except Str (List (Path × FileInfo))) : ¬ ScanEndsWith j d outcomes r := by
  rintro ⟨t, ⟨s₀, as, h0, hx⟩, he⟩
  rw [Sched.Start.C113_workers, List.length_range, List.count_eq_zero_of_not_mem h] at h0
  have key : ∀ (as : List Act) (s : State FileInfo), (∃ pc, s.pcs = [pc] ∧ Alone pc s.value) → ∀ t, exec (j.world d) as s = some t → ∃ pc, t.pcs = [pc] ∧ Alone pc t.value := by
    intro as
    induction as with
    | nil =>
      intro s hs t ht
      cases ht
      exact hs
    | cons a as ih =>
      intro s hs t ht
      simp only [exec] at ht
      split at ht
      · next s' hs' =>
        obtain ⟨pc, g1, g2⟩ := hs
        exact ih s' (alone_step g1 g2 hs') t ht
      · cases ht
  obtain ⟨pc, g1, g2⟩ := key as s₀ (by
    have hl := h0.threads
    have hm := h0.main
    cases hp : s₀.pcs with
    | nil => rw [hp] at hl; cases hl
    | cons x xs =>
      rw [hp] at hl hm
      cases xs with
      | cons y ys => simp at hl
      | nil =>
        simp only [List.getElem?_cons_zero, Option.some.injEq] at hm
        subst hm
        exact ⟨_, rfl, h0.value⟩) t hx
  unfold State.Ended at he
  rw [g1] at he
  cases he
  exact g2

/-- **C113 (fewer workers).** As long as one thread can be started, the scan ends, and it finds the same files as if all threads had been started. -/
theorem C113_same_files (hd : d.Ok) (hfin : d.Finite) {s : Settings} (hplan : plan m d args = .run s) {outcomes : List Bool} (h : true ∈ outcomes) :
    (∃ r, ScanEndsWith s.job d outcomes r) ∧ (∀ files, ScanEndsWith s.job d outcomes (.ok files) ↔ ScanEnds s.job d (.ok files)) ∧
    ((∃ e, ScanEndsWith s.job d outcomes (.error e)) ↔ ∃ e, ScanEnds s.job d (.error e)) := by
  have hn : 0 < (Sched.Start.workers outcomes).length := by
    rw [Sched.Start.C113_workers, List.length_range]
    exact List.count_pos_iff.mpr h
  have hw := world_ok_of hd hplan
  obtain ⟨k, hh⟩ := height_of_finite hd hfin (plan_sourceDir hplan)
  have hex : ∃ r, ScanEndsWith s.job d outcomes r := by
    let n := (Sched.Start.workers outcomes).length
    let s₀ : Tree.Threads.State FileInfo :=
      { pcs := .incLock .main :: List.replicate n .lock, owner := fun _ => none, readers := [], queue := [], value := 0, files := [], errlog := [], alive := true, loads := [] }
    have h0 : Tree.Threads.Start n s₀ := by
      refine ⟨by simp [s₀], rfl, ?_, ?_, fun _ _ => rfl, rfl, rfl, rfl, rfl, rfl, rfl, rfl⟩
      · intro tid pc hp
        simp only [s₀, List.getElem?_cons_succ] at hp
        exact .inl (List.eq_of_mem_replicate (List.mem_of_getElem? hp))
      · intro tid
        simp only [s₀, reduceCtorEq, false_iff]
        cases tid with
        | zero => simp
        | succ k => simp [List.getElem?_replicate]
    obtain ⟨as, s', r, g1, g2⟩ := Tree.Threads.C105_ends hw hn hh ⟨s₀, [], h0, rfl⟩
    exact ⟨r, s', ⟨s₀, as, h0, g1⟩, g2⟩
  obtain ⟨r, t, ht, he⟩ := hex
  obtain ⟨r', t', ht', he'⟩ := scan_exists hd hfin hplan
  have hn' := plan_workers hplan
  refine ⟨⟨r, t, ht, he⟩, fun files => ⟨?_, ?_⟩, ?_, ?_⟩
  · rintro ⟨u, hu, hue⟩
    have := Tree.Threads.C105_deterministic hw hn hn' hu ht' hue he' rfl
    exact ⟨t', ht', this ▸ he'⟩
  · rintro ⟨u, hu, hue⟩
    have := Tree.Threads.C105_deterministic hw hn' hn hu ht hue he rfl
    exact ⟨t, ht, this ▸ he⟩
  · rintro ⟨e, u, hu, hue⟩
    obtain ⟨e', rfl⟩ := (Tree.Threads.C105_throws hw hn' ht' he').mpr ((Tree.Threads.C105_throws hw hn hu hue).mp ⟨e, rfl⟩)
    exact ⟨e', t', ht', he'⟩
  · rintro ⟨e, u, hu, hue⟩
    obtain ⟨e', rfl⟩ := (Tree.Threads.C105_throws hw hn ht he).mpr ((Tree.Threads.C105_throws hw hn' hu hue).mp ⟨e, rfl⟩)
    exact ⟨e', t, ht, he⟩

end Maike.Main
