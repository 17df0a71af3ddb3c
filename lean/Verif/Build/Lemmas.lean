import Verif.Build.Theorems

/-! # Lemmas about builds -/

set_option linter.unusedSectionVars false

namespace Maike.TaskList

theorem exec_append {j : Job} {as bs : List Act} {s s' s'' : State} (h1 : exec j as s = some s')
    (h2 : exec j bs s' = some s'') : exec j (as ++ bs) s = some s'' := by
  induction as generalizing s with
  | nil => simp [exec] at h1; subst h1; exact h2
  | cons a as ih =>
    simp only [exec, List.cons_append] at h1 ⊢
    split at h1
    · exact ih h1
    · cases h1

theorem Reachable.step {j : Job} {a : Act} {s s' : State} (h : Reachable j s)
    (hs : TaskList.step j a s = some s') : Reachable j s' := by
  obtain ⟨as, has⟩ := h
  exact ⟨as ++ [a], exec_append has (by simp [exec, hs])⟩

theorem step_hist {j : Job} {a : Act} {s s' : State} (h : TaskList.step j a s = some s') :
    ∃ e, s'.hist = s.hist ++ e := by
  cases step_Step h <;> first | exact ⟨_, rfl⟩ | exact ⟨[], (List.append_nil _).symm⟩

/-- Where a successful end of a task comes from. -/
theorem step_success {j : Job} {a : Act} {s s' : State} (h : TaskList.step j a s = some s') {t : Nat}
    (hf : .finish t .success ∈ s'.hist) : .finish t .success ∈ s.hist ∨
      ∃ k, a = .work k .success ∧ s.running[k]? = some (t, .body) := by
  cases a with
  | main =>
    left
    simp only [TaskList.step, stepMain] at h
    split at h <;> (try split at h) <;> (try split at h) <;>
      first
        | (cases h; done)
        | (simp only [Option.some.injEq] at h; subst h; simpa [wrap_eq] using hf)
  | take =>
    left
    simp only [TaskList.step, stepTake] at h
    split at h
    · split at h
      · cases h
      · simp only [Option.some.injEq] at h; subst h; simpa using hf
    · cases h
  | work k o =>
    simp only [TaskList.step, stepWork] at h
    split at h
    · cases h
    · rename_i u hk
      split at h <;> simp only [Option.some.injEq] at h <;> subst h <;>
        simp only [List.mem_append, List.mem_singleton] at hf
      · rcases hf with hf | hf
        · exact .inl hf
        · simp at hf; subst hf; exact .inr ⟨k, rfl, hk⟩
      · simp at hf; exact .inl hf
      · simp at hf; exact .inl hf
    · simp only [Option.some.injEq] at h; subst h; exact .inl hf
    · simp only [Option.some.injEq] at h; subst h; exact .inl hf
    · simp only [Option.some.injEq] at h; subst h; exact .inl hf

/-- A task whose body is running has started, has not finished, and is one of the tasks. -/
theorem body_facts {j : Job} (hj : j.Topological) {s : State} (hr : Reachable j s) {k t : Nat}
    (hk : s.running[k]? = some (t, .body)) :
    .start t ∈ s.hist ∧ (∀ o, .finish t o ∉ s.hist) ∧ t ∈ j.tasks := by
  have hi := invA hj hr
  have hmem := List.mem_of_getElem? hk
  have hst := hi.run_starts _ hmem
  refine ⟨mem_starts.mp hst, fun o ho => ?_, ?_⟩
  · exact ((hi.fin_iff t).mp (mem_fins.mpr ⟨o, ho⟩)).2 hmem
  · apply hi.subs_tasks
    rw [hi.fifo]; exact List.mem_append_left _ hst

theorem started_task {j : Job} (hj : j.Topological) {s : State} (hr : Reachable j s) {t : Nat}
    (h : .start t ∈ s.hist) : t ∈ j.tasks := (C16_at_most_once hj hr).2.1 t h

theorem dep_done {j : Job} (hj : j.Topological) {s : State} (hr : Reachable j s) {t d : Nat}
    (h : .start t ∈ s.hist) (hd : d ∈ j.deps t) (hdt : d ∈ j.tasks) : .finish d .success ∈ s.hist := by
  obtain ⟨a, b, hab⟩ := List.append_of_mem h
  have := C15_dependencies_first hj hr hab d hd hdt
  rw [hab]; exact List.mem_append_left _ this

/-- No task waits for itself. -/
theorem not_self_dep {j : Job} (hj : j.Topological) {t : Nat} (ht : t ∈ j.tasks) : t ∉ j.deps t := by
  intro hd
  obtain ⟨a, b, hab⟩ := List.append_of_mem ht
  have h1 := hj.ordered a t b hab t hd ht
  have hn := hj.nodup
  rw [hab] at hn
  exact (List.nodup_append.mp hn).2.2 t h1 t (by simp) rfl

end Maike.TaskList

namespace Maike.Build

open Maike.Db (Dep isExternal)

variable {P : Type} [DecidableEq P]

theorem exec_induction {b : Build P} {Q : State P → Prop}
    (hstep : ∀ s a s', Q s → step b a s = some s' → Q s') {as : List (Act P)} {s s' : State P}
    (h0 : Q s) (h : exec b as s = some s') : Q s' := by
  induction as generalizing s with
  | nil => simp [exec] at h; subst h; exact h0
  | cons a as ih =>
    simp only [exec] at h
    split at h
    · rename_i s1 hs1; exact ih (hstep _ _ _ h0 hs1) h
    · cases h

theorem update_self {α β : Type} [DecidableEq α] (f : α → β) (a : α) (x : β) : update f a x a = x := by
  simp [update]

theorem update_ne {α β : Type} [DecidableEq α] (f : α → β) {a c : α} (x : β) (h : c ≠ a) :
    update f a x c = f c := by simp [update, h]

/-- The cases of a step. -/
theorem step_cases {b : Build P} {a : Act P} {s s' : State P} (h : step b a s = some s') :
    (∃ a' sched', a = .sched a' ∧ allowed b s a' = true ∧ TaskList.step b.job a' s.sched = some sched' ∧
      s' = { s with sched := sched' }) ∨
    (∃ k t, a = .check k ∧ s.sched.running[k]? = some (t, .body) ∧ s.decision t = none ∧
      s' = { s with decision := update s.decision t (some
          (decisionOf (shouldRun s.fs b.force (b.task t)))) }) ∨
    (∃ k t p, a = .write k p ∧ s.sched.running[k]? = some (t, .body) ∧ s.decision t = some .run ∧
      p ∈ (b.task t).targets ∧ s' = { s with
          fs := update s.fs p (some ⟨s.clock, b.kind p⟩)
          clock := if b.fine then s.clock + 1 else s.clock
          written := update s.written t (p :: s.written t) }) ∨
    (∃ p, a = .touchDir p ∧ b.kind p = true ∧ s' = { s with fs := update s.fs p (some ⟨s.clock, true⟩) }) ∨
    (a = .tick ∧ s' = { s with clock := s.clock + 1 }) := by
  unfold step at h
  split at h
  · rename_i a'
    split at h
    · rename_i hal
      split at h
      · rename_i sched' hs
        simp at h; subst h
        exact .inl ⟨a', sched', rfl, hal, hs, rfl⟩
      · cases h
    · cases h
  · rename_i k
    split at h
    · rename_i t hk
      split at h
      · rename_i hd
        simp only [Option.some.injEq] at h; subst h
        exact .inr (.inl ⟨k, t, rfl, hk, hd, rfl⟩)
      · cases h
    · cases h
  · rename_i k p
    split at h
    · rename_i t hk
      split at h
      · rename_i hd
        simp only [Option.some.injEq] at h; subst h
        exact .inr (.inr (.inl ⟨k, t, p, rfl, hk, hd.2.1, hd.2.2, rfl⟩))
      · cases h
    · cases h
  · rename_i p
    split at h
    · rename_i hk
      simp only [Option.some.injEq] at h; subst h
      exact .inr (.inr (.inr (.inl ⟨p, rfl, hk.2, rfl⟩)))
    · cases h
  · simp at h; subst h
    exact .inr (.inr (.inr (.inr ⟨rfl, rfl⟩)))

/-- Files that a task reads, apart from directories. -/
def In (b : Build P) (t : Nat) (q : P) : Prop :=
  b.kind q = false ∧ (q = (b.task t).src ∨ ∃ d ∈ (b.task t).deps, d.name = q ∧ isExternal d.origin = false)

/-- One target is as it should be. -/
def Fresh (b : Build P) (fs : FileSys P) (t : Nat) (p : P) : Prop :=
  Exists fs p ∧ (b.kind p = false → ∀ q, In b t q → StrictlyNewer fs p q)

theorem isDir_kind {b : Build P} {fs : FileSys P} (hk : ∀ p st, fs p = some st → st.dir = b.kind p) {p : P}
    (he : Exists fs p) : isDir fs p = b.kind p := by
  obtain ⟨st, hst⟩ := he
  simp [isDir, hst, hk p st hst]

theorem upToDate_iff_of_dirs {b : Build P} {fs : FileSys P} (hk : ∀ p st, fs p = some st → st.dir = b.kind p) {t : Nat}
    (hdirs : b.kind (b.task t).src = true → ∀ p ∈ (b.task t).targets, b.kind p = true) :
    UpToDate fs (b.task t) ↔ ∀ p ∈ (b.task t).targets, Fresh b fs t p := by
  constructor
  · intro h p hp
    have hex : Exists fs p := by
      by_cases hd : isDir fs p = true
      · unfold isDir at hd
        split at hd
        · cases hd
        · rename_i st hst; exact ⟨st, hst⟩
      · obtain ⟨sp, hsp, _⟩ := h p hp (by simpa using hd) _ (.inl rfl)
        exact ⟨sp, hsp⟩
    refine ⟨hex, fun hkp q hq => ?_⟩
    refine h p hp (by rw [isDir_kind hk hex]; exact hkp) q ?_
    rcases hq.2 with h' | ⟨d, hd, hn, he⟩
    · exact .inl h'
    · refine .inr ⟨d, hd, hn, he, ?_⟩
      by_cases hex' : Exists fs q
      · rw [isDir_kind hk hex']; exact hq.1
      · unfold isDir
        cases hfq : fs q with
        | none => rfl
        | some st => exact absurd ⟨st, hfq⟩ hex'
  · intro h p hp hd q hq
    obtain ⟨hex, hf⟩ := h p hp
    rw [isDir_kind hk hex] at hd
    cases hkq : b.kind q with
    | false =>
      refine hf hd q ⟨hkq, ?_⟩
      rcases hq with h' | ⟨d, hd', hn, he, _⟩
      · exact .inl h'
      · exact .inr ⟨d, hd', hn, he⟩
    | true =>
      rcases hq with rfl | ⟨d, hd', hn, he, hdq⟩
      · rw [hdirs hkq p hp] at hd; cases hd
      · obtain ⟨sp, hsp⟩ := hex
        refine ⟨sp, hsp, fun sq hsq => ?_⟩
        rw [isDir_kind hk ⟨sq, hsq⟩, hkq] at hdq; cases hdq

theorem upToDate_iff {b : Build P} (hb : b.Sane) {fs : FileSys P}
    (hk : ∀ p st, fs p = some st → st.dir = b.kind p) {t : Nat} (ht : t ∈ b.job.tasks) :
    UpToDate fs (b.task t) ↔ ∀ p ∈ (b.task t).targets, Fresh b fs t p :=
  upToDate_iff_of_dirs hk (hb.dirs t ht)

/-- The invariant of a build. -/
structure Inv (b : Build P) (s : State P) : Prop where
  sched : TaskList.Reachable b.job s.sched
  past : ∀ p st, b.kind p = false → s.fs p = some st → st.mtime < s.clock
  kinds : ∀ p st, s.fs p = some st → st.dir = b.kind p
  dstart : ∀ t, s.decision t ≠ none → .start t ∈ s.sched.hist
  wr : ∀ t, ∀ p ∈ s.written t, p ∈ (b.task t).targets ∧ s.decision t = some .run
  skip_ok : ∀ t, s.decision t = some .skip → ∀ p ∈ (b.task t).targets, Fresh b s.fs t p
  run_ok : ∀ t, ∀ p ∈ s.written t, Fresh b s.fs t p
  fin_ok : ∀ t, .finish t .success ∈ s.sched.hist → s.decision t = some .skip ∨
    (s.decision t = some .run ∧ (b.dryrun = true ∨ ∀ p ∈ (b.task t).targets, p ∈ s.written t ∨ (b.kind p = true ∧ Exists s.fs p)))

theorem exists_update {fs : FileSys P} {p p' : P} {st : Stat} (h : Exists fs p) :
    Exists (update fs p' (some st)) p := by
  unfold Exists update
  split
  · exact ⟨st, rfl⟩
  · exact h

/-- Writing a target does not make a target of another task (or another target) out of date. -/
theorem fresh_write {b : Build P} (hb : b.Sane) {s : State P} (hi : Inv b s) {k t₀ t : Nat} {p p' : P}
    (hk : s.sched.running[k]? = some (t₀, .body)) (hp' : p' ∈ (b.task t₀).targets)
    (hst : .start t ∈ s.sched.hist) (hp : p ∈ (b.task t).targets) (hf : p = p' ∨ Fresh b s.fs t p) :
    Fresh b (update s.fs p' (some ⟨s.clock, b.kind p'⟩)) t p := by
  obtain ⟨hst0, hnf, ht0⟩ := TaskList.body_facts hb.topological hi.sched hk
  have ht := TaskList.started_task hb.topological hi.sched hst
  have hq : ∀ q, In b t q → q ≠ p' := by
    rintro q hq rfl
    have hd := hb.waits t ht q hq.2 hq.1 t₀ ht0 hp'
    exact hnf _ (TaskList.dep_done hb.topological hi.sched hst hd ht0)
  by_cases hpp : p = p'
  · subst hpp
    refine ⟨⟨_, update_self _ _ _⟩, fun hkp q hin => ?_⟩
    refine ⟨_, update_self _ _ _, fun sq hsq => ?_⟩
    rw [update_ne _ _ (hq q hin)] at hsq
    exact hi.past q sq hin.1 hsq
  · rcases hf with hf | hf
    · exact absurd hf hpp
    · refine ⟨exists_update hf.1, fun hkp q hin => ?_⟩
      obtain ⟨sp, hsp, hlt⟩ := hf.2 hkp q hin
      refine ⟨sp, by rw [update_ne _ _ hpp]; exact hsp, fun sq hsq => ?_⟩
      rw [update_ne _ _ (hq q hin)] at hsq
      exact hlt sq hsq

theorem fresh_touch {b : Build P} {fs : FileSys P} {t : Nat} {p d : P} {st : Stat} (hd : b.kind d = true)
    (hf : Fresh b fs t p) : Fresh b (update fs d (some st)) t p := by
  refine ⟨exists_update hf.1, fun hkp q hin => ?_⟩
  obtain ⟨sp, hsp, hlt⟩ := hf.2 hkp q hin
  have hpd : p ≠ d := by rintro rfl; rw [hd] at hkp; cases hkp
  have hqd : q ≠ d := by rintro rfl; have := hin.1; rw [hd] at this; cases this
  refine ⟨sp, by rw [update_ne _ _ hpd]; exact hsp, fun sq hsq => ?_⟩
  rw [update_ne _ _ hqd] at hsq
  exact hlt sq hsq

theorem inv_init {b : Build P} {fs : FileSys P} {now : Nat} (h : Plausible b fs now) :
    Inv b (init b fs now) where
  sched := ⟨[], rfl⟩
  past := h.past
  kinds := h.kinds
  dstart := fun t ht => absurd rfl ht
  wr := fun t p hp => by cases hp
  skip_ok := fun t ht => by cases ht
  run_ok := fun t p hp => by cases hp
  fin_ok := fun t ht => by cases ht

theorem inv_step {b : Build P} (hb : b.Sane) (hfine : b.fine = true) {a : Act P} {s s' : State P}
    (hi : Inv b s) (h : step b a s = some s') : Inv b s' := by
  rcases step_cases h with ⟨a', sched', rfl, hal, hs, rfl⟩ | ⟨k, t, rfl, hk, hd, rfl⟩ |
    ⟨k, t, p, rfl, hk, hd, hp, rfl⟩ | ⟨p, rfl, hkp, rfl⟩ | ⟨rfl, rfl⟩
  · obtain ⟨e, he⟩ := TaskList.step_hist hs
    refine { hi with sched := hi.sched.step hs, dstart := ?_, fin_ok := ?_ }
    · intro t ht
      rw [he]; exact List.mem_append_left _ (hi.dstart t ht)
    · intro t ht
      rcases TaskList.step_success hs ht with h' | ⟨k, rfl, hk⟩
      · exact hi.fin_ok t h'
      · simp only [allowed, hk] at hal
        unfold mayEnd at hal
        split at hal
        · cases hal
        · rename_i hd
          refine .inr ⟨hd, ?_⟩
          have hal : b.dryrun = true ∨ ∀ p ∈ (b.task t).targets, p ∈ s.written t ∨ isDir s.fs p = true := by simpa using hal
          refine hal.imp id fun h p hp => (h p hp).imp id fun h => ?_
          unfold isDir at h
          split at h
          · cases h
          · rename_i st hst
            exact ⟨(hi.kinds p st hst).symm.trans h, st, hst⟩
        · rename_i hd; exact .inl hd
        · simp at hal
  · have hst := (TaskList.body_facts hb.topological hi.sched hk)
    have hnotfin : .finish t .success ∉ s.sched.hist := hst.2.1 _
    refine { hi with dstart := ?_, wr := ?_, skip_ok := ?_, fin_ok := ?_ }
    · intro u hu
      by_cases hut : u = t
      · subst hut; exact hst.1
      · simp only [update_ne _ _ hut] at hu; exact hi.dstart u hu
    · intro u p hp
      have := hi.wr u p hp
      refine ⟨this.1, ?_⟩
      by_cases hut : u = t
      · subst hut; rw [hd] at this; cases this.2
      · simp only [update_ne _ _ hut]; exact this.2
    · intro u hu
      by_cases hut : u = t
      · subst hut
        simp only [update_self, Option.some.injEq] at hu
        unfold decisionOf at hu; split at hu
        · cases hu
        · cases hu
        · rename_i hrun
          have := (C12_skip _ _ _).mp hrun
          exact (upToDate_iff hb hi.kinds hst.2.2).mp this.2.2
      · simp only [update_ne _ _ hut] at hu
        exact hi.skip_ok u hu
    · intro u hu
      by_cases hut : u = t
      · subst hut; exact absurd hu hnotfin
      · simp only [update_ne _ _ hut]; exact hi.fin_ok u hu
  · have hst := (TaskList.body_facts hb.topological hi.sched hk)
    refine { hi with past := ?_, kinds := ?_, wr := ?_, skip_ok := ?_, run_ok := ?_, fin_ok := ?_ }
    · intro q st hkq hq
      simp only [hfine, if_true]
      by_cases hqp : q = p
      · subst hqp
        simp only [update_self, Option.some.injEq] at hq
        subst hq; simp
      · simp only [update_ne _ _ hqp] at hq
        have := hi.past q st hkq hq
        omega
    · intro q st hq
      by_cases hqp : q = p
      · subst hqp
        simp only [update_self, Option.some.injEq] at hq
        subst hq; rfl
      · simp only [update_ne _ _ hqp] at hq
        exact hi.kinds q st hq
    · intro u q hq
      by_cases hut : u = t
      · subst hut
        simp only [update_self, List.mem_cons] at hq
        rcases hq with rfl | hq
        · exact ⟨hp, hd⟩
        · exact hi.wr u q hq
      · simp only [update_ne _ _ hut] at hq
        exact hi.wr u q hq
    · intro u hu q hq
      exact fresh_write hb hi hk hp (hi.dstart u (by rw [hu]; simp)) hq (.inr (hi.skip_ok u hu q hq))
    · intro u q hq
      by_cases hut : u = t
      · subst hut
        simp only [update_self, List.mem_cons] at hq
        rcases hq with rfl | hq
        · exact fresh_write hb hi hk hp hst.1 hp (.inl rfl)
        · exact fresh_write hb hi hk hp hst.1 (hi.wr u q hq).1 (.inr (hi.run_ok u q hq))
      · simp only [update_ne _ _ hut] at hq
        have hw := hi.wr u q hq
        exact fresh_write hb hi hk hp (hi.dstart u (by rw [hw.2]; simp)) hw.1 (.inr (hi.run_ok u q hq))
    · intro u hu
      rcases hi.fin_ok u hu with h' | ⟨h1, h2⟩
      · exact .inl h'
      · refine .inr ⟨h1, h2.imp id fun h2 q hq => (h2 q hq).imp (fun h2 => ?_) fun h2 => ⟨h2.1, exists_update h2.2⟩⟩
        by_cases hut : u = t
        · subst hut; simp only [update_self, List.mem_cons]; exact .inr h2
        · simp only [update_ne _ _ hut]; exact h2
  · refine { hi with past := ?_, kinds := ?_, skip_ok := ?_, run_ok := ?_, fin_ok := ?_ }
    · intro q st hkq hq
      have hqp : q ≠ p := by rintro rfl; rw [hkp] at hkq; cases hkq
      simp only [update_ne _ _ hqp] at hq
      exact hi.past q st hkq hq
    · intro q st hq
      by_cases hqp : q = p
      · subst hqp
        simp only [update_self, Option.some.injEq] at hq
        subst hq; exact hkp.symm
      · simp only [update_ne _ _ hqp] at hq
        exact hi.kinds q st hq
    · intro u hu q hq; exact fresh_touch hkp (hi.skip_ok u hu q hq)
    · intro u q hq; exact fresh_touch hkp (hi.run_ok u q hq)
    · intro u hu
      exact (hi.fin_ok u hu).imp id fun h => ⟨h.1, h.2.imp id fun h q hq => (h q hq).imp id fun h => ⟨h.1, exists_update h.2⟩⟩
  · refine { hi with past := ?_ }
    intro q st hkq hq
    have := hi.past q st hkq hq
    simp only
    omega

end Maike.Build
