import Verif.Build.Lemmas

/-!
# Theorems about whole builds (C13, C14)

For every project, every initial state of the file system, every number of workers, and
every interleaving of scheduler, recipes and clock.
-/

namespace Maike.Build

open Maike.Db (Dep isExternal)

variable {P : Type} [DecidableEq P]

/-- **C13.** After a build that has succeeded, all targets of all tasks are up to date. -/
theorem C13_up_to_date (b : Build P) (hb : b.Sane) (hfine : b.fine = true) (hdry : b.dryrun = false) {fs : FileSys P} {now : Nat}
    (hfs : Plausible b fs now) {as : List (Act P)} {s : State P}
    (h : exec b as (init b fs now) = some s) (hok : s.Succeeded) :
    ∀ t ∈ b.job.tasks, UpToDate s.fs (b.task t) ∧ ∀ p ∈ (b.task t).targets, Exists s.fs p := by
  have hi : Inv b s := exec_induction (Q := Inv b) (fun _ _ _ hi h => inv_step hb hfine hi h)
    (inv_init hfs) h
  obtain ⟨n, hn⟩ := hok
  intro t ht
  have hfin := ((TaskList.C20_returns_complete hb.topological hi.sched hn).2 t ht).2
  have hall : ∀ p ∈ (b.task t).targets, Fresh b s.fs t p := by
    rcases hi.fin_ok t hfin with h' | ⟨_, h2⟩
    · exact hi.skip_ok t h'
    · intro p hp
      rcases (h2.resolve_left (by rw [hdry]; simp)) p hp with h | ⟨h, h'⟩
      · exact hi.run_ok t p h
      · exact ⟨h', fun hk => by rw [h] at hk; cases hk⟩
  exact ⟨(upToDate_iff hb hi.kinds ht).mpr hall, fun p hp => (hall p hp).1⟩

/-- **C13.** While a task is being executed nobody else changes its targets or what it reads, apart from
directories. -/
theorem C13_inputs_stable (b : Build P) (hb : b.Sane) (hfine : b.fine = true) {fs : FileSys P} {now : Nat}
    (hfs : Plausible b fs now) {as : List (Act P)} {s : State P}
    (h : exec b as (init b fs now) = some s) {k t : Nat} (hk : s.sched.running[k]? = some (t, .body))
    {a : Act P} {s' : State P} (hs : step b a s = some s') {q : P} (hq : b.kind q = false)
    (hin : q ∈ (b.task t).targets ∨ q = (b.task t).src ∨
      ∃ d ∈ (b.task t).deps, d.name = q ∧ isExternal d.origin = false)
    (hne : s'.fs q ≠ s.fs q) : q ∈ (b.task t).targets ∧ s.Executed t := by
  have hi : Inv b s := exec_induction (Q := Inv b) (fun _ _ _ hi h => inv_step hb hfine hi h)
    (inv_init hfs) h
  obtain ⟨hst, hnf, ht⟩ := TaskList.body_facts hb.topological hi.sched hk
  rcases step_cases hs with ⟨a', sched', rfl, hal, hs, rfl⟩ | ⟨k', t', rfl, hk', hd, rfl⟩ |
    ⟨k', t', p, rfl, hk', hd, hp, rfl⟩ | ⟨p, rfl, hkp, rfl⟩ | ⟨rfl, rfl⟩
  · exact absurd rfl hne
  · exact absurd rfl hne
  · have hqp : q = p := by
      apply Classical.byContradiction
      intro hqp
      exact hne (update_ne _ _ hqp)
    subst hqp
    obtain ⟨hst', hnf', ht'⟩ := TaskList.body_facts hb.topological hi.sched hk'
    rcases hin with hin | hin
    · have := hb.owner t ht t' ht' q hin hp hq
      subst this
      exact ⟨hp, hd⟩
    · have hdep := hb.waits t ht q hin hq t' ht' hp
      exact absurd (TaskList.dep_done hb.topological hi.sched hst hdep ht') (hnf' _)
  · have hqp : q ≠ p := by rintro rfl; rw [hkp] at hq; cases hq
    exact absurd (update_ne _ _ hqp) hne
  · exact absurd rfl hne

/-- The policy of the task, or of one that it waits for, is "always". -/
def AlwaysRebuilt (b : Build P) (t : Nat) : Prop :=
  ∃ u ∈ b.job.tasks, (u = t ∨ u ∈ b.job.deps t) ∧ (b.task u).policy = .always

/-- **C14.** When a build has succeeded (forced or not), and the same project is built again without
anything having been changed in between, commands are executed only for
tasks whose policy is "always" and for tasks that depend on such tasks. -/
theorem C14_second_build_idle (b : Build P) (hb : b.Sane) (hfine : b.fine = true) (hdry : b.dryrun = false) {fs : FileSys P} {now : Nat}
    (hfs : Plausible b fs now) {as : List (Act P)} {s₁ : State P}
    (h : exec b as (init b fs now) = some s₁) (hok : s₁.Succeeded)
    {later : Nat} {as' : List (Act P)} {s₂ : State P}
    (h' : exec { b with force := false } as' (init { b with force := false } s₁.fs later) = some s₂)
    {t : Nat} (ht : t ∈ b.job.tasks) (hex : s₂.Executed t) : AlwaysRebuilt b t := by
  have hi1 : Inv b s₁ := exec_induction (Q := Inv b) (fun _ _ _ hi h => inv_step hb hfine hi h)
    (inv_init hfs) h
  have hup := C13_up_to_date b hb hfine hdry hfs h hok
  -- what is unchanged in the second build
  let Q : State P → Prop := fun s =>
    TaskList.Reachable b.job s.sched ∧
    (∀ p st, s.fs p = some st → st.dir = b.kind p) ∧
    (∀ p, Exists s₁.fs p → Exists s.fs p) ∧
    (∀ t ∈ b.job.tasks, ¬ AlwaysRebuilt b t → s.decision t ≠ some .run) ∧
    (∀ p, b.kind p = false → (∀ u ∈ b.job.tasks, p ∈ (b.task u).targets → ¬ AlwaysRebuilt b u) →
      s.fs p = s₁.fs p)
  have hQ0 : Q (init { b with force := false } s₁.fs later) :=
    ⟨⟨[], rfl⟩, hi1.kinds, fun _ h => h, fun _ _ _ => (by simp [init]), fun _ _ _ => rfl⟩
  have hQ : Q s₂ := by
    refine exec_induction (Q := Q) ?_ hQ0 h'
    rintro s a s' ⟨q1, q2, q3, q4, q5⟩ hs
    rcases step_cases hs with ⟨a', sched', rfl, hal, hss, rfl⟩ | ⟨k, t, rfl, hk, hd, rfl⟩ |
      ⟨k, t, p, rfl, hk, hd, hp, rfl⟩ | ⟨p, rfl, hkp, rfl⟩ | ⟨rfl, rfl⟩
    · exact ⟨q1.step hss, q2, q3, q4, q5⟩
    · refine ⟨q1, q2, q3, ?_, q5⟩
      intro u hu hna
      by_cases hut : u = t
      · subst hut
        simp only [update_self]
        have hskip : shouldRun s.fs false (b.task u) = .ok false := by
          rw [C12_skip]
          refine ⟨rfl, fun hp => hna ⟨u, hu, .inl rfl, hp⟩, ?_⟩
          rw [upToDate_iff hb q2 hu]
          have hfr := (upToDate_iff hb hi1.kinds hu).mp (hup u hu).1
          intro p hp
          obtain ⟨hex, hnew⟩ := hfr p hp
          refine ⟨q3 p hex, fun hkp q hin => ?_⟩
          have hp' : s.fs p = s₁.fs p := by
            refine q5 p hkp (fun v hv hpv => ?_)
            rw [hb.owner v hv u hu p hpv hp hkp]; exact hna
          have hq' : s.fs q = s₁.fs q := by
            refine q5 q hin.1 (fun v hv hqv hav => ?_)
            have hdep := hb.waits u hu q hin.2 hin.1 v hv hqv
            apply hna
            obtain ⟨w, hw, hor, hpol⟩ := hav
            refine ⟨w, hw, .inr ?_, hpol⟩
            rcases hor with rfl | hwv
            · exact hdep
            · exact hb.closed u hu v hv w hw hdep hwv
          obtain ⟨sp, hsp, hlt⟩ := hnew hkp q hin
          exact ⟨sp, by rw [hp']; exact hsp, fun sq hsq => hlt sq (by rw [← hq']; exact hsq)⟩
        rw [hskip]; simp [decisionOf]
      · simp only [update_ne _ _ hut]; exact q4 u hu hna
    · obtain ⟨_, _, ht⟩ := TaskList.body_facts hb.topological q1 hk
      refine ⟨q1, ?_, fun q hq => exists_update (q3 q hq), q4, ?_⟩
      · intro q st hq
        by_cases hqp : q = p
        · subst hqp
          simp only [update_self, Option.some.injEq] at hq
          subst hq; rfl
        · simp only [update_ne _ _ hqp] at hq
          exact q2 q st hq
      · intro q hkq hown
        by_cases hqp : q = p
        · subst hqp
          exact absurd hd (q4 t ht (hown t ht hp))
        · simp only [update_ne _ _ hqp]; exact q5 q hkq hown
    · refine ⟨q1, ?_, fun q hq => exists_update (q3 q hq), q4, ?_⟩
      · intro q st hq
        by_cases hqp : q = p
        · subst hqp
          simp only [update_self, Option.some.injEq] at hq
          subst hq; exact hkp.symm
        · simp only [update_ne _ _ hqp] at hq
          exact q2 q st hq
      · intro q hkq hown
        have hqp : q ≠ p := by
          rintro rfl
          rw [show b.kind q = true from hkp] at hkq; cases hkq
        simp only [update_ne _ _ hqp]; exact q5 q hkq hown
    · exact ⟨q1, q2, q3, q4, q5⟩
  apply Classical.byContradiction
  intro hna
  exact hQ.2.2.2.1 t ht hna hex

end Maike.Build
