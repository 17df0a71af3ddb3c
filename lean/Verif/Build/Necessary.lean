import Verif.Build.History

/-!
# Which commands are executed (C86)

A build executes a command only if there is a reason for it when the build starts, and a build that has succeeded has executed all commands there is a reason for.
-/

namespace Maike.Build

open Maike.Db (Dep isExternal)

variable {P : Type} [DecidableEq P]

/-! ## Specification -/

/-- There is a reason to execute the command of a task, when the build starts with the file system `fs`: the policy is "always"; or a target does not exist; or a target that
is not a directory is not newer than a file that is read; or a file that is read is a target of another task whose command there is a reason to execute. -/
inductive Necessary (b : Build P) (fs : FileSys P) : Nat → Prop
  | always {t} : (b.task t).policy = .always → Necessary b fs t
  | missing {t p} : p ∈ (b.task t).targets → ¬ Exists fs p → Necessary b fs t
  | older {t p q sp sq} : p ∈ (b.task t).targets → b.kind p = false → In b t q → fs p = some sp → fs q = some sq → sp.mtime ≤ sq.mtime → Necessary b fs t
  | made {t p q u} : p ∈ (b.task t).targets → b.kind p = false → In b t q → u ∈ b.job.tasks → q ∈ (b.task u).targets → Necessary b fs u → Necessary b fs t

/-! ## Proof -/

/-- Why the decision is to execute a command. -/
theorem necessary_now {b : Build P} (hb : b.Sane) {fs : FileSys P} (hk : ∀ p st, fs p = some st → st.dir = b.kind p) {t : Nat} (ht : t ∈ b.job.tasks) (hforce : b.force = false)
    (h : shouldRun fs b.force (b.task t) = .ok true) : (b.task t).policy = .always ∨ ∃ p ∈ (b.task t).targets, ¬ Exists fs p ∨
      (b.kind p = false ∧ ∃ q sp sq, In b t q ∧ fs p = some sp ∧ fs q = some sq ∧ sp.mtime ≤ sq.mtime) := by
  have hns := mt (C12_skip fs b.force (b.task t)).mpr (by rw [h]; simp)
  by_cases hpol : (b.task t).policy = .always
  · exact .inl hpol
  · right
    have hup : ¬ UpToDate fs (b.task t) := fun hu => hns ⟨hforce, hpol, hu⟩
    rw [upToDate_iff hb hk ht] at hup
    simp only [Classical.not_forall] at hup
    obtain ⟨p, hp, hf⟩ := hup
    refine ⟨p, hp, ?_⟩
    by_cases hex : Exists fs p
    · right
      have hf2 : ¬ (b.kind p = false → ∀ q, In b t q → StrictlyNewer fs p q) := fun h => hf ⟨hex, h⟩
      simp only [Classical.not_forall] at hf2
      obtain ⟨hkp, q, hin, hn⟩ := hf2
      obtain ⟨sp, hsp⟩ := hex
      refine ⟨hkp, q, sp, ?_⟩
      cases hfq : fs q with
      | none => exact absurd ⟨sp, hsp, fun sq h => by rw [hfq] at h; cases h⟩ hn
      | some sq =>
        refine ⟨sq, hin, hsp, rfl, ?_⟩
        apply Nat.le_of_not_lt
        intro hlt
        exact hn ⟨sp, hsp, fun sq' h => by rw [hfq] at h; injection h with h; subst h; exact hlt⟩
    · exact .inl hex

/-- What is known while a build is running. -/
structure Justified (b : Build P) (fs : FileSys P) (s : State P) : Prop where
  sched : TaskList.Reachable b.job s.sched
  kinds : ∀ p st, s.fs p = some st → st.dir = b.kind p
  kept : ∀ p, Exists fs p → Exists s.fs p
  run : ∀ t ∈ b.job.tasks, s.decision t = some .run → Necessary b fs t
  changed : ∀ p, b.kind p = false → s.fs p = fs p ∨ ∃ u ∈ b.job.tasks, p ∈ (b.task u).targets ∧ Necessary b fs u

theorem justified_step {b : Build P} (hb : b.Sane) (hforce : b.force = false) {fs : FileSys P} {s s' : State P} {a : Act P} (hj : Justified b fs s)
    (hs : step b a s = some s') : Justified b fs s' := by
  obtain ⟨q1, q2, q3, q4, q5⟩ := hj
  rcases step_cases hs with ⟨a', sched', rfl, hal, hss, rfl⟩ | ⟨k, t, rfl, hk, hd, rfl⟩ |
    ⟨k, t, p, rfl, hk, hd, hp, rfl⟩ | ⟨p, rfl, hkp, rfl⟩ | ⟨rfl, rfl⟩
  · exact ⟨q1.step hss, q2, q3, q4, q5⟩
  · refine ⟨q1, q2, q3, ?_, q5⟩
    intro u hu hrun
    by_cases hut : u = t
    · subst hut
      simp only [update_self, Option.some.injEq] at hrun
      have hsr : shouldRun s.fs b.force (b.task u) = .ok true := by
        cases h : shouldRun s.fs b.force (b.task u) with
        | error e => rw [h] at hrun; cases hrun
        | ok r => cases r with
          | true => rfl
          | false => rw [h] at hrun; cases hrun
      rcases necessary_now hb q2 hu hforce hsr with h | ⟨p, hp, h | ⟨hkp, q, sp, sq, hin, hsp, hsq, hle⟩⟩
      · exact .always h
      · exact .missing hp fun he => h (q3 p he)
      · rcases q5 p hkp with hp' | ⟨v, hv, hpv, hn⟩
        · rcases q5 q hin.1 with hq' | ⟨v, hv, hqv, hn⟩
          · exact .older hp hkp hin (hp' ▸ hsp) (hq' ▸ hsq) hle
          · exact .made hp hkp hin hv hqv hn
        · rw [hb.owner u hu v hv p hp hpv hkp]; exact hn
    · simp only [update_ne _ _ hut] at hrun; exact q4 u hu hrun
  · obtain ⟨_, _, ht⟩ := TaskList.body_facts hb.topological q1 hk
    refine ⟨q1, ?_, fun q hq => exists_update (q3 q hq), q4, ?_⟩
    · intro q st hq
      by_cases hqp : q = p
      · subst hqp
        simp only [update_self, Option.some.injEq] at hq
        subst hq; rfl
      · simp only [update_ne _ _ hqp] at hq
        exact q2 q st hq
    · intro q hkq
      by_cases hqp : q = p
      · subst hqp; exact .inr ⟨t, ht, hp, q4 t ht hd⟩
      · simp only [update_ne _ _ hqp]; exact q5 q hkq
  · refine ⟨q1, ?_, fun q hq => exists_update (q3 q hq), q4, ?_⟩
    · intro q st hq
      by_cases hqp : q = p
      · subst hqp
        simp only [update_self, Option.some.injEq] at hq
        subst hq; exact hkp.symm
      · simp only [update_ne _ _ hqp] at hq
        exact q2 q st hq
    · intro q hkq
      have hqp : q ≠ p := by
        rintro rfl
        rw [show b.kind q = true from hkp] at hkq; cases hkq
      simp only [update_ne _ _ hqp]; exact q5 q hkq
  · exact ⟨q1, q2, q3, q4, q5⟩

/-- **C86.** A build that is not forced executes a command only if there is a reason for it at the beginning of the build. This holds at any time, whatever becomes of the build. -/
theorem C86_only_if_necessary (b : Build P) (hb : b.Sane) (hforce : b.force = false) {fs : FileSys P} {now : Nat} (hkinds : ∀ p st, fs p = some st → st.dir = b.kind p)
    {as : List (Act P)} {s : State P} (h : exec b as (init b fs now) = some s) {t : Nat} (ht : t ∈ b.job.tasks) (hex : s.Executed t) : Necessary b fs t := by
  have : Justified b fs s := exec_induction (Q := Justified b fs) (fun _ _ _ hj hs => justified_step hb hforce hj hs)
    ⟨⟨[], rfl⟩, hkinds, fun _ h => h, fun _ _ h => (by cases h), fun _ _ => .inl rfl⟩ h
  exact this.run t ht hex

/-- What is known about time stamps and decisions. -/
structure Timed (b : Build P) (fs : FileSys P) (now : Nat) (s : State P) : Prop where
  clock : now ≤ s.clock
  written : ∀ u, ∀ q ∈ s.written u, b.kind q = false → ∃ st, s.fs q = some st ∧ now ≤ st.mtime
  changed : ∀ p, b.kind p = false → s.fs p = fs p ∨ (∃ st, s.fs p = some st ∧ now ≤ st.mtime) ∧ ∃ u ∈ b.job.tasks, p ∈ (b.task u).targets ∧ s.decision u = some .run
  skipped : ∀ t, s.decision t = some .skip → (b.task t).policy ≠ .always

theorem timed_step {b : Build P} (hb : b.Sane) {fs : FileSys P} {now : Nat} {s s' : State P} {a : Act P}
    (hr : TaskList.Reachable b.job s.sched) (hj : Timed b fs now s) (hs : step b a s = some s') : Timed b fs now s' := by
  obtain ⟨q1, q2, q3, q4⟩ := hj
  rcases step_cases hs with ⟨a', sched', rfl, hal, hss, rfl⟩ | ⟨k, t, rfl, hk, hd, rfl⟩ |
    ⟨k, t, p, rfl, hk, hd, hp, rfl⟩ | ⟨p, rfl, hkp, rfl⟩ | ⟨rfl, rfl⟩
  · exact ⟨q1, q2, q3, q4⟩
  · refine ⟨q1, q2, fun p hkp => ?_, fun u hu => ?_⟩
    · rcases q3 p hkp with h | ⟨h1, u, hu, h2, h3⟩
      · exact .inl h
      · refine .inr ⟨h1, u, hu, h2, ?_⟩
        by_cases hut : u = t
        · subst hut; rw [hd] at h3; cases h3
        · simp only [update_ne _ _ hut]; exact h3
    · by_cases hut : u = t
      · subst hut
        simp only [update_self, Option.some.injEq] at hu
        have hsr : shouldRun s.fs b.force (b.task u) = .ok false := by
          cases h : shouldRun s.fs b.force (b.task u) with
          | error e => rw [h] at hu; cases hu
          | ok r => cases r with
            | false => rfl
            | true => rw [h] at hu; cases hu
        exact ((C12_skip _ _ _).mp hsr).2.1
      · simp only [update_ne _ _ hut] at hu; exact q4 u hu
  · obtain ⟨_, _, ht⟩ := TaskList.body_facts hb.topological hr hk
    have hw : ∀ q, (∃ st, s.fs q = some st ∧ now ≤ st.mtime) → ∃ st, update s.fs p (some ⟨s.clock, b.kind p⟩) q = some st ∧ now ≤ st.mtime := by
      intro q h
      by_cases hqp : q = p
      · subst hqp; exact ⟨_, update_self _ _ _, q1⟩
      · simp only [update_ne _ _ hqp]; exact h
    refine ⟨?_, fun u q hq hkq => ?_, fun q hkq => ?_, q4⟩
    · simp only; split <;> omega
    · by_cases hut : u = t
      · subst hut
        simp only [update_self, List.mem_cons] at hq
        rcases hq with rfl | hq
        · exact ⟨_, update_self _ _ _, q1⟩
        · exact hw q (q2 u q hq hkq)
      · simp only [update_ne _ _ hut] at hq
        exact hw q (q2 u q hq hkq)
    · by_cases hqp : q = p
      · subst hqp; exact .inr ⟨⟨_, update_self _ _ _, q1⟩, t, ht, hp, hd⟩
      · simp only [update_ne _ _ hqp]; exact q3 q hkq
  · have hne : ∀ q, b.kind q = false → q ≠ p := by
      rintro q hkq rfl
      rw [show b.kind q = true from hkp] at hkq; cases hkq
    refine ⟨q1, fun u q hq hkq => ?_, fun q hkq => ?_, q4⟩
    · simp only [update_ne _ _ (hne q hkq)]; exact q2 u q hq hkq
    · simp only [update_ne _ _ (hne q hkq)]; exact q3 q hkq
  · exact ⟨Nat.le_succ_of_le q1, q2, q3, q4⟩

/-- **C86.** When a build has succeeded, the commands that have been executed are exactly those for which there was a reason at the beginning of the build. Targets
that are directories have to exist: if they do not, it may happen that they are made by other commands before there is an occasion to do so. -/
theorem C86_exactly (b : Build P) (hb : b.Sane) (hfine : b.fine = true) (hdry : b.dryrun = false) (hforce : b.force = false) {fs : FileSys P} {now : Nat} (hfs : Plausible b fs now)
    (hdirs : ∀ t ∈ b.job.tasks, ∀ p ∈ (b.task t).targets, b.kind p = true → Exists fs p)
    {as : List (Act P)} {s : State P} (h : exec b as (init b fs now) = some s) (hok : s.Succeeded) {t : Nat} (ht : t ∈ b.job.tasks) : s.Executed t ↔ Necessary b fs t := by
  refine ⟨C86_only_if_necessary b hb hforce hfs.kinds h ht, fun hn => ?_⟩
  obtain ⟨hi, htm⟩ : Inv b s ∧ Timed b fs now s := exec_induction (Q := fun s => Inv b s ∧ Timed b fs now s)
    (fun _ _ _ hq hs => ⟨inv_step hb hfine hq.1 hs, timed_step hb hq.1.sched hq.2 hs⟩)
    ⟨inv_init hfs, Nat.le_refl _, fun _ _ h => (by cases h), fun _ _ => .inl rfl, fun _ h => (by cases h)⟩ h
  obtain ⟨n, hret⟩ := hok
  have hfin : ∀ t ∈ b.job.tasks, s.decision t = some .skip ∨ (s.decision t = some .run ∧ ∀ p ∈ (b.task t).targets, b.kind p = false → p ∈ s.written t) := by
    intro t ht
    rcases hi.fin_ok t ((TaskList.C20_returns_complete hb.topological hi.sched hret).2 t ht).2 with h | ⟨h1, h2⟩
    · exact .inl h
    · exact .inr ⟨h1, fun p hp hk => (h2.resolve_left (by rw [hdry]; simp) p hp).resolve_right fun h => by rw [hk] at h; cases h.1⟩
  -- a target of something that has been skipped has not changed
  have hsame : ∀ t ∈ b.job.tasks, s.decision t = some .skip → ∀ p ∈ (b.task t).targets, b.kind p = false → s.fs p = fs p := by
    intro t ht hsk p hp hkp
    rcases htm.changed p hkp with h | ⟨_, u, hu, hpu, hrun⟩
    · exact h
    · rw [hb.owner u hu t ht p hpu hp hkp, hsk] at hrun; cases hrun
  induction hn with
  | @always t h =>
    rcases hfin t ht with hsk | hr
    · exact absurd h (htm.skipped t hsk)
    · exact hr.1
  | @missing t p hp hne =>
    rcases hfin t ht with hsk | hr
    · cases hk : b.kind p with
      | true => exact absurd (hdirs t ht p hp hk) hne
      | false =>
        have := (hi.skip_ok t hsk p hp).1
        rw [Exists, hsame t ht hsk p hp hk] at this
        exact absurd this hne
    · exact hr.1
  | @older t p q sp sq hp hkp hin hsp hsq hle =>
    rcases hfin t ht with hsk | hr
    · exfalso
      obtain ⟨sp', hsp', hlt⟩ := (hi.skip_ok t hsk p hp).2 hkp q hin
      rw [hsame t ht hsk p hp hkp, hsp] at hsp'
      injection hsp' with e
      subst e
      rcases htm.changed q hin.1 with h | ⟨⟨st, h1, h2⟩, _⟩
      · have := hlt sq (h ▸ hsq); omega
      · have h3 := hlt st h1
        have h4 := hfs.past p sp hkp hsp
        omega
    · exact hr.1
  | @made t p q u hp hkp hin hu hqu _ ih =>
    rcases hfin t ht with hsk | hr
    · exfalso
      have hrun := ih hu
      have hwr : q ∈ s.written u := by
        rcases hfin u hu with h | h
        · rw [State.Executed, h] at hrun; cases hrun
        · exact h.2 q hqu hin.1
      obtain ⟨st, h1, h2⟩ := htm.written u q hwr hin.1
      obtain ⟨sp, hsp, hlt⟩ := (hi.skip_ok t hsk p hp).2 hkp q hin
      have h3 := hlt st h1
      rw [hsame t ht hsk p hp hkp] at hsp
      have h4 := hfs.past p sp hkp hsp
      omega
    · exact hr.1

end Maike.Build
