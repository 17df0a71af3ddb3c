import Verif.Build.Load

/-!
# What is owed after a command has not come to its end

Lemmas for `Main/Retry.lean`: a target that is out of date stays so until the command that makes it writes it.
-/

namespace Maike.Build

open Maike.Db (Dep isExternal)

variable {P : Type} [DecidableEq P]

/-- A target that is not as it should be stays so unless it is written by the command that makes it. -/
theorem stale_step {b : Build P} (hb : b.Sane) {t : Nat} (ht : t ∈ b.job.tasks) {p : P} (hp : p ∈ (b.task t).targets) (hk : b.kind p = false)
    {s s' : State P} {a : Act P} (hi : Inv b s) (hs : step b a s = some s') (h : p ∈ s.written t ∨ ¬ Fresh b s.fs t p) :
    p ∈ s'.written t ∨ ¬ Fresh b s'.fs t p := by
  have hmono : (s'.fs p = s.fs p) → (∀ q st, b.kind q = false → s.fs q = some st → ∃ st', s'.fs q = some st' ∧ st.mtime ≤ st'.mtime) →
      ¬ Fresh b s.fs t p → ¬ Fresh b s'.fs t p := by
    intro e hm hn hf
    refine hn ⟨?_, fun hk q hin => ?_⟩
    · obtain ⟨st, hst⟩ := hf.1
      exact ⟨st, e ▸ hst⟩
    · obtain ⟨sp, hsp, hlt⟩ := hf.2 hk q hin
      refine ⟨sp, e ▸ hsp, fun sq hsq => ?_⟩
      obtain ⟨sq', h1, h2⟩ := hm q sq hin.1 hsq
      exact Nat.lt_of_le_of_lt h2 (hlt sq' h1)
  rcases step_cases hs with ⟨a', sched', rfl, hal, hss, rfl⟩ | ⟨k', t', rfl, hk', hd, rfl⟩ |
    ⟨k', t', p', rfl, hk', hd, hp', rfl⟩ | ⟨p', rfl, hkp, rfl⟩ | ⟨rfl, rfl⟩
  · exact h
  · exact h
  · obtain ⟨_, _, ht'⟩ := TaskList.body_facts hb.topological hi.sched hk'
    by_cases htt : t' = t
    · subst htt
      by_cases hpp : p = p'
      · left; simp only [update_self]; subst hpp; exact List.mem_cons_self
      · rcases h with h | h
        · left; simp only [update_self]; exact List.mem_cons_of_mem _ h
        · right
          refine hmono (update_ne _ _ hpp) (fun q st hkq hq => ?_) h
          by_cases hqp : q = p'
          · subst hqp
            exact ⟨_, update_self _ _ _, Nat.le_of_lt (hi.past q st hkq hq)⟩
          · exact ⟨st, (update_ne _ _ hqp).trans hq, Nat.le_refl _⟩
    · rcases h with h | h
      · left; simp only [update_ne _ _ (Ne.symm htt)]; exact h
      · right
        have hpp : p ≠ p' := by
          rintro rfl
          exact htt (hb.owner t' ht' t ht p hp' hp hk)
        refine hmono (update_ne _ _ hpp) (fun q st hkq hq => ?_) h
        by_cases hqp : q = p'
        · subst hqp
          exact ⟨_, update_self _ _ _, Nat.le_of_lt (hi.past q st hkq hq)⟩
        · exact ⟨st, (update_ne _ _ hqp).trans hq, Nat.le_refl _⟩
  · rcases h with h | h
    · exact .inl h
    · right
      have hpp : p ≠ p' := by rintro rfl; rw [hkp] at hk; cases hk
      refine hmono (update_ne _ _ hpp) (fun q st hkq hq => ?_) h
      have hqp : q ≠ p' := by rintro rfl; rw [hkp] at hkq; cases hkq
      exact ⟨st, (update_ne _ _ hqp).trans hq, Nat.le_refl _⟩
  · exact h

/-- A command that has been started for good reason, and has not written anything, leaves a target behind that is out of date. -/
theorem executed_stale {b : Build P} (hb : b.Sane) (hfine : b.fine = true) (hforce : b.force = false) {fs : FileSys P} {now : Nat}
    (hfs : Plausible b fs now) {as : List (Act P)} {s : State P} (h : exec b as (init b fs now) = some s) {t : Nat} (ht : t ∈ b.job.tasks)
    (hk : ∀ p ∈ (b.task t).targets, b.kind p = false) (hpol : (b.task t).policy ≠ .always) (hex : s.Executed t) (hw : s.written t = []) :
    ∃ p ∈ (b.task t).targets, ¬ Fresh b s.fs t p := by
  have hQ : Inv b s ∧ (s.Executed t → ∃ p ∈ (b.task t).targets, p ∈ s.written t ∨ ¬ Fresh b s.fs t p) := by
    refine exec_induction (Q := fun s => Inv b s ∧ (s.Executed t → ∃ p ∈ (b.task t).targets, p ∈ s.written t ∨ ¬ Fresh b s.fs t p)) ?_ ?_ h
    · rintro s a s' ⟨hi, ih⟩ hs
      refine ⟨inv_step hb hfine hi hs, fun hex' => ?_⟩
      by_cases hex : s.Executed t
      · obtain ⟨p, hp, hor⟩ := ih hex
        exact ⟨p, hp, stale_step hb ht hp (hk p hp) hi hs hor⟩
      · rcases step_cases hs with ⟨a', sched', rfl, hal, hss, rfl⟩ | ⟨k', t', rfl, hk', hd, rfl⟩ |
          ⟨k', t', p', rfl, hk', hd, hp', rfl⟩ | ⟨p', rfl, hkp, rfl⟩ | ⟨rfl, rfl⟩
        · exact absurd hex' hex
        · by_cases htt : t = t'
          · subst htt
            simp only [State.Executed, update_self, Option.some.injEq] at hex'
            have hrun : shouldRun s.fs b.force (b.task t) = .ok true := by
              cases hsr : shouldRun s.fs b.force (b.task t) with
              | error e => rw [hsr] at hex'; cases hex'
              | ok v => cases v <;> rw [hsr] at hex' <;> first | rfl | cases hex'
            have hnot : ¬ UpToDate s.fs (b.task t) := by
              intro hu
              have := (C12_skip s.fs b.force (b.task t)).mpr ⟨hforce, hpol, hu⟩
              rw [hrun] at this
              cases this
            rw [upToDate_iff hb hi.kinds ht] at hnot
            apply Classical.byContradiction
            intro hall
            refine hnot (fun p hp => Classical.byContradiction fun hf => hall ⟨p, hp, .inr hf⟩)
          · simp only [State.Executed, update_ne _ _ htt] at hex'
            exact absurd hex' hex
        · exact absurd hex' hex
        · exact absurd hex' hex
        · exact absurd hex' hex
    · exact ⟨inv_init hfs, fun h => by simp [State.Executed, init] at h⟩
  obtain ⟨p, hp, hor⟩ := hQ.2 hex
  rw [hw] at hor
  exact ⟨p, hp, hor.resolve_left (by simp)⟩

/-- While a target is out of date, no build succeeds without executing the command that makes it; without this it stays out of date. -/
theorem stale_owed {b : Build P} (hb : b.Sane) (hfine : b.fine = true) {fs : FileSys P} {now : Nat}
    (hfs : Plausible b fs now) {as : List (Act P)} {s : State P} (h : exec b as (init b fs now) = some s) {t : Nat} (ht : t ∈ b.job.tasks)
    {p : P} (hp : p ∈ (b.task t).targets) (hk : b.kind p = false) (hstale : ¬ Fresh b fs t p) :
    s.Executed t ∨ (¬ s.Succeeded ∧ ¬ Fresh b s.fs t p) := by
  have hQ : Inv b s ∧ (p ∈ s.written t ∨ ¬ Fresh b s.fs t p) :=
    exec_induction (Q := fun s => Inv b s ∧ (p ∈ s.written t ∨ ¬ Fresh b s.fs t p))
      (fun s a s' hq hs => ⟨inv_step hb hfine hq.1 hs, stale_step hb ht hp hk hq.1 hs hq.2⟩) ⟨inv_init hfs, .inr hstale⟩ h
  obtain ⟨hi, hor⟩ := hQ
  rcases hor with hw | hn
  · exact .inl (hi.wr t p hw).2
  · by_cases hex : s.Executed t
    · exact .inl hex
    · refine .inr ⟨fun ⟨n, hok⟩ => ?_, hn⟩
      have hfin := ((TaskList.C20_returns_complete hb.topological hi.sched hok).2 t ht).2
      rcases hi.fin_ok t hfin with h' | ⟨h', _⟩
      · exact hn (hi.skip_ok t h' p hp)
      · exact hex h'

end Maike.Build
