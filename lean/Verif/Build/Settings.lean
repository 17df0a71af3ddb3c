import Verif.Build.Content

/-!
# What recipes that are executed write (C91)

Nothing is assumed here about how targets that exist already have been made: by other recipes, with other options, or by somebody else.
-/

namespace Maike.Build

open Maike.Db (Dep isExternal)

variable {P V D : Type} [DecidableEq P]

/-- What has been written so far is what the recipes compute from what is there, and commands are not left out in a forced build. -/
structure Written (r : Recipes P V D) (b : Build P) (desc : Nat → D) (s : State P) (c : P → V) : Prop where
  inv : Inv b s
  made : ∀ t, ∀ p ∈ s.written t, b.kind p = false → c p = r.make (desc t) c p
  forced : b.force = true → ∀ t, s.decision t ≠ some .skip

theorem written_step {r : Recipes P V D} {b : Build P} (hb : b.Sane) (hfine : b.fine = true) {desc : Nat → D}
    (hreads : ∀ t ∈ b.job.tasks, ∀ q, r.reads (desc t) q → In b t q) {s s' : State P} {c : P → V} {a : Act P} (h : Written r b desc s c)
    (hs : step b a s = some s') : Written r b desc s' (contentStep r desc a s c) := by
  obtain ⟨hi, hm, hf⟩ := h
  refine ⟨inv_step hb hfine hi hs, ?_, ?_⟩
  · rcases step_cases hs with ⟨a', sched', rfl, hal, hss, rfl⟩ | ⟨k', t', rfl, hk', hd, rfl⟩ |
      ⟨k', t', p', rfl, hk', hd, hp', rfl⟩ | ⟨p', rfl, hkp, rfl⟩ | ⟨rfl, rfl⟩
    · exact hm
    · exact hm
    · obtain ⟨hst', hnf', ht'⟩ := TaskList.body_facts hb.topological hi.sched hk'
      simp only [contentStep, hk']
      -- nobody who has started reads what is written
      have hno : ∀ t, .start t ∈ s.sched.hist → ∀ q, r.reads (desc t) q → q ≠ p' := by
        rintro t hst q hq rfl
        have ht := TaskList.started_task hb.topological hi.sched hst
        have hin := hreads t ht q hq
        have hdep := hb.waits t ht q hin.2 hin.1 t' ht' hp'
        exact hnf' _ (TaskList.dep_done hb.topological hi.sched hst hdep ht')
      have hsame : ∀ t, .start t ∈ s.sched.hist → ∀ v p, r.make (desc t) (update c p' v) p = r.make (desc t) c p :=
        fun t hst v p => r.pure _ _ _ _ fun q hq => update_ne _ _ (hno t hst q hq)
      intro t p hp hkp
      have hst : .start t ∈ s.sched.hist := by
        by_cases htt : t = t'
        · subst htt; exact hst'
        · rw [update_ne _ _ htt] at hp
          exact hi.dstart t (by rw [(hi.wr t p hp).2]; simp)
      rw [hsame t hst]
      by_cases hpp : p = p'
      · subst hpp
        rw [update_self]
        by_cases htt : t = t'
        · subst htt; rfl
        · rw [update_ne _ _ htt] at hp
          exact absurd (hb.owner t (TaskList.started_task hb.topological hi.sched hst) t' ht' p (hi.wr t p hp).1 hp' hkp) htt
      · rw [update_ne _ _ hpp]
        refine hm t p ?_ hkp
        by_cases htt : t = t'
        · subst htt
          rw [update_self] at hp
          exact (List.mem_cons.mp hp).resolve_left hpp
        · rw [update_ne _ _ htt] at hp; exact hp
    · exact hm
    · exact hm
  · intro hforce
    rcases step_cases hs with ⟨a', sched', rfl, hal, hss, rfl⟩ | ⟨k', t', rfl, hk', hd, rfl⟩ |
      ⟨k', t', p', rfl, hk', hd, hp', rfl⟩ | ⟨p', rfl, hkp, rfl⟩ | ⟨rfl, rfl⟩
    · exact hf hforce
    · intro t
      by_cases htt : t = t'
      · subst htt
        simp only [update_self]
        intro e
        injection e with e
        unfold decisionOf at e
        split at e
        · cases e
        · cases e
        · rename_i hrun
          rw [((C12_skip _ _ _).mp hrun).1] at hforce
          cases hforce
      · simp only [update_ne _ _ htt]; exact hf hforce t
    · exact hf hforce
    · exact hf hforce
    · exact hf hforce

theorem performs_written {r : Recipes P V D} {b : Build P} (hb : b.Sane) (hfine : b.fine = true) {desc : Nat → D}
    (hreads : ∀ t ∈ b.job.tasks, ∀ q, r.reads (desc t) q → In b t q) {w w' : World P V} {s : State P} (hfs : Plausible b w.fs w.clock)
    (hrun : Performs r b desc w s w') : Written r b desc s w'.content := by
  obtain ⟨as, hx, _, _⟩ := hrun
  refine execContents_induction (Q := Written r b desc) (fun _ _ _ _ h hs => written_step hb hfine hreads h hs) ⟨inv_init hfs, ?_, ?_⟩ hx
  · intro t p hp; cases hp
  · intro _ t ht; cases ht

/-- **C91.** When a build has succeeded, the targets of each recipe that has been executed contain what the recipe computes from the files that are there now, and from what it has been told
in this build, whatever the targets were before. -/
theorem C91_executed_partial {r : Recipes P V D} {b : Build P} (hb : b.Sane) (hfine : b.fine = true) (hdry : b.dryrun = false) {desc : Nat → D}
    (hreads : ∀ t ∈ b.job.tasks, ∀ q, r.reads (desc t) q → In b t q) {w w' : World P V} {s : State P} (hfs : Plausible b w.fs w.clock)
    (hrun : Performs r b desc w s w') (hok : s.Succeeded) {t : Nat} (ht : t ∈ b.job.tasks) (hex : s.Executed t) :
    ∀ p ∈ (b.task t).targets, b.kind p = false → w'.content p = r.make (desc t) w'.content p := by
  have h := performs_written hb hfine hreads hfs hrun
  obtain ⟨n, hn⟩ := hok
  have hfin := ((TaskList.C20_returns_complete hb.topological h.inv.sched hn).2 t ht).2
  intro p hp hk
  rcases h.inv.fin_ok t hfin with h' | ⟨_, h2⟩
  · unfold State.Executed at hex; rw [hex] at h'; cases h'
  · rcases (h2.resolve_left (by rw [hdry]; simp)) p hp with h3 | ⟨h3, _⟩
    · exact h.made t p h3 hk
    · rw [hk] at h3; cases h3

/-- **C91.** In a forced build that succeeds, all recipes are executed. -/
theorem C91_all_executed {r : Recipes P V D} {b : Build P} (hb : b.Sane) (hfine : b.fine = true) (hforce : b.force = true) {desc : Nat → D}
    (hreads : ∀ t ∈ b.job.tasks, ∀ q, r.reads (desc t) q → In b t q) {w w' : World P V} {s : State P} (hfs : Plausible b w.fs w.clock)
    (hrun : Performs r b desc w s w') (hok : s.Succeeded) : ∀ t ∈ b.job.tasks, s.Executed t := by
  have h := performs_written hb hfine hreads hfs hrun
  obtain ⟨n, hn⟩ := hok
  intro t ht
  rcases h.inv.fin_ok t ((TaskList.C20_returns_complete hb.topological h.inv.sched hn).2 t ht).2 with h' | ⟨h', _⟩
  · exact absurd h' (h.forced hforce t)
  · exact h'

/-- **C91.** After a forced build that has succeeded, all targets are what the recipes compute now. -/
theorem C91_forced_partial {r : Recipes P V D} {b : Build P} (hb : b.Sane) (hfine : b.fine = true) (hdry : b.dryrun = false) (hforce : b.force = true) {desc : Nat → D}
    (hreads : ∀ t ∈ b.job.tasks, ∀ q, r.reads (desc t) q → In b t q) {w w' : World P V} {s : State P} (hfs : Plausible b w.fs w.clock)
    (hrun : Performs r b desc w s w') (hok : s.Succeeded) : Consistent r b desc w'.content := fun t ht =>
  C91_executed_partial hb hfine hdry hreads hfs hrun hok ht (C91_all_executed hb hfine hforce hreads hfs hrun hok t ht)

end Maike.Build
