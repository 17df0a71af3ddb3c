import Verif.Build.Fleet
import Verif.Build.Necessary

/-!
# Nothing is left to do after several runs at the same time (C115)

Runs that make the same targets may rewrite files that another run has used already, so that a target may be older than one of its inputs. Whoever has rewritten the input looks at the target later on, so
this does not last, provided that all runs that have written something succeed.
-/

namespace Maike.Build

variable {P V D : Type} [DecidableEq P]

/-! ## Specification -/

/-- The runs have been told to make the same targets. Some may be forced, and they need not have the same number of threads. -/
def SameTargets (b : Nat → Build P) : Prop := ∀ i j, (b i).task = (b j).task ∧ (b i).job.tasks = (b j).job.tasks

/-- Run `i` has written something. -/
def Fleet.Wrote (F : Fleet P V) (i : Nat) : Prop := ∃ t, (F.part i).written t ≠ []

/-! ## Proof -/

/-- Run `i` will not make `p` any more. -/
def Fleet.Done (F : Fleet P V) (i t : Nat) (p : P) : Prop := (F.part i).decision t = some .skip ∨ p ∈ (F.part i).written t

section

variable {r : Recipes P V D} {kind area : P → Bool} {pr : Project r kind area} {w : World P V} {b : Nat → Build P} {desc : Nat → Nat → D}

structure FIdle (kind : P → Bool) (b : Nat → Build P) (F : Fleet P V) : Prop where
  wrt : ∀ i t, ∀ p ∈ (F.part i).written t, (F.part i).decision t = some .run
  there : ∀ i t p, F.Done i t p → p ∈ ((b i).task t).targets → Exists F.fs p
  fin : ∀ i t, .finish t .success ∈ (F.part i).sched.hist → ∀ p ∈ ((b i).task t).targets, Exists F.fs p
  new : ∀ i t p q, F.Done i t p → t ∈ (b i).job.tasks → p ∈ ((b i).task t).targets → kind p = false → In (b i) t q →
    StrictlyNewer F.fs p q ∨ ∃ j u, q ∈ (F.part j).written u ∧ ¬ F.Done j t p

omit [DecidableEq P] in
theorem FIdle.decided {F : Fleet P V} (hd : FIdle kind b F) {i t : Nat} {p : P} (h : F.Done i t p) : (F.part i).decision t ≠ none := by
  rcases h with h | h
  · rw [h]; simp
  · rw [hd.wrt i t p h]; simp

omit [DecidableEq P] in
theorem fidle_start : FIdle kind b (.start b w) where
  wrt := fun _ _ p hp => by simp [Fleet.start, init] at hp
  there := fun _ _ p hp => by simp [Fleet.start, init, Fleet.Done] at hp
  fin := fun _ t h => by simp [Fleet.start, init, TaskList.init] at h
  new := fun _ _ p _ hp => by simp [Fleet.start, init, Fleet.Done] at hp

omit [DecidableEq P] in
/-- Nothing that matters has changed. -/
theorem fidle_congr {F G : Fleet P V} (hd : FIdle kind b F) (hdec : ∀ i, (G.part i).decision = (F.part i).decision) (hwr : ∀ i, (G.part i).written = (F.part i).written)
    (hex : ∀ p, Exists F.fs p → Exists G.fs p) (hfs : ∀ p, kind p = false → G.fs p = F.fs p) (hin : ∀ i t q, In (b i) t q → kind q = false)
    (hfin : ∀ i t, .finish t .success ∈ (G.part i).sched.hist → .finish t .success ∈ (F.part i).sched.hist ∨ ∀ p ∈ ((b i).task t).targets, Exists G.fs p) : FIdle kind b G := by
  have hdone : ∀ i t p, G.Done i t p ↔ F.Done i t p := fun i t p => by unfold Fleet.Done; rw [hdec, hwr]
  refine ⟨fun i t p hp => ?_, fun i t p h hp => ?_, fun i t h p hp => ?_, fun i t p q h ht hp hkp hq => ?_⟩
  · rw [hdec]; rw [hwr] at hp; exact hd.wrt i t p hp
  · exact hex p (hd.there i t p ((hdone i t p).mp h) hp)
  · rcases hfin i t h with h | h
    · exact hex p (hd.fin i t h p hp)
    · exact h p hp
  · rcases hd.new i t p q ((hdone i t p).mp h) ht hp hkp hq with h | ⟨j, u, h1, h2⟩
    · refine .inl ?_
      unfold StrictlyNewer
      rw [hfs p hkp, hfs q (hin i t q hq)]; exact h
    · exact .inr ⟨j, u, by rw [hwr]; exact h1, fun h => h2 ((hdone j t p).mp h)⟩

theorem fidle_step (hc : Crew pr w b desc) (hsame : SameTargets b) {F F' : Fleet P V} (hi : FInv pr w b desc F) (hd : FIdle kind b F) {a : FAct P V} (ha : a.whole = true)
    (h : Fleet.step r b desc a F = some F') : FIdle kind b F' := by
  have hkinds : ∀ i, (b i).kind = kind := fun i => by obtain ⟨v, hv, _⟩ := hc.plan i; exact pr.kinds hv
  have hsane : ∀ i, (b i).Sane := fun i => by obtain ⟨v, hv, _⟩ := hc.plan i; exact pr.sane hv
  have hfine : ∀ i, (b i).fine = true := fun i => by obtain ⟨v, hv, _⟩ := hc.plan i; exact pr.fine hv
  have hin : ∀ i t q, In (b i) t q → kind q = false := fun i t q h => by rw [← hkinds i]; exact h.1
  have hinj : ∀ i j t q, In (b i) t q → In (b j) t q := fun i j t q h => by
    unfold In at h ⊢
    rw [hkinds j, ← (hsame i j).1, ← hkinds i]; exact h
  have hcases := fleet_cases ha h
  clear h
  rcases hcases with ⟨i, a', sched', hal, hs, rfl⟩ | ⟨i, k, t, hk, hdn, rfl⟩ | ⟨i, k, t, p, hk, hdr, hp, rfl⟩ | ⟨i, p, hkp, rfl⟩ | ⟨i, rfl⟩ | ⟨i, k, t, q, hk, rfl⟩
  · refine fidle_congr hd (fun j => ?_) (fun j => ?_) (fun _ h => h) (fun _ _ => rfl) hin fun j t => ?_
    · by_cases hj : j = i
      · subst hj; rw [part_put]; rfl
      · rw [part_put_ne _ _ hj]
    · by_cases hj : j = i
      · subst hj; rw [part_put]; rfl
      · rw [part_put_ne _ _ hj]
    · by_cases hj : j = i
      · subst hj; rw [part_put]
        intro h
        rcases TaskList.step_success hs h with h' | ⟨k, rfl, hk⟩
        · exact .inl h'
        · refine .inr ?_
          have hk' : (F.state j).sched.running[k]? = some (t, TaskList.Stage.body) := hk
          simp only [allowed, hk'] at hal
          unfold mayEnd at hal
          split at hal
          · cases hal
          · simp [hc.real j, Fleet.state] at hal
            intro p hp
            rcases hal p hp with h | h
            · exact hd.there j t p (.inr (of_decide_eq_true h)) hp
            · unfold isDir at h
              split at h
              · cases h
              · rename_i st hst; exact ⟨st, hst⟩
          · rename_i hds
            exact fun p hp => hd.there j t p (.inl hds) hp
          · simp at hal
      · rw [part_put_ne _ _ hj]; exact .inl
  · have hwn : ∀ p, p ∉ (F.part i).written t := fun p hp => by rw [hd.wrt i t p hp] at hdn; cases hdn
    obtain ⟨hst, hnf, ht⟩ := TaskList.body_facts (hsane i).topological (hi.sched i) hk
    generalize hG : (F.put i { F.state i with decision := update (F.part i).decision t (some (decisionOf (shouldRun F.fs (b i).force ((b i).task t)))) }).reads i t F.content = G
    have hwr : ∀ j, (G.part j).written = (F.part j).written := fun j => by
      subst hG
      by_cases hj : j = i
      · subst hj; simp only [Fleet.reads, part_put]; rfl
      · simp only [Fleet.reads, part_put_ne _ _ hj]
    have hhist : ∀ j, (G.part j).sched = (F.part j).sched := fun j => by
      subst hG
      by_cases hj : j = i
      · subst hj; simp only [Fleet.reads, part_put]; rfl
      · simp only [Fleet.reads, part_put_ne _ _ hj]
    have hdec : ∀ j u, (j = i ∧ u = t ∧ (G.part j).decision u = some (decisionOf (shouldRun F.fs (b i).force ((b i).task t)))) ∨ (¬ (j = i ∧ u = t) ∧ (G.part j).decision u = (F.part j).decision u) := fun j u => by
      subst hG
      by_cases hj : j = i
      · subst hj
        by_cases hu : u = t
        · subst hu; exact .inl ⟨rfl, rfl, by simp only [Fleet.reads, part_put, update_self]⟩
        · exact .inr ⟨fun h => hu h.2, by simp only [Fleet.reads, part_put, update_ne _ _ hu]⟩
      · exact .inr ⟨fun h => hj h.1, by simp only [Fleet.reads, part_put_ne _ _ hj]⟩
    have hfs : G.fs = F.fs := by subst hG; rfl
    -- what the check has found
    have hfound : ∀ p, G.Done i t p → UpToDate F.fs ((b i).task t) := by
      rintro p (h | h)
      · rcases hdec i t with ⟨_, _, h'⟩ | ⟨h', _⟩
        · rw [h'] at h
          simp only [Option.some.injEq] at h
          unfold decisionOf at h; split at h
          · cases h
          · cases h
          · rename_i hrun; exact ((C12_skip _ _ _).mp hrun).2.2
        · exact absurd ⟨rfl, rfl⟩ h'
      · rw [hwr] at h; exact absurd h (hwn p)
    have hfresh : ∀ p, G.Done i t p → ∀ p' ∈ ((b i).task t).targets, Fresh (b i) F.fs t p' := fun p h =>
      (upToDate_iff (hsane i) (by rw [hkinds i]; exact hi.kept.kinds) ht).mp (hfound p h)
    have hdone : ∀ j u p, ¬ (j = i ∧ u = t) → (G.Done j u p ↔ F.Done j u p) := fun j u p hne => by
      unfold Fleet.Done
      rw [hwr]
      rcases hdec j u with ⟨h1, h2, _⟩ | ⟨_, h⟩
      · exact absurd ⟨h1, h2⟩ hne
      · rw [h]
    refine ⟨fun j u p hp => ?_, fun j u p h hp => ?_, fun j u h p hp => ?_, fun j u p q h hu hp hkp hq => ?_⟩
    · rw [hwr] at hp
      rcases hdec j u with ⟨rfl, rfl, _⟩ | ⟨_, h⟩
      · exact absurd hp (hwn p)
      · rw [h]; exact hd.wrt j u p hp
    · rw [hfs]
      by_cases hne : j = i ∧ u = t
      · obtain ⟨rfl, rfl⟩ := hne
        exact (hfresh p h p hp).1
      · exact hd.there j u p ((hdone j u p hne).mp h) hp
    · rw [hfs]; rw [hhist] at h; exact hd.fin j u h p hp
    · rw [hfs]
      by_cases hit : G.Done i t p ∧ u = t
      · obtain ⟨hit, rfl⟩ := hit
        rw [(hsame j i).1] at hp
        exact .inl ((hfresh p hit p hp).2 (by rw [hkinds i]; exact hkp) q (hinj j i u q hq))
      · have hne : ¬ (j = i ∧ u = t) := by rintro ⟨rfl, rfl⟩; exact hit ⟨h, rfl⟩
        rcases hd.new j u p q ((hdone j u p hne).mp h) hu hp hkp hq with h' | ⟨j', u', h1, h2⟩
        · exact .inl h'
        · refine .inr ⟨j', u', by rw [hwr]; exact h1, fun h3 => ?_⟩
          by_cases hne' : j' = i ∧ u = t
          · obtain ⟨rfl, rfl⟩ := hne'; exact hit ⟨h3, rfl⟩
          · exact h2 ((hdone j' u p hne').mp h3)
  · obtain ⟨hst, hnf, ht⟩ := TaskList.body_facts (hsane i).topological (hi.sched i) hk
    simp only [hkinds, hfine, if_true]
    generalize hG : ({ F.put i { F.state i with
          fs := update F.fs p (some ⟨F.clock, kind p⟩)
          clock := F.clock + 1
          written := update (F.part i).written t (p :: (F.part i).written t) } with content := update F.content p (r.make (desc i t) (F.got i t) p) } : Fleet P V) = G
    have hfs : G.fs = update F.fs p (some ⟨F.clock, kind p⟩) := by subst hG; rfl
    have hdec : ∀ j, (G.part j).decision = (F.part j).decision := fun j => by
      subst hG
      by_cases hj : j = i
      · subst hj; simp only [part_put]; rfl
      · simp only [part_put_ne _ _ hj]
    have hhist : ∀ j, (G.part j).sched = (F.part j).sched := fun j => by
      subst hG
      by_cases hj : j = i
      · subst hj; simp only [part_put]; rfl
      · simp only [part_put_ne _ _ hj]
    have hwr : ∀ j u x, x ∈ (G.part j).written u ↔ x ∈ (F.part j).written u ∨ (j = i ∧ u = t ∧ x = p) := fun j u x => by
      subst hG
      by_cases hj : j = i
      · subst hj
        simp only [part_put]
        by_cases hu : u = t
        · subst hu; simp [update_self, or_comm]
        · simp [update_ne _ _ hu, hu]
      · simp [part_put_ne _ _ hj, hj]
    have hdone : ∀ j u x, G.Done j u x ↔ F.Done j u x ∨ (j = i ∧ u = t ∧ x = p) := fun j u x => by
      unfold Fleet.Done
      rw [hdec, hwr, or_assoc]
    have hex : ∀ x, Exists F.fs x → Exists G.fs x := fun x h => by rw [hfs]; exact exists_update h
    refine ⟨fun j u x hx => ?_, fun j u x h hx => ?_, fun j u h x hx => ?_, fun j u x q h hu hx hkx hq => ?_⟩
    · rw [hdec]
      rcases (hwr j u x).mp hx with h | ⟨rfl, rfl, rfl⟩
      · exact hd.wrt j u x h
      · exact hdr
    · rcases (hdone j u x).mp h with h | ⟨rfl, rfl, rfl⟩
      · exact hex x (hd.there j u x h hx)
      · rw [hfs]; exact ⟨_, update_self _ _ _⟩
    · rw [hhist] at h; exact hex x (hd.fin j u h x hx)
    · have hqk := hin j u q hq
      have hu' : u ∈ (b i).job.tasks := by rw [(hsame i j).2]; exact hu
      have hqi := hinj j i u q hq
      -- a task that reads `p` has not been looked at
      have hlate : q = p → ∀ y, ¬ G.Done i u y := by
        rintro rfl y hy
        have hdep := (hsane i).waits u hu' q hqi.2 hqi.1 t ht hp
        have hsu : .start u ∈ (F.part i).sched.hist := by
          rcases (hdone i u y).mp hy with h | ⟨_, rfl, _⟩
          · exact hi.dstart i u (hd.decided h)
          · exact hst
        exact hnf _ (TaskList.dep_done (hsane i).topological (hi.sched i) hsu hdep ht)
      by_cases hxp : x = p
      · subst hxp
        refine .inl ⟨⟨F.clock, kind x⟩, by rw [hfs, update_self], fun sq hsq => ?_⟩
        have hqx : q ≠ x := by
          intro e
          have : u = t := (hsane i).owner u hu' t ht x (by rw [(hsame i j).1]; exact hx) hp (by rw [hkinds]; exact hkx)
          exact hlate e x ((hdone i u x).mpr (.inr ⟨rfl, this, rfl⟩))
        rw [hfs, update_ne _ _ hqx] at hsq
        exact hi.kept.past q sq hqk hsq
      · by_cases hqp : q = p
        · subst hqp
          exact .inr ⟨i, t, (hwr i t q).mpr (.inr ⟨rfl, rfl, rfl⟩), hlate rfl x⟩
        · have h : F.Done j u x := ((hdone j u x).mp h).resolve_right fun h => hxp h.2.2
          rcases hd.new j u x q h hu hx hkx hq with ⟨sx, h1, h2⟩ | ⟨j', u', h1, h2⟩
          · exact .inl ⟨sx, by rw [hfs, update_ne _ _ hxp]; exact h1, fun sq hsq => h2 sq (by rw [hfs, update_ne _ _ hqp] at hsq; exact hsq)⟩
          · exact .inr ⟨j', u', (hwr j' u' q).mpr (.inl h1), fun h3 => ((hdone j' u x).mp h3).elim h2 fun h => hxp h.2.2⟩
  · rw [hkinds i] at hkp
    refine fidle_congr hd (fun j => ?_) (fun j => ?_) (fun _ h => exists_update h) (fun x hx => update_ne _ _ (by rintro rfl; rw [hkp] at hx; cases hx)) hin fun j t => ?_
    · by_cases hj : j = i
      · subst hj; rw [part_put]; rfl
      · rw [part_put_ne _ _ hj]
    · by_cases hj : j = i
      · subst hj; rw [part_put]; rfl
      · rw [part_put_ne _ _ hj]
    · by_cases hj : j = i
      · subst hj; rw [part_put]; exact .inl
      · rw [part_put_ne _ _ hj]; exact .inl
  · refine fidle_congr hd (fun j => ?_) (fun j => ?_) (fun _ h => h) (fun _ _ => rfl) hin fun j t => ?_
    · by_cases hj : j = i
      · subst hj; rw [part_put]; rfl
      · rw [part_put_ne _ _ hj]
    · by_cases hj : j = i
      · subst hj; rw [part_put]; rfl
      · rw [part_put_ne _ _ hj]
    · by_cases hj : j = i
      · subst hj; rw [part_put]; exact .inl
      · rw [part_put_ne _ _ hj]; exact .inl
  · exact fidle_congr hd (fun _ => rfl) (fun _ => rfl) (fun _ h => h) (fun _ _ => rfl) hin fun _ _ => .inl

theorem together_idle (hc : Crew pr w b desc) (hsame : SameTargets b) (hkw : Kept pr w) {F : Fleet P V} (h : Together r b desc w F) : FIdle kind b F := by
  obtain ⟨as, has, hx⟩ := h
  have : ∀ (as : List (FAct P V)) (G : Fleet P V), (∀ a ∈ as, FAct.whole a = true) → FInv pr w b desc G → FIdle kind b G → Fleet.exec r b desc as G = some F → FIdle kind b F := by
    intro as
    induction as with
    | nil => intro G _ _ hd hx; simp only [Fleet.exec, Option.some.injEq] at hx; exact hx ▸ hd
    | cons a as ih =>
      intro G ha hi hd hx
      simp only [Fleet.exec] at hx
      split at hx
      · rename_i G' hs
        have h1 := ha a (List.mem_cons_self ..)
        exact ih G' (fun x hx => ha x (List.mem_cons_of_mem _ hx)) (finv_step hc hkw hi h1 hs) (fidle_step hc hsame hi hd h1 hs) hx
      · cases hx
  exact this as _ has (finv_start hkw) fidle_start hx

omit [DecidableEq P] in
/-- What there is a reason to execute when everything is up to date. -/
theorem necessary_always {b : Build P} (hb : b.Sane) {fs : FileSys P} (hfr : ∀ t ∈ b.job.tasks, ∀ p ∈ (b.task t).targets, Fresh b fs t p) {t : Nat} (ht : t ∈ b.job.tasks)
    (h : Necessary b fs t) : AlwaysRebuilt b t := by
  induction h with
  | always h => exact ⟨_, ht, .inl rfl, h⟩
  | missing hp h => exact absurd (hfr _ ht _ hp).1 h
  | older hp hk hq h1 h2 hle =>
    obtain ⟨sp, h3, h4⟩ := (hfr _ ht _ hp).2 hk _ hq
    obtain rfl := Option.some.inj (h1.symm.trans h3)
    exact absurd (h4 _ h2) (Nat.not_lt_of_le hle)
  | made hp hk hq hu hqu _ ih =>
    have hdep := hb.waits _ ht _ hq.2 hq.1 _ hu hqu
    obtain ⟨v, hv, hor, hpol⟩ := ih hu
    refine ⟨v, hv, .inr ?_, hpol⟩
    rcases hor with rfl | h
    · exact hdep
    · exact hb.closed _ ht _ hu _ hv hdep h

/-! ## C115 -/

/-- **C115.** When runs have been told to make the same targets, and all runs that have written anything have succeeded, then everything is up to date. -/
theorem C115_up_to_date_partial (hpast : SharedPast pr w) (hc : Crew pr w b desc) (hsame : SameTargets b) {F : Fleet P V} (h : Together r b desc w F)
    (hall : ∀ j, F.Wrote j → (F.state j).Succeeded) {i : Nat} (hok : (F.state i).Succeeded) :
    ∀ t ∈ (b i).job.tasks, UpToDate F.fs ((b i).task t) ∧ ∀ p ∈ ((b i).task t).targets, Exists F.fs p := by
  have hi := together_inv hc (shared_kept hpast) h
  have hd := together_idle hc hsame (shared_kept hpast) h
  have hsane : ∀ i, (b i).Sane := fun i => by obtain ⟨v, hv, _⟩ := hc.plan i; exact pr.sane hv
  have hkinds : ∀ i, (b i).kind = kind := fun i => by obtain ⟨v, hv, _⟩ := hc.plan i; exact pr.kinds hv
  have hdone : ∀ j, (F.state j).Succeeded → ∀ t ∈ (b i).job.tasks, ∀ p ∈ ((b i).task t).targets, kind p = false → F.Done j t p := by
    rintro j ⟨n, hn⟩ t ht p hp hkp
    rw [(hsame i j).2] at ht
    rw [(hsame i j).1] at hp
    exact (hi.fin j t ((TaskList.C20_returns_complete (hsane j).topological (hi.sched j) hn).2 t ht).2).imp id fun h => h p hp hkp
  intro t ht
  have hex : ∀ p ∈ ((b i).task t).targets, Exists F.fs p := by
    obtain ⟨n, hn⟩ := hok
    exact hd.fin i t ((TaskList.C20_returns_complete (hsane i).topological (hi.sched i) hn).2 t ht).2
  refine ⟨(upToDate_iff (hsane i) (by rw [hkinds]; exact hi.kept.kinds) ht).mpr fun p hp => ⟨hex p hp, fun hkp q hq => ?_⟩, hex⟩
  rw [hkinds] at hkp
  rcases hd.new i t p q (hdone i hok t ht p hp hkp) ht hp hkp hq with h | ⟨j, u, h1, h2⟩
  · exact h
  · exact absurd (hdone j (hall j ⟨u, fun e => by rw [e] at h1; cases h1⟩) t ht p hp hkp) h2

/-- **C115.** The next run executes nothing then, apart from what is always executed. -/
theorem C115_idle_partial (hpast : SharedPast pr w) (hc : Crew pr w b desc) (hsame : SameTargets b) {F : Fleet P V} (h : Together r b desc w F)
    (hall : ∀ j, F.Wrote j → (F.state j).Succeeded) {i : Nat} (hok : (F.state i).Succeeded) {later : Nat} {as : List (Act P)} {s : State P}
    (hx : exec { b i with force := false } as (init { b i with force := false } F.fs later) = some s) {t : Nat} (ht : t ∈ (b i).job.tasks) (hex : s.Executed t) :
    AlwaysRebuilt (b i) t := by
  have hi := together_inv hc (shared_kept hpast) h
  obtain ⟨v, hv, _⟩ := hc.plan i
  have hkind := pr.kinds hv
  have hb := pr.sane hv
  have hk : ∀ p st, F.fs p = some st → st.dir = (b i).kind p := by rw [hkind]; exact hi.kept.kinds
  have hn := C86_only_if_necessary { b i with force := false } ⟨hb.topological, hb.owner, hb.waits, hb.closed, hb.dirs⟩ rfl hk hx ht hex
  exact necessary_always (b := { b i with force := false }) ⟨hb.topological, hb.owner, hb.waits, hb.closed, hb.dirs⟩
    (fun t ht => (upToDate_iff hb hk ht).mp (C115_up_to_date_partial hpast hc hsame h hall hok t ht).1) ht hn

end

end Maike.Build
