import Verif.Build.Load

/-!
# Dry runs (C38, C66)

For every project, file system state, number of workers and schedule.
-/

namespace Maike.Build

open Maike.Db (Dep isExternal)

variable {P : Type} [DecidableEq P]

/-! ## Lemmas -/

theorem dry_write {b : Build P} (hd : b.dryrun = true) (k : Nat) (p : P) (s : State P) : step b (.write k p) s = none := by
  simp only [step]
  split
  · simp [hd]
  · rfl

theorem dry_touch {b : Build P} (hd : b.dryrun = true) (p : P) (s : State P) : step b (.touchDir p) s = none := by
  simp [step, hd]

/-- Where an unsuccessful end of a task comes from. -/
theorem step_finish {j : TaskList.Job} {a : TaskList.Act} {s s' : TaskList.State} (h : TaskList.step j a s = some s') {t : Nat}
    {o : TaskList.Outcome} (hf : .finish t o ∈ s'.hist) : .finish t o ∈ s.hist ∨ ∃ k, a = .work k o ∧ s.running[k]? = some (t, .body) := by
  cases a with
  | main =>
    left
    simp only [TaskList.step, TaskList.stepMain, TaskList.wrap] at h
    repeat' split at h
    all_goals first
      | cases h; done
      | (simp only [Option.some.injEq] at h; subst h; simp only [List.mem_append, List.mem_singleton, reduceCtorEq, or_false] at hf; exact hf)
      | (simp only [Option.some.injEq] at h; subst h; exact hf)
  | take =>
    left
    simp only [TaskList.step, TaskList.stepTake] at h
    repeat' split at h
    all_goals first
      | cases h; done
      | (simp only [Option.some.injEq] at h; subst h; simp only [List.mem_append, List.mem_singleton, reduceCtorEq, or_false] at hf; exact hf)
  | work k o' =>
    simp only [TaskList.step, TaskList.stepWork] at h
    split at h
    · cases h
    · rename_i u hk
      cases o' <;> simp only [Option.some.injEq] at h <;> subst h <;>
        simp only [List.mem_append, List.mem_singleton, TaskList.Ev.finish.injEq] at hf <;>
        (rcases hf with hf | ⟨rfl, rfl⟩
         · exact .inl hf
         · exact .inr ⟨k, rfl, hk⟩)
    all_goals (simp only [Option.some.injEq] at h; subst h; exact .inl hf)

/-- What holds during dry runs. -/
structure DryInv (b : Build P) (fs : FileSys P) (s : State P) : Prop where
  sched : TaskList.Reachable b.job s.sched
  unchanged : s.fs = fs
  written : ∀ t, s.written t = []
  decision : ∀ t d, s.decision t = some d → d = decisionOf (shouldRun fs b.force (b.task t))
  noFailure : ∀ t, .finish t .failure ∉ s.sched.hist
  decided : ∀ t o, .finish t o ∈ s.sched.hist → s.decision t ≠ none ∧ (o = .success → s.decision t ≠ some .raise)

theorem dry_step {b : Build P} (hb : b.job.Topological) (hd : b.dryrun = true) {fs : FileSys P} {a : Act P} {s s' : State P}
    (hi : DryInv b fs s) (h : step b a s = some s') : DryInv b fs s' := by
  rcases step_cases h with ⟨a', sched', rfl, hal, hs, rfl⟩ | ⟨k, t, rfl, hk, hdn, rfl⟩ | ⟨k, t, p, rfl, _⟩ | ⟨p, rfl, _⟩ | ⟨rfl, rfl⟩
  · refine { hi with sched := hi.sched.step hs, noFailure := ?_, decided := ?_ }
    · intro t ht
      rcases step_finish hs ht with h' | ⟨k, rfl, hk⟩
      · exact hi.noFailure t h'
      · simp only [allowed, hk] at hal
        unfold mayEnd at hal
        split at hal
        · cases hal
        · simp [hd] at hal
        · simp at hal
        · simp at hal
    · intro t o ht
      rcases step_finish hs ht with h' | ⟨k, rfl, hk⟩
      · exact hi.decided t o h'
      · simp only [allowed, hk] at hal
        unfold mayEnd at hal
        split at hal
        · cases hal
        · rename_i e; simp [e]
        · rename_i e; simp [e]
        · rename_i e
          simp only [decide_eq_true_eq] at hal
          simp [e, hal]
  · obtain ⟨_, hnf, _⟩ := TaskList.body_facts hb hi.sched hk
    refine { hi with decision := ?_, decided := ?_ }
    · intro u d hu
      by_cases hut : u = t
      · subst hut
        simp only [update_self, Option.some.injEq] at hu
        rw [← hu, ← hi.unchanged]
      · simp only [update_ne _ _ hut] at hu
        exact hi.decision u d hu
    · intro u o hu
      have hut : u ≠ t := by rintro rfl; exact hnf o hu
      simp only [update_ne _ _ hut]
      exact hi.decided u o hu
  · rw [dry_write hd] at h; cases h
  · rw [dry_touch hd] at h; cases h
  · exact { hi with }

theorem dry_exec {b : Build P} (hb : b.job.Topological) (hd : b.dryrun = true) {fs : FileSys P} {now : Nat} {as : List (Act P)} {s : State P}
    (h : exec b as (init b fs now) = some s) : DryInv b fs s := by
  refine exec_induction (Q := DryInv b fs) (fun _ _ _ hi h => dry_step hb hd hi h) ?_ h
  refine ⟨⟨[], rfl⟩, rfl, fun _ => rfl, ?_, ?_, ?_⟩
  · intro t d h; simp [init] at h
  · intro t h; simp [init, TaskList.init] at h
  · intro t o h; simp [init, TaskList.init] at h

/-! ## C38 -/

/-- **C38.** During a dry run no file changes, and no recipe writes anything. -/
theorem C38_nothing_changes (b : Build P) (hb : b.job.Topological) (hd : b.dryrun = true) {fs : FileSys P} {now : Nat}
    {as : List (Act P)} {s : State P} (h : exec b as (init b fs now) = some s) :
    s.fs = fs ∧ ∀ t, s.written t = [] :=
  ⟨(dry_exec hb hd h).unchanged, (dry_exec hb hd h).written⟩

/-- **C38.** A dry run in which no thread can proceed has succeeded, provided that the source files exist and writing to the log does
not throw. -/
theorem C38_succeeds (b : Build P) (hb : b.job.Topological) (hw : 1 ≤ b.job.workers) (hd : b.dryrun = true) {fs : FileSys P} {now : Nat}
    (hsrc : ∀ t ∈ b.job.tasks, Exists fs (b.task t).src) {as : List (Act P)} {s : State P}
    (h : exec b as (init b fs now) = some s)
    (hlog : ∀ t, .finish t .threw ∈ s.sched.hist → s.decision t = some .raise)
    (hstuck : ∀ a s', step b a s = some s' → a = .tick) : s.sched.pc = .returned b.job.tasks.length := by
  have hi := dry_exec hb hd h
  have hnoraise : ∀ t ∈ b.job.tasks, s.decision t ≠ some .raise := by
    intro t ht he
    have h1 := hi.decision t _ he
    cases hr : shouldRun fs b.force (b.task t) with
    | error e => exact (C12_error fs b.force (b.task t) hr).1 (hsrc t ht)
    | ok v => rw [hr] at h1; cases v <;> cases h1
  refine TaskList.C20_success_runs_everything hb hw hi.sched ?_ ?_
  · intro a
    cases hs : TaskList.step b.job a s.sched with
    | none => rfl
    | some s' =>
      exfalso
      have notAllowed : ∀ a s', TaskList.step b.job a s.sched = some s' → allowed b s a = true → False := by
        intro a s' hs hal
        have := hstuck (.sched a) { s with sched := s' } (by simp [step, hal, hs])
        cases this
      cases a with
      | main => exact notAllowed _ _ hs rfl
      | take => exact notAllowed _ _ hs rfl
      | work k o =>
        cases hk : s.sched.running[k]? with
        | none => simp [TaskList.step, TaskList.stepWork, hk] at hs
        | some x =>
          obtain ⟨t, st⟩ := x
          cases st with
          | body =>
            obtain ⟨_, _, ht⟩ := TaskList.body_facts hb hi.sched hk
            cases hdec : s.decision t with
            | none =>
              have hc : ∃ s', step b (.check k) s = some s' := ⟨_, by simp only [step, hk, hdec, if_true]; rfl⟩
              obtain ⟨s'', hc⟩ := hc
              cases hstuck _ _ hc
            | some d =>
              have hal : allowed b s (.work k .success) = true := by
                simp only [allowed, hk, mayEnd, hdec]
                cases d with
                | run => simp [hd]
                | skip => simp
                | raise => exact absurd hdec (hnoraise t ht)
              obtain ⟨s'', hs''⟩ : ∃ s'', TaskList.step b.job (.work k .success) s.sched = some s'' :=
                ⟨_, by simp only [TaskList.step, TaskList.stepWork, hk]; rfl⟩
              exact notAllowed _ _ hs'' hal
          | throwing => exact notAllowed _ _ hs (by simp [allowed, hk])
          | exiting => exact notAllowed _ _ hs (by simp [allowed, hk])
          | unlocking => exact notAllowed _ _ hs (by simp [allowed, hk])
  · intro t o hf
    cases o with
    | success => rfl
    | failure => exact absurd hf (hi.noFailure t)
    | threw =>
      have ht : t ∈ b.job.tasks := by
        have hia := TaskList.invA hb hi.sched
        apply hia.subs_tasks
        rw [hia.fifo]
        exact List.mem_append_left _ ((hia.fin_iff t).mp (TaskList.mem_fins.mpr ⟨_, hf⟩)).1
      exact absurd (hlog t hf) (hnoraise t ht)

/-- Actions other than the passage of time. -/
def Act.isProgress : Act P → Bool
  | .tick => false
  | _ => true

theorem sched_of_exec {b : Build P} {as : List (Act P)} {s s' : State P} (h : exec b as s = some s') :
    TaskList.exec b.job (as.filterMap fun | .sched a => some a | _ => none) s.sched = some s'.sched := by
  induction as generalizing s with
  | nil => simp [exec] at h; subst h; rfl
  | cons a as ih =>
    simp only [exec] at h
    split at h
    · rename_i s1 hs1
      have h2 := ih h
      rcases step_cases hs1 with ⟨a', sched', rfl, hal, hs, rfl⟩ | ⟨k, t, rfl, hk, hdn, rfl⟩ | ⟨k, t, p, rfl, _, _, _, rfl⟩ | ⟨p, rfl, _, rfl⟩ |
        ⟨rfl, rfl⟩
      · simp only [List.filterMap_cons, TaskList.exec, hs]
        exact h2
      all_goals exact h2
    · cases h

/-- **C38.** A dry run ends: apart from the passage of time, the number of actions is bounded, whatever the schedule. -/
theorem C38_bounded (b : Build P) (hb : b.job.Topological) (hd : b.dryrun = true) :
    ∃ bound : Nat, ∀ (fs : FileSys P) (now : Nat) (as : List (Act P)) (s : State P), exec b as (init b fs now) = some s →
      (as.filter Act.isProgress).length ≤ bound := by
  obtain ⟨bound, hbound⟩ := TaskList.C17_bounded hb
  refine ⟨bound + b.job.tasks.length, fun fs now as s h => ?_⟩
  have h1 := hbound _ _ (sched_of_exec h)
  -- tasks for which nothing has been decided
  have h2 : ∀ (as : List (Act P)) (s0 s : State P), DryInv b fs s0 → exec b as s0 = some s →
      (as.filter Act.isProgress).length + (b.job.tasks.filter fun t => s.decision t = none).length ≤
        (as.filterMap fun | .sched a => some a | _ => none).length + (b.job.tasks.filter fun t => s0.decision t = none).length := by
    intro as
    induction as with
    | nil => intro s0 s _ h; simp [exec] at h; subst h; simp
    | cons a as ih =>
      intro s0 s hi h
      simp only [exec] at h
      split at h
      · rename_i s1 hs1
        have h2 := ih s1 s (dry_step hb hd hi hs1) h
        rcases step_cases hs1 with ⟨a', sched', rfl, hal, hs, rfl⟩ | ⟨k, t, rfl, hk, hdn, rfl⟩ | ⟨k, t, p, rfl, _⟩ | ⟨p, rfl, _⟩ | ⟨rfl, rfl⟩
        · simp only [List.filter_cons, List.filterMap_cons, Act.isProgress, if_true, List.length_cons]
          dsimp only at h2
          omega
        · obtain ⟨_, _, ht⟩ := TaskList.body_facts hb hi.sched hk
          simp only [List.filter_cons, List.filterMap_cons, Act.isProgress, if_true, List.length_cons]
          have hlt : (b.job.tasks.filter fun u => update s0.decision t (some
              (decisionOf (shouldRun s0.fs b.force (b.task t)))) u = none).length < (b.job.tasks.filter fun t => s0.decision t = none).length := by
            generalize (decisionOf (shouldRun s0.fs b.force (b.task t))) = d
            clear h1 h2 hbound ih hi
            generalize b.job.tasks = l at ht
            have le : ∀ l : List Nat, (l.filter fun u => update s0.decision t (some d) u = none).length ≤
                (l.filter fun t => s0.decision t = none).length := by
              intro l
              induction l with
              | nil => simp
              | cons x l ih =>
                simp only [List.filter_cons]
                by_cases hx : x = t
                · subst hx
                  simp only [update_self, hdn, reduceCtorEq, decide_false, decide_true, if_true, List.length_cons, Bool.false_eq_true, if_false]
                  omega
                · simp only [update_ne _ _ hx]
                  split <;> (try simp only [List.length_cons]) <;> omega
            induction l with
            | nil => simp at ht
            | cons x l ih =>
              simp only [List.filter_cons]
              by_cases hx : x = t
              · subst hx
                simp only [update_self, hdn, reduceCtorEq, decide_false, decide_true, if_true, List.length_cons, Bool.false_eq_true, if_false]
                have := le l
                omega
              · have := ih (by simpa [Ne.symm hx] using ht)
                simp only [update_ne _ _ hx]
                split <;> (try simp only [List.length_cons]) <;> omega
          dsimp only at h2
          omega
        · rw [dry_write hd] at hs1; cases hs1
        · rw [dry_touch hd] at hs1; cases hs1
        · simpa [List.filter_cons, Act.isProgress] using h2
      · cases h
  have hi0 : DryInv b fs (init b fs now) := dry_exec hb hd (as := []) rfl
  have h3 := h2 as _ _ hi0 h
  have h4 : (b.job.tasks.filter fun t => (init b fs now).decision t = none).length ≤ b.job.tasks.length := List.length_filter_le _ _
  omega

/-! ## C66 -/

/-- **C66.** A dry run announces only commands that would be executed: if the decision in a dry run is to execute the command of a task whose targets are
not directories, then every build that starts with the same files and succeeds executes it. -/
theorem C66_announced_are_executed (b : Build P) (hb : b.Sane) (hfine : b.fine = true) {fs : FileSys P} {now : Nat}
    (hfs : Plausible b fs now) {as as' : List (Act P)} {s s' : State P}
    (hdry : exec { b with dryrun := true } as (init { b with dryrun := true } fs now) = some s)
    (hreal : exec { b with dryrun := false } as' (init { b with dryrun := false } fs now) = some s') (hok : s'.Succeeded)
    {t : Nat} (ht : t ∈ b.job.tasks) (hfiles : ∀ p ∈ (b.task t).targets, b.kind p = false) (hex : s.Executed t) : s'.Executed t := by
  have hi := dry_exec (b := { b with dryrun := true }) hb.topological rfl hdry
  have hrun : shouldRun fs b.force (b.task t) = .ok true := by
    have h1 := hi.decision t _ hex
    revert h1
    show Decision.run = (decisionOf (shouldRun fs b.force (b.task t))) → _
    cases shouldRun fs b.force (b.task t) with
    | error e => intro h; cases h
    | ok v => cases v <;> intro h <;> first | rfl | cases h
  have hb' : Build.Sane { b with dryrun := false } := ⟨hb.topological, hb.owner, hb.waits, hb.closed, hb.dirs⟩
  have hfs' : Plausible { b with dryrun := false } fs now := ⟨hfs.past, hfs.kinds⟩
  -- files only become newer, and nobody else changes the targets
  let Q : State P → Prop := fun s =>
    Inv { b with dryrun := false } s ∧
    (∀ p st, b.kind p = false → fs p = some st → ∃ st', s.fs p = some st' ∧ st.mtime ≤ st'.mtime) ∧
    (s.decision t = none → ∀ p ∈ (b.task t).targets, s.fs p = fs p) ∧ s.decision t ≠ some .skip
  have hQ : Q s' := by
    refine exec_induction (Q := Q) ?_ ?_ hreal
    · rintro s1 a s2 ⟨q1, q2, q3, q4⟩ hs
      have q1' := inv_step hb' hfine q1 hs
      refine ⟨q1', ?_⟩
      rcases step_cases hs with ⟨a', sched', rfl, hal, hss, rfl⟩ | ⟨k, u, rfl, hk, hd, rfl⟩ |
        ⟨k, u, p, rfl, hk, hd, hp, rfl⟩ | ⟨p, rfl, hkp, rfl⟩ | ⟨rfl, rfl⟩
      · exact ⟨q2, q3, q4⟩
      · refine ⟨q2, ?_, ?_⟩
        · intro h
          by_cases hut : t = u
          · subst hut; simp [update_self] at h
          · simp only [update_ne _ _ hut] at h; exact q3 h
        · by_cases hut : t = u
          · subst hut
            simp only [update_self]
            intro hskip
            have hsk : shouldRun s1.fs b.force (b.task t) = .ok false := by
              revert hskip
              show some (decisionOf (shouldRun s1.fs b.force (b.task t))) = some .skip → _
              cases shouldRun s1.fs b.force (b.task t) with
              | error e => intro h; cases h
              | ok v => cases v <;> intro h <;> first | rfl | cases h
            obtain ⟨g1, g2, g3⟩ := (C12_skip _ _ _).mp hsk
            have hfr := (upToDate_iff hb' q1.kinds ht).mp g3
            have hup : UpToDate fs (b.task t) := by
              refine (upToDate_iff hb' hfs.kinds ht).mpr fun p hp => ?_
              obtain ⟨⟨st, e1⟩, e2⟩ := hfr p hp
              have hsame := q3 hd p hp
              refine ⟨⟨st, by rw [← hsame]; exact e1⟩, fun hkp q hq => ?_⟩
              obtain ⟨sp, e3, e4⟩ := e2 hkp q hq
              refine ⟨sp, by rw [← hsame]; exact e3, fun sq hsq => ?_⟩
              obtain ⟨sq', e5, e6⟩ := q2 q sq hq.1 hsq
              have := e4 sq' e5
              omega
            have := (C12_skip fs b.force (b.task t)).mpr ⟨g1, g2, hup⟩
            rw [hrun] at this
            cases this
          · simp only [update_ne _ _ hut]; exact q4
      · have hu := (TaskList.body_facts hb.topological q1.sched hk).2.2
        refine ⟨?_, ?_, q4⟩
        · intro q st hkq hq
          obtain ⟨st', e1, e2⟩ := q2 q st hkq hq
          by_cases hqp : q = p
          · subst hqp
            simp only [update_self]
            have := q1.past q st' hkq e1
            exact ⟨_, rfl, by simp only; omega⟩
          · simp only [update_ne _ _ hqp]; exact ⟨st', e1, e2⟩
        · intro h q hq
          have hqp : q ≠ p := by
            rintro rfl
            have := hb.owner t ht u hu q hq hp (hfiles q hq)
            subst this
            simp only at h
            rw [hd] at h; cases h
          simp only [update_ne _ _ hqp]; exact q3 h q hq
      · refine ⟨?_, ?_, q4⟩
        · intro q st hkq hq
          have hqp : q ≠ p := by rintro rfl; rw [show b.kind q = true from hkp] at hkq; cases hkq
          simp only [update_ne _ _ hqp]; exact q2 q st hkq hq
        · intro h q hq
          have hqp : q ≠ p := by
            rintro rfl
            have := hfiles q hq
            rw [show b.kind q = true from hkp] at this; cases this
          simp only [update_ne _ _ hqp]; exact q3 h q hq
      · exact ⟨q2, q3, q4⟩
    · exact ⟨inv_init hfs', fun p st _ h => ⟨st, h, Nat.le_refl _⟩, fun _ _ _ => rfl, by simp [init]⟩
  obtain ⟨n, hn⟩ := hok
  have hfin := ((TaskList.C20_returns_complete hb.topological hQ.1.sched hn).2 t ht).2
  rcases hQ.1.fin_ok t hfin with h' | ⟨h', _⟩
  · exact absurd h' hQ.2.2.2
  · exact h'

/-- In the initial state of the chain of two tasks all targets exist, but the first one is out of date. -/
def staleFs : FileSys Nat := fun
  | 0 => some ⟨5, false⟩
  | 1 => some ⟨3, false⟩
  | 2 => some ⟨1, false⟩
  | 3 => some ⟨4, false⟩
  | _ => none

/-- **C66.** The converse is false of the code: a dry run does not announce the commands that become necessary because of those that are announced. Here, the
dry run announces the first command only, and the build executes both. -/
theorem C66_not_all_announced :
    builds { chain true with dryrun := true } staleFs 10
      (auto { chain true with dryrun := true } 100 (init { chain true with dryrun := true } staleFs 10)) = (true, [0]) ∧
    builds (chain true) staleFs 10 (auto (chain true) 100 (init (chain true) staleFs 10)) = (true, [0, 1]) := by
  decide +kernel

/-- The hypotheses of the theorems about dry runs are met: `chainFs` has both sources, and a dry run announces both commands. -/
example : builds { chain true with dryrun := true } chainFs 10
    (auto { chain true with dryrun := true } 100 (init { chain true with dryrun := true } chainFs 10)) = (true, [0, 1]) ∧
    finalFs { chain true with dryrun := true } chainFs 10
      (auto { chain true with dryrun := true } 100 (init { chain true with dryrun := true } chainFs 10)) 1 = none := by
  decide +kernel

end Maike.Build
