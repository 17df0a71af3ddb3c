import Verif.Build.Dry

/-!
# Building targets by name, one after the other (C69)

core/db/source_tree.cpp.
-/

set_option linter.unusedSectionVars false

namespace Maike.Build

open Maike.Db

variable {P : Type} [PathType P] [DecidableEq P] [Inhabited P]

/-- What does not change while targets are being built. `locate name` is `targetDirectory() / name`; see `Main/Targets.lean` for
that. -/
structure Setup (P : Type) where
  tree : SourceTree P
  locate : P → P
  workers : Nat
  force : Bool
  kind : P → Bool
  fine : Bool
  dryrun : Bool := false

/-- `getTarget`, core/db/source_tree.cpp:15-29; `none` is the exception. -/
def getTarget (c : Setup P) (name : P) : Option (Target P) := Map.lookup (c.locate name) c.tree.targets

/-- The build of one target, core/db/source_tree.cpp:42-53. -/
def Setup.build (c : Setup P) (t : Target P) : Build P :=
  { ofGraph c.tree.graph (taskListFor c.tree.graph t.sourceFilename).2 c.workers c.force c.kind c.fine with dryrun := c.dryrun }

/-- How a call of `compile` ends. -/
inductive Verdict (P : Type) where
  /-- it returns the number of tasks -/
  | completed (n : Nat)
  /-- exception from `getTarget` -/
  | unknown (name : P)
  /-- exception from the constructor of `TaskList` -/
  | cyclic (name : P)
  /-- exception from `TaskList::process` -/
  | failed (name : P)

/-- What has happened so far: the state of the file system, and the builds that have ended, in order. -/
structure Progress (P : Type) where
  fs : FileSys P
  clock : Nat
  builds : List (P × State P)
  total : Nat

/-- Nothing has been built. -/
def Progress.start (fs : FileSys P) (now : Nat) : Progress P := ⟨fs, now, [], 0⟩

/-- `compile` for a list of targets, core/db/source_tree.cpp:55-74, where `schedules` tells how the builds proceed. `none`: the schedules do not
describe what the threads do until the call ends. -/
def compileSeveral (c : Setup P) : List P → List (List (Act P)) → Progress P → Option (Verdict P × Progress P)
  | [], _, s => some (.completed s.total, s)
  | name :: names, schedules, s =>
    match getTarget c name with
    | none => some (.unknown name, s)
    | some t =>
      if (taskListFor c.tree.graph t.sourceFilename).1 = .ok then
        match schedules with
        | [] => none
        | as :: schedules =>
          match exec (c.build t) as (init (c.build t) s.fs s.clock) with
          | none => none
          | some r =>
            match r.sched.pc with
            | .returned n => compileSeveral c names schedules ⟨r.fs, r.clock, s.builds ++ [(name, r)], s.total + n⟩
            | .rethrown _ => some (.failed name, ⟨r.fs, r.clock, s.builds ++ [(name, r)], s.total⟩)
            | _ => none
      else some (.cyclic name, s)

/-! ## What a build leaves alone -/

/-- Tasks that are up to date, do not have the policy "always", and depend on each other only, are not executed, and stay up to date. `T` are the tasks of the
whole project. -/
theorem good_preserved {b : Build P} (hb : b.Sane) (hforce : b.force = false) (T G : Nat → Prop)
    (hT : ∀ t ∈ b.job.tasks, T t)
    (howner : ∀ t u p, T t → T u → p ∈ (b.task t).targets → p ∈ (b.task u).targets → b.kind p = false → t = u)
    (hGT : ∀ t, G t → T t) (hpol : ∀ t, G t → (b.task t).policy ≠ .always)
    (hclosed : ∀ t, G t → ∀ q, In b t q → ∀ u, T u → q ∈ (b.task u).targets → G u)
    (hdirs : ∀ t, G t → b.kind (b.task t).src = true → ∀ p ∈ (b.task t).targets, b.kind p = true)
    {fs : FileSys P} {now : Nat} (hkinds : ∀ p st, fs p = some st → st.dir = b.kind p)
    (hgood : ∀ t, G t → ∀ p ∈ (b.task t).targets, Fresh b fs t p)
    {as : List (Act P)} {s : State P} (h : exec b as (init b fs now) = some s) :
    (∀ t, G t → ¬ s.Executed t) ∧ ∀ t, G t → ∀ p ∈ (b.task t).targets, Fresh b s.fs t p := by
  let Q : State P → Prop := fun s =>
    TaskList.Reachable b.job s.sched ∧
    (∀ p st, s.fs p = some st → st.dir = b.kind p) ∧
    (∀ p, Exists fs p → Exists s.fs p) ∧
    (∀ t, G t → s.decision t ≠ some .run) ∧
    (∀ p, b.kind p = false → (∀ u, T u → p ∈ (b.task u).targets → G u) → s.fs p = fs p)
  have hfresh : ∀ s, Q s → ∀ t, G t → ∀ p ∈ (b.task t).targets, Fresh b s.fs t p := by
    rintro s ⟨q1, q2, q3, q4, q5⟩ t ht p hp
    obtain ⟨hex, hnew⟩ := hgood t ht p hp
    refine ⟨q3 p hex, fun hkp q hin => ?_⟩
    have hp' : s.fs p = fs p := by
      refine q5 p hkp (fun u hu hpu => ?_)
      rw [howner u t p hu (hGT t ht) hpu hp hkp]; exact ht
    have hq' : s.fs q = fs q := q5 q hin.1 (fun u hu hqu => hclosed t ht q hin u hu hqu)
    obtain ⟨sp, hsp, hlt⟩ := hnew hkp q hin
    exact ⟨sp, by rw [hp']; exact hsp, fun sq hsq => hlt sq (by rw [← hq']; exact hsq)⟩
  have hQ0 : Q (init b fs now) :=
    ⟨⟨[], rfl⟩, hkinds, fun _ h => h, fun _ _ => (by simp [init]), fun _ _ _ => rfl⟩
  have hQ : Q s := by
    refine exec_induction (Q := Q) ?_ hQ0 h
    intro s a s' hq hs
    have hfr := hfresh s hq
    obtain ⟨q1, q2, q3, q4, q5⟩ := hq
    rcases step_cases hs with ⟨a', sched', rfl, hal, hss, rfl⟩ | ⟨k, t, rfl, hk, hd, rfl⟩ |
      ⟨k, t, p, rfl, hk, hd, hp, rfl⟩ | ⟨p, rfl, hkp, rfl⟩ | ⟨rfl, rfl⟩
    · exact ⟨q1.step hss, q2, q3, q4, q5⟩
    · refine ⟨q1, q2, q3, ?_, q5⟩
      intro u hu
      by_cases hut : u = t
      · subst hut
        simp only [update_self]
        have hskip : shouldRun s.fs b.force (b.task u) = .ok false := by
          rw [C12_skip]
          exact ⟨hforce, hpol u hu, (upToDate_iff_of_dirs q2 (hdirs u hu)).mpr (hfr u hu)⟩
        rw [hskip]; simp [decisionOf]
      · simp only [update_ne _ _ hut]; exact q4 u hu
    · obtain ⟨_, _, ht⟩ := TaskList.body_facts hb.topological q1 hk
      refine ⟨q1, ?_, fun q hq => exists_update (q3 q hq), q4, ?_⟩
      · intro q st hq
        by_cases hqp : q = p
        · subst hqp
          simp only [update_self, Option.some.injEq] at hq
          subst hq; rfl
        · simp only [update_ne _ _ hqp] at hq
          exact q2 q st hq
      · intro q hkq hown
        by_cases hqp : q = p
        · subst hqp
          exact absurd hd (q4 t (hown t (hT t ht) hp))
        · simp only [update_ne _ _ hqp]; exact q5 q hkq hown
    · refine ⟨q1, ?_, fun q hq => exists_update (q3 q hq), q4, ?_⟩
      · intro q st hq
        by_cases hqp : q = p
        · subst hqp
          simp only [update_self, Option.some.injEq] at hq
          subst hq; exact hkp.symm
        · simp only [update_ne _ _ hqp] at hq
          exact q2 q st hq
      · intro q hkq hown
        have hqp : q ≠ p := by
          rintro rfl
          rw [show b.kind q = true from hkp] at hkq; cases hkq
        simp only [update_ne _ _ hqp]; exact q5 q hkq hown
    · exact ⟨q1, q2, q3, q4, q5⟩
  exact ⟨hQ.2.2.2.1, hfresh s hQ⟩

/-! ## One target -/

/-- Everything that is needed for a target: its source file, and what that depends on, as far as there is something to
build. -/
def Needed (c : Setup P) (t : Target P) (u : Nat) : Prop :=
  ∃ root, c.tree.graph.PathOf root t.sourceFilename ∧ Graph.Reach c.tree.graph.toGraph root u ∧ c.tree.graph.Builds u

/-- Neither the file, nor anything it depends on, has the policy "always". -/
def Steady (g : DepGraph P) (u : Nat) : Prop :=
  ∀ v p info, Graph.Reach g.toGraph u v → g.files[v]? = some (p, info) → info.policy ≠ .always

/-- Facts about the build of one target. -/
theorem build_facts {c : Setup P} {files : SrcList P} (hl : Loadable files c.kind) (h : load files = .ok c.tree)
    (hne : ∀ u, ¬ c.tree.graph.PathOf u PathType.empty) {t : Target P}
    (hok : (taskListFor c.tree.graph t.sourceFilename).1 = .ok) :
    (c.build t).Sane ∧ (∀ u, u ∈ (c.build t).job.tasks ↔ Needed c t u) ∧
    (∀ u, Needed c t u → ¬ ∃ x, Graph.Reach c.tree.graph.toGraph u x ∧ Graph.OnCycle c.tree.graph.toGraph x) ∧
    ∃ root, c.tree.graph.PathOf root t.sourceFilename := by
  obtain ⟨files1, files3, hc, h1, h3, hg, s3⟩ := load_ok hl.sorted h
  have hsg : Map.Sorted c.tree.graph.files := sorted_of_keys (C06_resolved _ s3 hg).1 s3
  obtain ⟨root, hroot⟩ : ∃ root, c.tree.graph.PathOf root t.sourceFilename := by
    cases hn : getNode c.tree.graph t.sourceFilename with
    | none => simp [taskListFor, hn] at hok
    | some node => exact ⟨node, ((C07_getNode files3 s3 hg _).1 node).mp hn⟩
  obtain ⟨hcyc, hrest⟩ := C21_single_target files3 s3 hg hroot
  obtain ⟨hmem, htop⟩ := hrest hok
  have hneed : ∀ u, u ∈ (taskListFor c.tree.graph t.sourceFilename).2 ↔ Needed c t u := by
    intro u
    rw [hmem u]
    constructor
    · rintro ⟨h1, h2⟩; exact ⟨root, hroot, h1, h2⟩
    · rintro ⟨r, hr, h1, h2⟩
      rw [path_unique hsg hr hroot] at h1
      exact ⟨h1, h2⟩
  have hac : ∀ u, Needed c t u →
      ¬ ∃ x, Graph.Reach c.tree.graph.toGraph u x ∧ Graph.OnCycle c.tree.graph.toGraph x := by
    rintro u hu ⟨x, hx, hxx⟩
    have := (hmem u).mp ((hneed u).mpr hu)
    exact hcyc.mp hok ⟨x, this.1.trans hx, hxx⟩
  refine ⟨?_, hneed, hac, root, hroot⟩
  have hs := sane_of_load hl h hne (fun u hu => ((hmem u).mp hu).2) (fun u hu => hac u ((hneed u).mp hu))
    (htop c.workers) c.force c.fine
  exact { hs with }

/-- What is known after some targets have been built successfully: `done` is what was needed for them. -/
structure Good (c : Setup P) (done : Nat → Prop) (s : Progress P) : Prop where
  past : ∀ p st, c.kind p = false → s.fs p = some st → st.mtime < s.clock
  kinds : ∀ p st, s.fs p = some st → st.dir = c.kind p
  builds : ∀ u, done u → c.tree.graph.Builds u
  acyclic : ∀ u, done u → ¬ ∃ x, Graph.Reach c.tree.graph.toGraph u x ∧ Graph.OnCycle c.tree.graph.toGraph x
  closed : ∀ u v, done u → Graph.Reach c.tree.graph.toGraph u v → c.tree.graph.Builds v → done v
  fresh : ∀ u, done u → Steady c.tree.graph u → ∀ p ∈ (makeTask c.tree.graph u).targets,
    Exists s.fs p ∧ (c.kind p = false → ∀ q, c.kind q = false → (q = (makeTask c.tree.graph u).src ∨
      ∃ d ∈ (makeTask c.tree.graph u).deps, d.name = q ∧ isExternal d.origin = false) → StrictlyNewer s.fs p q)

theorem Good.upToDate {c : Setup P} {files : SrcList P} (hl : Loadable files c.kind) (h : load files = .ok c.tree)
    {done : Nat → Prop} {s : Progress P} (hg : Good c done s) {u : Nat} (hu : done u) (hs : Steady c.tree.graph u) :
    UpToDate s.fs (makeTask c.tree.graph u) ∧ ∀ p ∈ (makeTask c.tree.graph u).targets, Exists s.fs p := by
  have hf := hg.fresh u hu hs
  refine ⟨?_, fun p hp => (hf p hp).1⟩
  refine (upToDate_iff_of_dirs (b := ofGraph c.tree.graph [] 0 false c.kind true) (t := u) hg.kinds ?_).mpr ?_
  · intro hk p hp; exact dirs_of_load hl h hk hp
  · intro p hp
    exact ⟨(hf p hp).1, fun hk q hq => (hf p hp).2 hk q hq.1 hq.2⟩

/-- One more target. -/
theorem good_step {c : Setup P} {files : SrcList P} (hl : Loadable files c.kind) (h : load files = .ok c.tree)
    (hne : ∀ u, ¬ c.tree.graph.PathOf u PathType.empty) (hforce : c.force = false) (hfine : c.fine = true) (hdry : c.dryrun = false)
    {t : Target P}
    (hok : (taskListFor c.tree.graph t.sourceFilename).1 = .ok) {done : Nat → Prop} {s : Progress P} (hg : Good c done s)
    {as : List (Act P)} {r : State P} (hx : exec (c.build t) as (init (c.build t) s.fs s.clock) = some r)
    {n : Nat} (hn : r.sched.pc = .returned n) (builds : List (P × State P)) (total : Nat) :
    Good c (fun u => done u ∨ Needed c t u) ⟨r.fs, r.clock, builds, total⟩ ∧
    (∀ u, done u → Steady c.tree.graph u → ¬ r.Executed u) ∧
    n = (c.build t).job.tasks.length := by
  obtain ⟨hsane, hmem, hac, root, hroot⟩ := build_facts hl h hne hok
  have hplaus : Plausible (c.build t) s.fs s.clock := ⟨hg.past, hg.kinds⟩
  have hi : Inv (c.build t) r := exec_induction (Q := Inv (c.build t))
    (fun _ _ _ hi h => inv_step hsane hfine hi h) (inv_init hplaus) hx
  have hnb : ∀ u, Needed c t u → c.tree.graph.Builds u := fun u ⟨_, _, _, hu⟩ => hu
  have hpres := good_preserved hsane hforce (fun u => c.tree.graph.Builds u)
    (fun u => done u ∧ Steady c.tree.graph u)
    (fun u hu => hnb u ((hmem u).mp hu))
    (fun u v p _ _ hp hq hk => owner_of_load hl h hp hq hk)
    (fun u hu => hg.builds u hu.1)
    (fun u hu => by
      obtain ⟨p, info, hi, _⟩ := hg.builds u hu.1
      have := hu.2 u p info (.refl u) hi
      show (makeTask c.tree.graph u).policy ≠ _
      simpa [makeTask, hi] using this)
    (fun u hu q hq v hv hqv => by
      have hr := reads_of_load hl h (hg.builds u hu.1) (hg.acyclic u hu.1) hq.2 hq.1 hqv
      exact ⟨hg.closed u v hu.1 hr.toReach hv, fun w p info hw hp => hu.2 w p info (hr.toReach.trans hw) hp⟩)
    (fun u hu hk p hp => dirs_of_load hl h hk hp)
    hg.kinds
    (fun u hu p hp => ⟨(hg.fresh u hu.1 hu.2 p hp).1, fun hk q hq => (hg.fresh u hu.1 hu.2 p hp).2 hk q hq.1 hq.2⟩)
    hx
  refine ⟨⟨hi.past, hi.kinds, ?_, ?_, ?_, ?_⟩, fun u hu hs => hpres.1 u ⟨hu, hs⟩,
    (TaskList.C20_returns_complete hsane.topological hi.sched hn).1⟩
  · rintro u (hu | hu)
    · exact hg.builds u hu
    · exact hnb u hu
  · rintro u (hu | hu)
    · exact hg.acyclic u hu
    · exact hac u hu
  · rintro u v (hu | ⟨root, h1, h2, h3⟩) huv hv
    · exact .inl (hg.closed u v hu huv hv)
    · exact .inr ⟨root, h1, h2.trans huv, hv⟩
  · rintro u (hu | hu) hs p hp
    · have := hpres.2 u ⟨hu, hs⟩ p hp
      exact ⟨this.1, fun hk q hkq hq => this.2 hk q ⟨hkq, hq⟩⟩
    · have hut := (hmem u).mpr hu
      obtain ⟨hup, hexs⟩ := C13_up_to_date _ hsane hfine hdry hplaus hx ⟨n, hn⟩ u hut
      have := (upToDate_iff hsane hi.kinds hut).mp hup p hp
      exact ⟨this.1, fun hk q hkq hq => this.2 hk q ⟨hkq, hq⟩⟩

/-- What is needed for the targets built so far. -/
def NeededFor (c : Setup P) (names : List P) (u : Nat) : Prop := ∃ name ∈ names, ∃ t, getTarget c name = some t ∧ Needed c t u

theorem good_run {c : Setup P} {files : SrcList P} (hl : Loadable files c.kind) (h : load files = .ok c.tree)
    (hne : ∀ u, ¬ c.tree.graph.PathOf u PathType.empty) (hforce : c.force = false) (hfine : c.fine = true) (hdry : c.dryrun = false)
    (names : List P) : ∀ (done : Nat → Prop) (schedules : List (List (Act P))) (s s' : Progress P) (n : Nat), Good c done s →
    compileSeveral c names schedules s = some (.completed n, s') →
    (∀ name ∈ names, ∃ t root, getTarget c name = some t ∧ c.tree.graph.PathOf root t.sourceFilename) ∧
    Good c (fun u => done u ∨ NeededFor c names u) s' ∧
    ∃ l, s'.builds = s.builds ++ l ∧ (∀ x ∈ l, ∀ u, done u → Steady c.tree.graph u → ¬ x.2.Executed u) ∧
      (∀ l₁ x l₂ y l₃, l = l₁ ++ x :: l₂ ++ y :: l₃ → ∀ u, Steady c.tree.graph u → x.2.Executed u → ¬ y.2.Executed u) := by
  induction names with
  | nil =>
    intro done schedules s s' n hg hc
    simp only [compileSeveral, Option.some.injEq, Prod.mk.injEq] at hc
    obtain ⟨_, rfl⟩ := hc
    refine ⟨by simp, ?_, [], by simp, by simp, ?_⟩
    · have : (fun u => done u ∨ NeededFor c [] u) = done := by
        funext u; simp [NeededFor]
      rw [this]; exact hg
    · intro l₁ x l₂ y l₃ hl
      have := congrArg List.length hl
      simp at this
  | cons name names ih =>
    intro done schedules s s' n hg hc
    unfold compileSeveral at hc
    split at hc
    · simp at hc
    · rename_i t ht
      split at hc
      · rename_i hok
        split at hc
        · cases hc
        · rename_i as rest
          split at hc
          · cases hc
          · rename_i r hx
            split at hc
            · rename_i k hk
              obtain ⟨hgood, hnot, _⟩ := good_step hl h hne hforce hfine hdry hok hg hx hk (s.builds ++ [(name, r)]) (s.total + k)
              obtain ⟨i1, i2, l, i3, i4, i5⟩ := ih _ _ _ _ _ hgood hc
              refine ⟨?_, ?_, (name, r) :: l, by rw [i3]; simp, ?_, ?_⟩
              · intro x hx'
                rcases List.mem_cons.mp hx' with rfl | hx'
                · obtain ⟨_, _, _, root, hroot⟩ := build_facts hl h hne hok
                  exact ⟨t, root, ht, hroot⟩
                · exact i1 x hx'
              · have : (fun u => (done u ∨ Needed c t u) ∨ NeededFor c names u) = fun u => done u ∨ NeededFor c (name :: names) u := by
                  funext u
                  apply propext
                  constructor
                  · rintro ((hu | hu) | ⟨x, hx', t', h1, h2⟩)
                    · exact .inl hu
                    · exact .inr ⟨name, by simp, t, ht, hu⟩
                    · exact .inr ⟨x, by simp [hx'], t', h1, h2⟩
                  · rintro (hu | ⟨x, hx', t', h1, h2⟩)
                    · exact .inl (.inl hu)
                    · rcases List.mem_cons.mp hx' with rfl | hx'
                      · rw [ht] at h1; simp only [Option.some.injEq] at h1; subst h1
                        exact .inl (.inr h2)
                      · exact .inr ⟨x, hx', t', h1, h2⟩
                rw [← this]; exact i2
              · intro x hx' u hu hs
                rcases List.mem_cons.mp hx' with rfl | hx'
                · exact hnot u hu hs
                · exact i4 x hx' u (.inl hu) hs
              · intro l₁ x l₂ y l₃ hl' u hs hexx
                cases l₁ with
                | nil =>
                  simp only [List.nil_append, List.cons_append, List.cons.injEq] at hl'
                  obtain ⟨rfl, hl'⟩ := hl'
                  refine i4 y (by rw [hl']; simp) u (.inr ?_) hs
                  obtain ⟨hsane, hmem, _, _⟩ := build_facts hl h hne hok
                  have hi : Inv (c.build t) r := exec_induction (Q := Inv (c.build t))
                    (fun _ _ _ hi h => inv_step hsane hfine hi h) (inv_init ⟨hg.past, hg.kinds⟩) hx
                  have hd : r.decision u = some .run := hexx
                  exact (hmem u).mp (TaskList.started_task hsane.topological hi.sched (hi.dstart u (by simp [hd])))
                | cons z l₁ =>
                  simp only [List.cons_append, List.cons.injEq] at hl'
                  exact i5 l₁ x l₂ y l₃ (by rw [hl'.2]) u hs hexx
            · simp at hc
            · cases hc
      · simp at hc

/-! ## Theorems -/

/-- **C69.** When targets are built one after the other, without forcing anything, and this succeeds, then at the end everything that was needed for any of them is up to
date, except for files that are always rebuilt or depend on such files. -/
theorem C69_up_to_date {c : Setup P} {files : SrcList P} (hl : Loadable files c.kind) (h : load files = .ok c.tree)
    (hne : ∀ u, ¬ c.tree.graph.PathOf u PathType.empty) (hforce : c.force = false) (hfine : c.fine = true) (hdry : c.dryrun = false)
    {fs : FileSys P} {now : Nat} (hpast : ∀ p st, c.kind p = false → fs p = some st → st.mtime < now)
    (hkinds : ∀ p st, fs p = some st → st.dir = c.kind p)
    {names : List P} {schedules : List (List (Act P))} {s : Progress P} {n : Nat}
    (hrun : compileSeveral c names schedules (.start fs now) = some (.completed n, s)) :
    ∀ name ∈ names, ∃ t root, (c.locate name, t) ∈ c.tree.targets ∧ c.tree.graph.PathOf root t.sourceFilename ∧
      ∀ u, Graph.Reach c.tree.graph.toGraph root u → c.tree.graph.Builds u → Steady c.tree.graph u →
        UpToDate s.fs (makeTask c.tree.graph u) ∧ ∀ p ∈ (makeTask c.tree.graph u).targets, Exists s.fs p := by
  have hg0 : Good c (fun _ => False) (.start fs now) :=
    ⟨hpast, hkinds, fun _ h => h.elim, fun _ h => h.elim, fun _ _ h => h.elim, fun _ h => h.elim⟩
  obtain ⟨h1, h2, _⟩ := good_run hl h hne hforce hfine hdry names _ schedules _ s n hg0 hrun
  intro name hname
  obtain ⟨t, root, ht, hroot⟩ := h1 name hname
  refine ⟨t, root, Map.lookup_mem ht, hroot, fun u hu hb hs => ?_⟩
  exact h2.upToDate hl h (.inr ⟨name, hname, t, ht, root, hroot, hu, hb⟩) hs

/-- **C69.** In this case no command is executed for more than one of the targets, with the same exceptions. -/
theorem C69_once {c : Setup P} {files : SrcList P} (hl : Loadable files c.kind) (h : load files = .ok c.tree)
    (hne : ∀ u, ¬ c.tree.graph.PathOf u PathType.empty) (hforce : c.force = false) (hfine : c.fine = true) (hdry : c.dryrun = false)
    {fs : FileSys P} {now : Nat} (hpast : ∀ p st, c.kind p = false → fs p = some st → st.mtime < now)
    (hkinds : ∀ p st, fs p = some st → st.dir = c.kind p)
    {names : List P} {schedules : List (List (Act P))} {s : Progress P} {n : Nat}
    (hrun : compileSeveral c names schedules (.start fs now) = some (.completed n, s)) {i j : Nat} (hij : i < j)
    {x y : P × State P} (hx : s.builds[i]? = some x) (hy : s.builds[j]? = some y) {u : Nat} (hs : Steady c.tree.graph u) :
    ¬ (x.2.Executed u ∧ y.2.Executed u) := by
  have hg0 : Good c (fun _ => False) (.start fs now) :=
    ⟨hpast, hkinds, fun _ h => h.elim, fun _ h => h.elim, fun _ _ h => h.elim, fun _ h => h.elim⟩
  obtain ⟨_, _, l, h3, _, h5⟩ := good_run hl h hne hforce hfine hdry names _ schedules _ s n hg0 hrun
  rintro ⟨hex, hey⟩
  simp only [Progress.start, List.nil_append] at h3
  rw [h3] at hx hy
  obtain ⟨l₁, l₂, hl1, hlen⟩ : ∃ l₁ l₂, l = l₁ ++ x :: l₂ ∧ l₁.length = i := by
    obtain ⟨hi, he⟩ := List.getElem?_eq_some_iff.mp hx
    refine ⟨l.take i, l.drop (i + 1), ?_, by simp; omega⟩
    rw [← he, ← List.drop_eq_getElem_cons, List.take_append_drop]
  subst hl1
  rw [List.getElem?_append_right (by omega)] at hy
  obtain ⟨k, hk⟩ : ∃ k, j - l₁.length = k + 1 := ⟨j - l₁.length - 1, by omega⟩
  rw [hk, List.getElem?_cons_succ] at hy
  obtain ⟨l₃, l₄, hl2⟩ := List.append_of_mem (List.mem_of_getElem? hy)
  exact h5 l₁ x l₃ y l₄ (by rw [hl2]; simp) u hs hex hey

/-- The number of tasks reported by a build. -/
def State.count (s : State P) : Nat :=
  match s.sched.pc with
  | .returned n => n
  | _ => 0

/-- The rest of a run after a successful build. -/
theorem compileSeveral_builds (c : Setup P) (names : List P) : ∀ (schedules : List (List (Act P))) (s s' : Progress P) (v : Verdict P),
    compileSeveral c names schedules s = some (v, s') →
    ∃ l, s'.builds = s.builds ++ l ∧
      match v with
      | .completed n => l.map Prod.fst = names ∧ (∀ x ∈ l, x.2.Succeeded) ∧ n = s'.total ∧
          s'.total = s.total + (l.map fun x => x.2.count).sum
      | .unknown name => ∃ rest, names = l.map Prod.fst ++ name :: rest ∧ (∀ x ∈ l, x.2.Succeeded) ∧ getTarget c name = none
      | .cyclic name => ∃ rest t, names = l.map Prod.fst ++ name :: rest ∧ (∀ x ∈ l, x.2.Succeeded) ∧
          getTarget c name = some t ∧ (taskListFor c.tree.graph t.sourceFilename).1 ≠ .ok
      | .failed name => ∃ rest l' r, l = l' ++ [(name, r)] ∧ names = l'.map Prod.fst ++ name :: rest ∧
          (∀ x ∈ l', x.2.Succeeded) ∧ ∃ k, r.sched.pc = .rethrown k := by
  induction names with
  | nil =>
    intro schedules s s' v hc
    simp only [compileSeveral, Option.some.injEq, Prod.mk.injEq] at hc
    obtain ⟨rfl, rfl⟩ := hc
    exact ⟨[], by simp, rfl, by simp, rfl, by simp⟩
  | cons name names ih =>
    intro schedules s s' v hc
    unfold compileSeveral at hc
    split at hc
    · rename_i ht
      simp only [Option.some.injEq, Prod.mk.injEq] at hc
      obtain ⟨rfl, rfl⟩ := hc
      exact ⟨[], by simp, names, by simp, by simp, ht⟩
    · rename_i t ht
      split at hc
      · rename_i hok
        split at hc
        · cases hc
        · rename_i as rest
          split at hc
          · cases hc
          · rename_i r hx
            split at hc
            · rename_i k hk
              obtain ⟨l, h1, h2⟩ := ih _ _ _ _ hc
              refine ⟨(name, r) :: l, by rw [h1]; simp, ?_⟩
              have hsucc : r.Succeeded := ⟨k, hk⟩
              cases v with
              | completed n =>
                obtain ⟨e1, e2, e3, e4⟩ := h2
                refine ⟨by simp [e1], ?_, e3, ?_⟩
                · intro x hx'
                  rcases List.mem_cons.mp hx' with rfl | hx'
                  · exact hsucc
                  · exact e2 x hx'
                · rw [e4]; simp [State.count, hk]; omega
              | unknown m =>
                obtain ⟨rest', e1, e2, e3⟩ := h2
                refine ⟨rest', by simp [e1], ?_, e3⟩
                intro x hx'
                rcases List.mem_cons.mp hx' with rfl | hx'
                · exact hsucc
                · exact e2 x hx'
              | cyclic m =>
                obtain ⟨rest', t', e1, e2, e3⟩ := h2
                refine ⟨rest', t', by simp [e1], ?_, e3⟩
                intro x hx'
                rcases List.mem_cons.mp hx' with rfl | hx'
                · exact hsucc
                · exact e2 x hx'
              | failed m =>
                obtain ⟨rest', l', r', e1, e2, e3, e4⟩ := h2
                refine ⟨rest', (name, r) :: l', r', by simp [e1], by simp [e2], ?_, e4⟩
                intro x hx'
                rcases List.mem_cons.mp hx' with rfl | hx'
                · exact hsucc
                · exact e3 x hx'
            · rename_i k hk
              simp only [Option.some.injEq, Prod.mk.injEq] at hc
              obtain ⟨rfl, rfl⟩ := hc
              exact ⟨[(name, r)], by simp, names, [], r, by simp, by simp, by simp, k, hk⟩
            · cases hc
      · rename_i hok
        simp only [Option.some.injEq, Prod.mk.injEq] at hc
        obtain ⟨rfl, rfl⟩ := hc
        exact ⟨[], by simp, names, t, by simp, by simp, ht, hok⟩

/-- **C69.** Targets are built in the order in which they are given. The call completes iff all builds succeed, and reports the sum of the numbers of
tasks. Otherwise the targets before the one that is to blame have been built, and nothing after it. -/
theorem C69_order (c : Setup P) {names : List P} {schedules : List (List (Act P))} {fs : FileSys P} {now : Nat} {s : Progress P}
    {v : Verdict P} (hrun : compileSeveral c names schedules (.start fs now) = some (v, s)) :
    match v with
    | .completed n => s.builds.map Prod.fst = names ∧ (∀ x ∈ s.builds, x.2.Succeeded) ∧ n = (s.builds.map fun x => x.2.count).sum
    | .unknown name => ∃ rest, names = s.builds.map Prod.fst ++ name :: rest ∧ (∀ x ∈ s.builds, x.2.Succeeded) ∧
        ∀ t, (c.locate name, t) ∉ c.tree.targets
    | .cyclic name => ∃ rest t, names = s.builds.map Prod.fst ++ name :: rest ∧ (∀ x ∈ s.builds, x.2.Succeeded) ∧
        (c.locate name, t) ∈ c.tree.targets ∧ (taskListFor c.tree.graph t.sourceFilename).1 ≠ .ok
    | .failed name => ∃ rest before r, s.builds = before ++ [(name, r)] ∧ names = before.map Prod.fst ++ name :: rest ∧
        (∀ x ∈ before, x.2.Succeeded) ∧ ∃ k, r.sched.pc = .rethrown k := by
  obtain ⟨l, h1, h2⟩ := compileSeveral_builds c names schedules _ s v hrun
  simp only [Progress.start, List.nil_append] at h1
  subst h1
  cases v with
  | completed n =>
    obtain ⟨e1, e2, e3, e4⟩ := h2
    exact ⟨e1, e2, by rw [e3, e4]; simp [Progress.start]⟩
  | unknown m =>
    obtain ⟨rest, e1, e2, e3⟩ := h2
    refine ⟨rest, e1, e2, fun t ht => ?_⟩
    exact Map.lookup_none.mp e3 _ ht rfl
  | cyclic m =>
    obtain ⟨rest, t, e1, e2, e3, e4⟩ := h2
    exact ⟨rest, t, e1, e2, Map.lookup_mem e3, e4⟩
  | failed m => exact h2

theorem last_run {c : Setup P} {files : SrcList P} (hl : Loadable files c.kind) (h : load files = .ok c.tree)
    (hne : ∀ u, ¬ c.tree.graph.PathOf u PathType.empty) (hfine : c.fine = true) (hdry : c.dryrun = false) (before : List P) (last : P) :
    ∀ (schedules : List (List (Act P))) (s0 s : Progress P) (n : Nat),
    (∀ p st, c.kind p = false → s0.fs p = some st → st.mtime < s0.clock) → (∀ p st, s0.fs p = some st → st.dir = c.kind p) →
    compileSeveral c (before ++ [last]) schedules s0 = some (.completed n, s) →
    ∃ t root, (c.locate last, t) ∈ c.tree.targets ∧ c.tree.graph.PathOf root t.sourceFilename ∧
      ∀ u, Graph.Reach c.tree.graph.toGraph root u → c.tree.graph.Builds u →
        UpToDate s.fs (makeTask c.tree.graph u) ∧ ∀ p ∈ (makeTask c.tree.graph u).targets, Exists s.fs p := by
  induction before with
  | nil =>
    intro schedules s0 s n hpast hkinds hc
    simp only [List.nil_append] at hc
    unfold compileSeveral at hc
    split at hc
    · simp at hc
    · rename_i t ht
      split at hc
      · rename_i hok
        split at hc
        · cases hc
        · split at hc
          · cases hc
          · rename_i r hx
            split at hc
            · rename_i k hk
              simp only [compileSeveral, Option.some.injEq, Prod.mk.injEq] at hc
              obtain ⟨_, rfl⟩ := hc
              obtain ⟨hsane, hmem, hac, root, hroot⟩ := build_facts hl h hne hok
              refine ⟨t, root, Map.lookup_mem ht, hroot, fun u hu hb => ?_⟩
              exact C13_up_to_date _ hsane hfine hdry ⟨hpast, hkinds⟩ hx ⟨k, hk⟩ u ((hmem u).mpr ⟨root, hroot, hu, hb⟩)
            · simp at hc
            · cases hc
      · simp at hc
  | cons name before ih =>
    intro schedules s0 s n hpast hkinds hc
    simp only [List.cons_append] at hc
    unfold compileSeveral at hc
    split at hc
    · simp at hc
    · rename_i t ht
      split at hc
      · rename_i hok
        split at hc
        · cases hc
        · split at hc
          · cases hc
          · rename_i r hx
            split at hc
            · rename_i k hk
              obtain ⟨hsane, _⟩ := build_facts hl h hne hok
              have hi : Inv (c.build t) r := exec_induction (Q := Inv (c.build t))
                (fun _ _ _ hi h => inv_step hsane hfine hi h) (inv_init ⟨hpast, hkinds⟩) hx
              refine ih _ _ _ _ ?_ ?_ hc
              · exact hi.past
              · exact hi.kinds
            · simp at hc
            · cases hc
      · simp at hc

/-- **C69.** Whether forced or not, everything that was needed for the last target is up to date at the end. (For one target this is
C13.) -/
theorem C69_last {c : Setup P} {files : SrcList P} (hl : Loadable files c.kind) (h : load files = .ok c.tree)
    (hne : ∀ u, ¬ c.tree.graph.PathOf u PathType.empty) (hfine : c.fine = true) (hdry : c.dryrun = false)
    {fs : FileSys P} {now : Nat} (hpast : ∀ p st, c.kind p = false → fs p = some st → st.mtime < now)
    (hkinds : ∀ p st, fs p = some st → st.dir = c.kind p)
    {before : List P} {last : P} {schedules : List (List (Act P))} {s : Progress P} {n : Nat}
    (hrun : compileSeveral c (before ++ [last]) schedules (.start fs now) = some (.completed n, s)) :
    ∃ t root, (c.locate last, t) ∈ c.tree.targets ∧ c.tree.graph.PathOf root t.sourceFilename ∧
      ∀ u, Graph.Reach c.tree.graph.toGraph root u → c.tree.graph.Builds u →
        UpToDate s.fs (makeTask c.tree.graph u) ∧ ∀ p ∈ (makeTask c.tree.graph u).targets, Exists s.fs p := by
  exact last_run hl h hne hfine hdry before last schedules _ s n hpast hkinds hrun

/-- **C69.** With `--dry-run` nothing changes, however the call ends. -/
theorem C69_dry {c : Setup P} {files : SrcList P} (hs : Map.Sorted files) (h : load files = .ok c.tree) (hdry : c.dryrun = true)
    {names : List P} {schedules : List (List (Act P))} {s s' : Progress P} {v : Verdict P}
    (hrun : compileSeveral c names schedules s = some (v, s')) : s'.fs = s.fs := by
  induction names generalizing schedules s with
  | nil => simp only [compileSeveral, Option.some.injEq, Prod.mk.injEq] at hrun; rw [hrun.2]
  | cons name names ih =>
    simp only [compileSeveral] at hrun
    split at hrun
    · simp only [Option.some.injEq, Prod.mk.injEq] at hrun; rw [hrun.2]
    · rename_i t _
      split at hrun
      · rename_i hok
        split at hrun
        · cases hrun
        · rename_i as schedules
          split at hrun
          · cases hrun
          · rename_i r hr
            have htop : (c.build t).job.Topological := by
              obtain ⟨files1, files3, hc, h1, h3, hg, s3⟩ := load_ok hs h
              obtain ⟨root, hroot⟩ : ∃ root, c.tree.graph.PathOf root t.sourceFilename := by
                cases hn : getNode c.tree.graph t.sourceFilename with
                | none => simp [taskListFor, hn] at hok
                | some node => exact ⟨node, ((C07_getNode files3 s3 hg _).1 node).mp hn⟩
              exact ((C21_single_target files3 s3 hg hroot).2 hok).2 c.workers
            have hfs := (C38_nothing_changes (c.build t) htop hdry hr).1
            split at hrun
            · rw [ih hrun]; exact hfs
            · simp only [Option.some.injEq, Prod.mk.injEq] at hrun; rw [← hrun.2]; exact hfs
            · cases hrun
      · simp only [Option.some.injEq, Prod.mk.injEq] at hrun; rw [hrun.2]

/-! ## Examples -/

section Examples

open Fs (Path p)

/-- Two programs that use the same generated file. -/
def twins : SrcList Path := [
  (p "a.src", { origin := .project, useDeps := [⟨p "out/u", .generated, none, []⟩], targets := [⟨p "out/a", []⟩] }),
  (p "b.src", { origin := .project, useDeps := [⟨p "out/u", .generated, none, []⟩], targets := [⟨p "out/b", []⟩] }),
  (p "u.src", { origin := .project, targets := [⟨p "out/u", []⟩] })]

def twinsTree : SourceTree Path :=
  match load twins with
  | .ok t => t
  | .error _ => ⟨[], ⟨[]⟩⟩

def twinsSetup (force : Bool) : Setup Path where
  tree := twinsTree
  locate := fun n => p "out" / n
  workers := 2
  force := force
  kind := fun _ => false
  fine := true

def twinsFs : FileSys Path := fun q =>
  if q ∈ [p "a.src", p "b.src", p "u.src"] then some ⟨5, false⟩ else none

/-- One schedule for each target. -/
def autoSeveral (c : Setup Path) : List Path → FileSys Path → Nat → List (List (Act Path))
  | [], _, _ => []
  | name :: names, fs, now =>
    match getTarget c name with
    | none => []
    | some t =>
      let as := auto (c.build t) 100 (init (c.build t) fs now)
      match exec (c.build t) as (init (c.build t) fs now) with
      | none => []
      | some r => as :: autoSeveral c names r.fs r.clock

/-- The verdict, what was executed for each target, and what would have to be executed afterwards. -/
def several (c : Setup Path) (names : List Path) : Option Nat × List (List Nat) × List Nat :=
  match compileSeveral c names (autoSeveral c names twinsFs 10) (.start twinsFs 10) with
  | some (.completed n, s) => (some n, s.builds.map fun x => [0, 1, 2, 3, 4, 5].filter fun u => x.2.decision u = some .run,
      [0, 1, 2, 3, 4, 5].filter fun u => (shouldRun s.fs false (makeTask c.tree.graph u)).toOption ≠ some false)
  | some (_, s) => (none, s.builds.map fun x => [0, 1, 2, 3, 4, 5].filter fun u => x.2.decision u = some .run, [])
  | none => (none, [], [])

/-- Without force the common file is made once, and nothing is left to do. -/
example : several (twinsSetup false) [p "a", p "b"] = (some 4, [[0, 5], [1]], []) := by decide +kernel

/-- **C69 needs that the build is not forced**: when it is, the file that both targets use is made again for the second target, so that
at the end the first target (node 0) is out of date, although success has been reported. -/
theorem C69_forced : several (twinsSetup true) [p "a", p "b"] = (some 4, [[0, 5], [1, 5]], [0]) := by decide +kernel

/-- A dry run reports success, and everything remains to be done. -/
example : several { twinsSetup false with dryrun := true } [p "a", p "b"] = (some 4, [[0, 5], [1, 5]], [0, 1, 5]) := by decide +kernel

/-- The first target has been built when it turns out that the second one does not exist. -/
example : several (twinsSetup false) [p "a", p "c", p "b"] = (none, [[0, 5]], []) := by decide +kernel

theorem twins_loadable : Loadable twins (fun _ => false) where
  sorted := by refine ⟨?_, ?_, ?_, trivial⟩ <;> decide
  unresolved := by unfold Unresolved; decide
  noBuildDeps := by decide
  normal := by decide
  separate := by
    intro x hx t ht _
    rw [hasFile_iff_keys]
    revert t; revert x; decide
  dirs := by intro x _ h; cases h

/-- The hypotheses of the theorems are met. -/
example : load twins = .ok (twinsSetup false).tree ∧ (∀ u, ¬ (twinsSetup false).tree.graph.PathOf u PathType.empty) ∧
    (∀ u, Steady (twinsSetup false).tree.graph u) := by
  have hfiles : ∀ x ∈ twinsTree.graph.files, x.1 ≠ PathType.empty ∧ x.2.policy ≠ .always := by decide +kernel
  refine ⟨by rfl, ?_, ?_⟩
  · rintro u ⟨info, hu⟩
    exact (hfiles _ (List.mem_of_getElem? hu)).1 rfl
  · intro u v q info _ hv
    exact (hfiles _ (List.mem_of_getElem? hv)).2

end Examples

end Maike.Build
