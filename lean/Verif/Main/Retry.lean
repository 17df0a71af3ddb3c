import Verif.Build.Retry
import Verif.Main.Request

/-!
# Commands that do not come to their end (C80)

A run may fail, or may be interrupted at any time. What is known about the commands that it has started is in the file system only. If a command did
not write any of its targets, no later run succeeds without executing it again (`C80_retried_partial`). Otherwise it may be taken for granted
(`C80_false`): recipes like `cxx_compiler.py`, which first makes a program and then runs it as a test, write their target before they fail.
-/

namespace Maike.Main

open Fs Tree Paths
open Maike.Build (FileSys Stat)

/-! ## Specification -/

/-- Runs after each other, forced or not, where nothing else happens in between. Each of them may have ended, or has been interrupted, at any time. -/
inductive Later (j : Job) (kind : Path → Bool) : Disk → Nat → List (Db.SourceTree Path × Build.State Path) → Prop
  | nil {d now} : Later j kind d now []
  | cons {d now force files tree s d₂ later rest} : Runs j force kind d now files tree s → d₂.Ok → d₂.fs = s.fs → s.clock ≤ later →
      Later j kind d₂ later rest → Later j kind d now ((tree, s) :: rest)

/-- The command for the file has been executed. -/
def Attempted (x : Db.SourceTree Path × Build.State Path) (p : Path) : Prop := ∃ t, x.1.graph.PathOf t p ∧ x.2.Executed t

/-- The command for the file has written none of its targets. -/
def NothingWritten (x : Db.SourceTree Path × Build.State Path) (p : Path) : Prop := ∀ t, x.1.graph.PathOf t p → x.2.written t = []

/-- The command for the file has ended, and has reported a failure. -/
def Failed (x : Db.SourceTree Path × Build.State Path) (p : Path) : Prop :=
  ∃ t, x.1.graph.PathOf t p ∧ .finish t .failure ∈ x.2.sched.hist

/-! ## Proofs -/

variable {j : Job} {kind : Path → Bool} {d : Disk} {now : Nat}

/-- The tasks of a run. -/
theorem run_sane (hp : Proper j kind d now) {files : List (Path × FileInfo)} {tree : Db.SourceTree Path} (hl : Loads j d files tree)
    (hok : (Db.taskListAll tree.graph).1 = .ok) (force : Bool) :
    (theBuild j tree force kind).Sane ∧ ∀ u, u ∈ (theBuild j tree force kind).job.tasks ↔ tree.graph.Builds u := by
  have hL := loadable hp hl
  obtain ⟨files1, files3, hc, h1, h3, hg, s3⟩ := Build.load_ok hL.sorted hl.2
  have hr := Db.refsMatch_of_ok s3 hg
  obtain ⟨hcyc, hrest⟩ := Db.C21_all_tasks files3 s3 hg
  obtain ⟨hmem, htop⟩ := hrest hok
  have hac : ∀ u, ¬ ∃ c, Graph.Reach tree.graph.toGraph u c ∧ Graph.OnCycle tree.graph.toGraph c := by
    rintro u ⟨c, _, hc⟩
    refine hcyc.mp hok ⟨c, ?_, hc⟩
    obtain ⟨w, _, hadj⟩ := hc
    exact hr.wellFormed _ _ hadj
  exact ⟨Build.sane_of_load hL hl.2 (no_empty hp hl) (tasks := (Db.taskListAll tree.graph).2) (fun u hu => (hmem u).mp hu)
    (fun u _ => hac u) (htop j.workers) force true, hmem⟩

/-- A command that is to be executed always is never skipped. -/
theorem always_not_skipped {b : Build.Build Path} {t : Nat} (hpol : (b.task t).policy = .always) {fs : FileSys Path} {now : Nat}
    {as : List (Build.Act Path)} {s : Build.State Path} (h : Build.exec b as (Build.init b fs now) = some s) : s.decision t ≠ some .skip := by
  refine Build.exec_induction (Q := fun s => s.decision t ≠ some .skip) ?_ (by simp [Build.init]) h
  intro s a s' ih hs
  rcases Build.step_cases hs with ⟨_, _, _, _, _, rfl⟩ | ⟨_, t', _, _, _, rfl⟩ | ⟨_, _, p', _, _, _, _, rfl⟩ | ⟨p', _, _, rfl⟩ | ⟨_, rfl⟩
  · exact ih
  · by_cases e : t = t'
    · subst e
      simp only [Build.update_self, Build.shouldRun, hpol, if_true]
      cases b.force <;> simp [Build.decisionOf]
    · simp only [Build.update_ne _ _ e]; exact ih
  · exact ih
  · exact ih
  · exact ih

/-- Runs after each other while a target is out of date. -/
theorem later_owed {tree : Db.SourceTree Path} {t : Nat} (hbuilds : tree.graph.Builds t) {q : Path} (hq : q ∈ (Build.makeTask tree.graph t).targets)
    (hk : kind q = false) : ∀ {runs : List (Db.SourceTree Path × Build.State Path)} {d : Disk} {now : Nat}, Later j kind d now runs →
    Proper j kind d now → Hidden j kind d → (∀ files tree', Loads j d files tree' → tree' = tree) →
    ((Build.makeTask tree.graph t).policy = .always ∨ ¬ Build.Fresh (theBuild j tree false kind) d.fs t q) →
    ∀ pre x post, runs = pre ++ x :: post → x.2.Succeeded → ∃ y ∈ pre ++ [x], y.1 = tree ∧ y.2.Executed t := by
  intro runs d now hlater
  induction hlater with
  | nil => intro _ _ _ _ pre x post e; simp at e
  | @cons d now force files tree' s d₂ later rest hr hd₂ hfs hclock hrest ih =>
    intro hp hh htree howed pre x post e hsucc
    obtain rfl := htree _ _ hr.1
    obtain ⟨hl, hok, as, hx⟩ := hr
    obtain ⟨hsane, hmem⟩ := run_sane hp hl hok force
    have ht := (hmem t).mpr hbuilds
    by_cases hex : s.Executed t
    · cases pre with
      | nil =>
        simp only [List.nil_append, List.cons.injEq] at e
        obtain ⟨rfl, _⟩ := e
        exact ⟨_, List.mem_singleton.mpr rfl, rfl, hex⟩
      | cons y pre =>
        simp only [List.cons_append, List.cons.injEq] at e
        obtain ⟨rfl, _⟩ := e
        exact ⟨(tree', s), List.mem_cons_self, rfl, hex⟩
    · have hstep : ¬ s.Succeeded ∧
          ((Build.makeTask tree'.graph t).policy = .always ∨ ¬ Build.Fresh (theBuild j tree' false kind) s.fs t q) := by
        rcases howed with hpol | hst
        · refine ⟨fun ⟨n, hn⟩ => ?_, .inl hpol⟩
          have hi : Build.Inv (theBuild j tree' force kind) s :=
            Build.exec_induction (Q := Build.Inv _) (fun _ _ _ hi h => Build.inv_step hsane rfl hi h) (Build.inv_init (plausible hp tree' force)) hx
          have hfin := ((TaskList.C20_returns_complete hsane.topological hi.sched hn).2 t ht).2
          rcases hi.fin_ok t hfin with h' | ⟨h', _⟩
          · exact always_not_skipped hpol hx h'
          · exact hex h'
        · rcases Build.stale_owed hsane rfl (plausible hp tree' force) hx ht hq hk hst with h | ⟨h1, h2⟩
          · exact absurd h hex
          · exact ⟨h1, .inr h2⟩
      obtain ⟨hns, howed'⟩ := hstep
      cases pre with
      | nil =>
        simp only [List.nil_append, List.cons.injEq] at e
        obtain ⟨rfl, _⟩ := e
        exact absurd hsucc hns
      | cons y pre =>
        simp only [List.cons_append, List.cons.injEq] at e
        obtain ⟨rfl, rfl⟩ := e
        have hr' : Runs j force kind d now files tree' s := ⟨hl, hok, as, hx⟩
        have hmore : ∃ files₂ tree₂, Loads j d₂ files₂ tree₂ := by
          generalize hrs : pre ++ x :: post = rs at hrest
          cases hrest with
          | nil => simp at hrs
          | cons hr₂ _ _ _ _ => exact ⟨_, _, hr₂.1⟩
        · obtain ⟨_, _, hl₂⟩ := hmore
          have hag := C71_again hp hr' hh hd₂ hfs hl₂ hclock
          obtain ⟨y, hy, h1, h2⟩ := ih hag.1 hag.2 (fun files₂ tree₂ hl₂ => (rescan hp hr' hh hd₂ hfs hl₂).1.2)
            (by rw [hfs]; exact howed') pre x post rfl hsucc
          exact ⟨y, List.mem_cons_of_mem _ hy, h1, h2⟩

/-- **C80.** If the command for a file has been executed, but has not written any of its targets when the run ended or was interrupted, then no later run
succeeds, unless this or an earlier one of them has executed the command again. The targets are files, and the first run has not been forced. -/
theorem C80_retried_partial {files : List (Path × FileInfo)} {tree : Db.SourceTree Path} {s : Build.State Path} (hp : Proper j kind d now)
    (hh : Hidden j kind d) (hr : Runs j false kind d now files tree s) {p : Path} {i : FileInfo} (hsc : Scanned j d p i)
    (hkind : ∀ t ∈ i.targets, kind t.name = false) (hex : Attempted (tree, s) p.normal) (hw : NothingWritten (tree, s) p.normal)
    {d₂ : Disk} (hd₂ : d₂.Ok) (hfs : d₂.fs = s.fs) {later : Nat} (hclock : s.clock ≤ later)
    {runs : List (Db.SourceTree Path × Build.State Path)} (hlater : Later j kind d₂ later runs)
    {pre post : List (Db.SourceTree Path × Build.State Path)} {x : Db.SourceTree Path × Build.State Path} (hx : runs = pre ++ x :: post)
    (hsucc : x.2.Succeeded) : ∃ y ∈ pre ++ [x], Attempted y p.normal := by
  obtain ⟨t, ⟨info, hinfo⟩, hexec⟩ := hex
  have hw := hw t ⟨info, hinfo⟩
  obtain ⟨hl, hok, as, hxs⟩ := id hr
  obtain ⟨hsane, hmem⟩ := run_sane hp hl hok false
  have hi : Build.Inv (theBuild j tree false kind) s :=
    Build.exec_induction (Q := Build.Inv _) (fun _ _ _ hi h => Build.inv_step hsane rfl hi h) (Build.inv_init (plausible hp tree false)) hxs
  have ht := TaskList.started_task hsane.topological hi.sched (hi.dstart t (by rw [show s.decision t = _ from hexec]; simp))
  have hbuilds := (hmem t).mp ht
  have htargets : (Build.makeTask tree.graph t).targets = info.targets.map fun t => t.name := by simp [Build.makeTask, hinfo]
  have hne : info.targets ≠ [] := by
    obtain ⟨_, _, h1, h2⟩ := hbuilds
    rw [hinfo] at h1
    cases h1
    exact h2
  have hkind' : ∀ q ∈ (Build.makeTask tree.graph t).targets, kind q = false := by
    rcases Build.record_origin (loadable hp hl) hl.2 hinfo with ⟨i0, hi0, htg, _⟩ | ⟨h, _⟩
    · obtain ⟨p', i', hs', e⟩ := (mem_srcList hp hl _).mp hi0
      injection e with e1 e2
      obtain rfl := scanned_unique hp hl hsc hs' e1
      intro q hq
      rw [htargets, htg, e2] at hq
      obtain ⟨t1, ht1, rfl⟩ := List.mem_map.mp hq
      obtain ⟨t2, ht2, rfl⟩ := List.mem_map.mp ht1
      exact hkind t2 ht2
    · exact absurd h hne
  have howed : ∃ q ∈ (Build.makeTask tree.graph t).targets, (Build.makeTask tree.graph t).policy = .always ∨
      ¬ Build.Fresh (theBuild j tree false kind) s.fs t q := by
    by_cases hpol : (Build.makeTask tree.graph t).policy = .always
    · obtain ⟨q, hq⟩ := List.exists_mem_of_ne_nil _ (show (Build.makeTask tree.graph t).targets ≠ [] by rw [htargets]; simpa using hne)
      exact ⟨q, hq, .inl hpol⟩
    · obtain ⟨q, hq, h⟩ := Build.executed_stale hsane rfl rfl (plausible hp tree false) hxs ht hkind' hpol hexec hw
      exact ⟨q, hq, .inr h⟩
  obtain ⟨q, hq, howed⟩ := howed
  have hmore : ∃ files₂ tree₂, Loads j d₂ files₂ tree₂ := by
    subst hx
    generalize hrs : pre ++ x :: post = rs at hlater
    cases hlater with
    | nil => simp at hrs
    | cons hr₂ _ _ _ _ => exact ⟨_, _, hr₂.1⟩
  obtain ⟨_, _, hl₂⟩ := hmore
  have hag := C71_again hp hr hh hd₂ hfs hl₂ hclock
  obtain ⟨y, hy, rfl, h2⟩ := later_owed hbuilds hq (hkind' q hq) hlater hag.1 hag.2 (fun files₂ tree₂ hl₂ => (rescan hp hr hh hd₂ hfs hl₂).1.2)
    (by rw [hfs]; exact howed) pre x post hx hsucc
  exact ⟨y, hy, t, ⟨info, hinfo⟩, h2⟩

end Maike.Main
