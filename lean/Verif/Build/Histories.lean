import Verif.Build.Serial
import Verif.Build.Content

/-!
# Histories of builds that execute recipes as processes (C95)

In `Build/Content.lean` a recipe writes what it is supposed to compute, at once. Here recipes are scripts that are executed at the same time, they start programs that write their output bit by bit, and
anything can be in a target while its recipe is being executed, or when it has failed. When a build has failed or has been interrupted, the targets that have been written by recipes that have not
ended with success are removed before anything else happens. Without this the claim is false, see `C94_left_behind`.
-/

namespace Maike.Build

open Maike.Recipes (Script)
open Maike.Db (isExternal)

variable {P V D : Type} [DecidableEq P]

/-! ## Specification -/

/-- The recipe of each task, executed alone, makes what it is supposed to compute. -/
def Computes (r : Recipes P V D) {tools : Tools P} (eff : Effects P V tools) (b : Build P) (desc : Nat → D) (script : Nat → Script) : Prop :=
  ∀ t ∈ b.job.tasks, ∀ c c', MakesAlone eff (script t) c c' → ∀ p ∈ (b.task t).targets, b.kind p = false → c' p = r.make (desc t) c p

/-- The file `p` has been written by a recipe that has not ended with success. -/
def Spoilt (b : Build P) (s : State P) (p : P) : Prop :=
  b.kind p = false ∧ ∃ t, p ∈ s.written t ∧ .finish t .success ∉ s.sched.hist

/-- The build has stopped in state `s`, and the files that have been written by recipes that have not ended with success have been removed. -/
structure Leaves (b : Build P) (s : CState P V) (w : World P V) : Prop where
  content : w.content = s.content
  clock : w.clock = s.base.base.clock
  removed : ∀ p, Spoilt b s.base.base p → w.fs p = none
  kept : ∀ p, ¬ Spoilt b s.base.base p → w.fs p = s.base.base.fs p

/-- A build that starts in `w`, executes recipes as processes, has arrived at state `s`, and leaves `w'` behind. -/
def Executes (r : Recipes P V D) {tools : Tools P} (eff : Effects P V tools) (b : Build P) (desc : Nat → D) (w : World P V) (s : CState P V) (w' : World P V) : Prop :=
  ∃ script as, Known b tools eff script ∧ Computes r eff b desc script ∧ CExec b tools script eff as (cinit b w.fs w.clock w.content) s ∧ Leaves b s w'

/-- What can have happened, see `Past`. -/
inductive RealPast {r : Recipes P V D} {kind area : P → Bool} (pr : Project r kind area) {tools : Tools P} (eff : Effects P V tools) : World P V → Prop
  | start {w} : (∀ p, area p = true → kind p = false → w.fs p = none) → (∀ p st, kind p = false → w.fs p = some st → st.mtime < w.clock) →
      (∀ p st, w.fs p = some st → st.dir = kind p) → RealPast pr eff w
  | edit {w p v} : RealPast pr eff w → area p = false → kind p = false → RealPast pr eff (w.edit p v)
  | remove {w p} : RealPast pr eff w → RealPast pr eff (w.remove p)
  | mkdir {w p} : RealPast pr eff w → kind p = true → RealPast pr eff (w.mkdir p)
  | wait {w} : RealPast pr eff w → RealPast pr eff w.wait
  | build {w b desc s w'} : RealPast pr eff w → pr.plan (w.view kind) b desc → Executes r eff b desc w s w' → RealPast pr eff w'

/-! ## Proof -/

/-- What is known about time stamps of files that have been written, and of those that have not. -/
theorem exec_written {b : Build P} {fs : FileSys P} {now : Nat} {as : List (Act P)} {s : State P} (h : exec b as (init b fs now) = some s) :
    (∀ p, b.kind p = false → (∀ t, p ∉ s.written t) → s.fs p = fs p) ∧ (∀ t, ∀ p ∈ s.written t, b.kind p = false → ∃ st, s.fs p = some st ∧ now ≤ st.mtime) ∧ now ≤ s.clock := by
  refine exec_induction (Q := fun s => (∀ p, b.kind p = false → (∀ t, p ∉ s.written t) → s.fs p = fs p) ∧
    (∀ t, ∀ p ∈ s.written t, b.kind p = false → ∃ st, s.fs p = some st ∧ now ≤ st.mtime) ∧ now ≤ s.clock) ?_ ⟨fun _ _ _ => rfl, fun t p hp => (by cases hp), Nat.le_refl _⟩ h
  rintro s a s' ⟨h1, h2, h3⟩ hs
  rcases step_cases hs with ⟨a', sched', rfl, hal, hss, rfl⟩ | ⟨k', t', rfl, hk', hd, rfl⟩ |
      ⟨k', t', p', rfl, hk', hd, hp', rfl⟩ | ⟨p', rfl, hkp, rfl⟩ | ⟨rfl, rfl⟩
  · exact ⟨h1, h2, h3⟩
  · exact ⟨h1, h2, h3⟩
  · refine ⟨fun p hk hn => ?_, fun t p hp hk => ?_, ?_⟩
    · have hpp : p ≠ p' := by
        rintro rfl
        have := hn t'
        simp [update_self] at this
      simp only [update_ne _ _ hpp]
      refine h1 p hk fun t ht => hn t ?_
      by_cases e : t = t'
      · subst e; simp only [update_self]; exact List.mem_cons_of_mem _ ht
      · simp only [update_ne _ _ e]; exact ht
    · by_cases hpp : p = p'
      · subst hpp; exact ⟨_, update_self _ _ _, h3⟩
      · simp only [update_ne _ _ hpp]
        refine h2 t p ?_ hk
        by_cases e : t = t'
        · subst e
          simp only [update_self, List.mem_cons] at hp
          exact hp.resolve_left hpp
        · simpa only [update_ne _ _ e] using hp
    · simp only; split <;> omega
  · refine ⟨fun p hk hn => ?_, fun t p hp hk => ?_, h3⟩
    · have hpp : p ≠ p' := by rintro rfl; rw [hkp] at hk; cases hk
      simp only [update_ne _ _ hpp]
      exact h1 p hk hn
    · have hpp : p ≠ p' := by rintro rfl; rw [hkp] at hk; cases hk
      simp only [update_ne _ _ hpp]
      exact h2 t p hp hk
  · exact ⟨h1, h2, Nat.le_succ_of_le h3⟩

section

variable {b : Build P} {tools : Tools P} {eff : Effects P V tools} {script : Nat → Script}

theorem put_written {s : PState P} {t : Nat} {p p' : P} {dir : Bool} {q : Proc P} (hn : ∀ u, p ∉ (s.put b t p' dir q).base.written u) : p ≠ p' ∧ ∀ u, p ∉ s.base.written u := by
  refine ⟨?_, fun u hu => hn u ?_⟩
  · rintro rfl
    have := hn t
    simp [PState.put, update_self] at this
  · simp only [PState.put]
    by_cases e : u = t
    · subst e; simp only [update_self]; exact List.mem_cons_of_mem _ hu
    · simp only [update_ne _ _ e]; exact hu

local macro "split_at" h:ident : tactic => `(tactic| (split at $h:ident <;> first | (cases $h:ident; done) | skip))

/-- What has not been written is as before. -/
theorem cstep_written {a : PAct P} {s s' : CState P V} (h : CStep b tools script eff a s s') {p : P} (hn : ∀ t, p ∉ s'.base.base.written t) :
    s'.content p = s.content p ∧ ∀ t, p ∉ s.base.base.written t := by
  cases h with
  | sched h =>
    simp only [pstep] at h
    split_at h
    split_at h
    cases h; exact ⟨rfl, hn⟩
  | touchDir h =>
    simp only [pstep] at h
    split_at h
    cases h; exact ⟨rfl, hn⟩
  | tick h => simp only [pstep, Option.some.injEq] at h; subst h; exact ⟨rfl, hn⟩
  | check h hk =>
    simp only [pstep, hk] at h
    split_at h
    cases h; exact ⟨rfl, hn⟩
  | output h hq =>
    simp only [pstep, hq] at h
    split_at h
    split_at h
    rename_i e _
    cases e
    cases h
    obtain ⟨h1, h2⟩ := put_written hn
    exact ⟨after_content fun p' v e => by cases e; exact h1, h2⟩
  | notStarted h hq =>
    simp only [pstep, hq] at h
    split_at h
    split_at h
    rename_i e _
    cases e; cases h; exact ⟨rfl, hn⟩
  | ended h hq =>
    simp only [pstep, hq] at h
    split_at h
    cases h; exact ⟨rfl, hn⟩
  | copied h hq =>
    simp only [pstep, hq] at h
    split_at h
    cases h
    obtain ⟨h1, h2⟩ := put_written hn
    exact ⟨after_content fun p' v e => by cases e; exact h1, h2⟩
  | copyFailed h hq =>
    simp only [pstep, hq] at h
    split_at h
    rename_i e
    cases e
    simp only [Bool.false_eq_true, if_false, Option.some.injEq] at h
    subst h; exact ⟨rfl, hn⟩
  | copyPart h hq =>
    simp only [pstep, hq, if_true] at h
    split_at h
    cases h
    obtain ⟨h1, h2⟩ := put_written hn
    exact ⟨after_content fun p' v e => by cases e; exact h1, h2⟩
  | mkdir h hq =>
    simp only [pstep, hq] at h
    split_at h
    rename_i e
    cases e
    split at h
    · cases h; exact ⟨rfl, hn⟩
    · split at h
      · split_at h
        cases h; exact ⟨rfl, (put_written hn).2⟩
      · split_at h
        cases h; exact ⟨rfl, hn⟩
      · cases h; exact ⟨rfl, hn⟩
  | wroteForeign h hq hf =>
    simp only [pstep, hq, hf, if_true, Option.some.injEq] at h
    subst h; exact ⟨rfl, hn⟩
  | wrote h hq hf =>
    simp only [pstep, hq, hf, Bool.false_eq_true, if_false] at h
    split_at h
    cases h
    obtain ⟨h1, h2⟩ := put_written hn
    exact ⟨after_content fun p' v e => by cases e; exact h1, h2⟩
  | writeFailed h hq hf =>
    simp only [pstep, hq] at h
    split at h
    · rename_i e
      rcases hf with hf | hf
      · rw [hf] at e; cases e.1
      · rw [hf] at e; cases e.2
    · cases h; exact ⟨rfl, hn⟩
  | writePart h hq hf =>
    simp only [pstep, hq, hf, and_self, if_true] at h
    split_at h
    cases h
    obtain ⟨h1, h2⟩ := put_written hn
    exact ⟨after_content fun p' v e => by cases e; exact h1, h2⟩
  | attempted h hq =>
    simp only [pstep, hq] at h
    split_at h
    rename_i e
    cases e
    cases h; exact ⟨rfl, hn⟩

theorem cexec_written {as : List (PAct P)} {s s' : CState P V} (h : CExec b tools script eff as s s') {p : P} (hn : ∀ t, p ∉ s'.base.base.written t) :
    s'.content p = s.content p ∧ ∀ t, p ∉ s.base.base.written t := by
  induction h with
  | nil => exact ⟨rfl, hn⟩
  | cons h _ ih =>
    obtain ⟨h1, h2⟩ := ih hn
    obtain ⟨h3, h4⟩ := cstep_written h h2
    exact ⟨h1.trans h3, h4⟩

theorem Confined.mono {A B A' B' : P → Prop} {sc : Script} (hA : ∀ p, A p → A' p) (hB : ∀ p, B p → B' p) : Confined eff A B sc → Confined eff A' B' sc := by
  have hAB : ∀ q, A q ∨ B q → A' q ∨ B' q := fun q => Or.imp (hA q) (hB q)
  induction sc with
  | exit n => exact id
  | run args next ih => exact fun h => ⟨fun q hq => hAB q (h.1 q hq), fun rc => ih rc (h.2 rc)⟩
  | copy src dst next ih => exact fun h => ⟨hAB _ h.1, fun ok => ih ok (h.2 ok)⟩
  | mkdir d next ih => exact fun h r => ih r (h r)
  | write d next ih => exact fun h => ⟨fun q hq => hAB q (h.1 q hq), fun ok => ih ok (h.2 ok)⟩
  | attempt next ih => exact fun h ok => ih ok (h ok)

/-- After a dry run nothing has been written. -/
theorem dry_written {as : List (Act P)} {fs : FileSys P} {now : Nat} (hdry : b.dryrun = true) {s : State P} (h : exec b as (init b fs now) = some s) : ∀ t, s.written t = [] := by
  refine exec_induction (Q := fun s => ∀ t, s.written t = []) ?_ (fun _ => rfl) h
  intro s a s' ih hs
  cases a with
  | write k p =>
    simp only [step] at hs
    repeat' split at hs
    all_goals first | cases hs | skip
    all_goals simp_all
  | _ =>
    rcases step_cases hs with ⟨a', sched', e, hal, hss, rfl⟩ | ⟨k', t', e, hk', hd, rfl⟩ |
      ⟨k', t', p', e, hk', hd, hp', rfl⟩ | ⟨p', e, hkp, rfl⟩ | ⟨e, rfl⟩
    all_goals first | cases e; done | exact ih

end

open Classical in
/-- A build writes into the area only, and keeps what is known about files, whatever becomes of it. -/
theorem executes_kept {r : Recipes P V D} {kind area : P → Bool} {pr : Project r kind area} {tools : Tools P} {eff : Effects P V tools} {b : Build P} {desc : Nat → D} {w w' : World P V}
    {s : CState P V} (hk : Kept pr w) (hpl : pr.plan (w.view kind) b desc) (h : Executes r eff b desc w s w') :
    (∃ as, exec b as (init b w.fs w.clock) = some s.base.base) ∧ Kept pr w' ∧ (∀ q, kind q = false → area q = false → w'.fs q = w.fs q ∧ w'.content q = w.content q) ∧
    (s.base.base.Succeeded → w'.fs = s.base.base.fs) := by
  obtain ⟨script, as, hkn, hcomp, hx, hleave⟩ := h
  have hb := pr.sane hpl
  have hkind := pr.kinds hpl
  have hpls : Plausible b w.fs w.clock := plausible hk hkind
  have hdirs : ∀ p st, w.fs p = some st → st.dir = b.kind p := by rw [hkind]; exact hk.kinds
  obtain ⟨as', hexec⟩ := C88_refines b tools script hb.topological hkn.promise hdirs (cexec_pexec hx)
  have hi : Inv b s.base.base := exec_induction (Q := Inv b) (fun _ _ _ hi h => inv_step hb (pr.fine hpl) hi h) (inv_init hpls) hexec
  obtain ⟨hw1, hw2, hw3⟩ := exec_written hexec
  have htask : ∀ t p, p ∈ s.base.base.written t → t ∈ b.job.tasks := fun t p hp =>
    TaskList.started_task hb.topological hi.sched (hi.dstart t (by rw [(hi.wr t p hp).2]; simp))
  have harea : ∀ t p, p ∈ s.base.base.written t → kind p = false → area p = true := fun t p hp hkp => pr.inArea hpl t (htask t p hp) p (hi.wr t p hp).1 hkp
  have hsame : ∀ q, kind q = false → (∀ t, q ∉ s.base.base.written t) → w'.fs q = w.fs q ∧ w'.content q = w.content q := fun q hkq hn => by
    rw [hleave.kept q (fun ⟨_, t, ht, _⟩ => hn t ht), hleave.content]
    exact ⟨hw1 q (by rw [hkind]; exact hkq) hn, (cexec_written hx hn).1⟩
  have hout : ∀ q, kind q = false → area q = false → ∀ t, q ∉ s.base.base.written t := fun q hkq haq t ht => by rw [harea t q ht hkq] at haq; cases haq
  refine ⟨⟨as', hexec⟩, ⟨fun p st hkp hst => ?_, fun p st hst => ?_, fun p sp hkp hap hsp => ?_⟩, fun q hkq haq => hsame q hkq (hout q hkq haq), fun ⟨n, hn⟩ => funext fun p => ?_⟩
  · rw [hleave.clock]
    by_cases hsp : Spoilt b s.base.base p
    · rw [hleave.removed p hsp] at hst; cases hst
    · rw [hleave.kept p hsp] at hst; exact hi.past p st (by rw [hkind]; exact hkp) hst
  · rw [← hkind]
    by_cases hsp : Spoilt b s.base.base p
    · rw [hleave.removed p hsp] at hst; cases hst
    · rw [hleave.kept p hsp] at hst; exact hi.kinds p st hst
  · have hns : ¬ Spoilt b s.base.base p := fun h => by rw [hleave.removed p h] at hsp; cases hsp
    by_cases hwr : ∃ t, p ∈ s.base.base.written t
    · obtain ⟨t, hwt⟩ := hwr
      have hfin : .finish t .success ∈ s.base.base.sched.hist := Decidable.byContradiction fun h => hns ⟨by rw [hkind]; exact hkp, t, hwt, h⟩
      have ht := htask t p hwt
      have hdry : b.dryrun = false := by
        cases hd : b.dryrun with
        | false => rfl
        | true => rw [dry_written hd hexec t] at hwt; cases hwt
      let d : P → V := fun q => if q ∈ (b.task t).targets ∧ b.kind q = false then w.content q else s.content q
      have hal := C94_isolated b eff script hb hkn hdry hdirs hx hfin (hi.wr t p hwt).2 (d := d) (fun q hq => if_pos hq) (fun q hq => if_neg hq)
      have hmake : s.content p = r.make (desc t) s.content p := by
        rw [hcomp t ht d _ hal p (hi.wr t p hwt).1 (by rw [hkind]; exact hkp)]
        refine r.pure _ _ _ _ fun q hq => if_neg fun ho => ?_
        exact TaskList.not_self_dep hb.topological ht (hb.waits t ht q (pr.inputs hpl t ht q hq).2 ho.2 t ht ho.1)
      refine ⟨_, b, desc, t, s.content, hpl, ht, (hi.wr t p hwt).1, by rw [hleave.content]; exact hmake, fun q hkq haq => ?_, fun q _ _ => .inr (.inr (by rw [hleave.content]))⟩
      obtain ⟨h1, h2⟩ := hsame q hkq (hout q hkq haq)
      cases hfs : w'.fs q with
      | none => exact .inl rfl
      | some sq =>
        refine .inr (.inr ⟨?_, by rw [hleave.content]⟩)
        simp [World.view, hkq, ← h1, hfs, h2]
    · have hnw : ∀ t, p ∉ s.base.base.written t := fun t ht => hwr ⟨t, ht⟩
      obtain ⟨h1, h2⟩ := hsame p hkp hnw
      rw [h1] at hsp
      refine keptAt_of (hk.made p sp hkp hap hsp) h2 fun q hkq => ?_
      by_cases hq : ∃ t, q ∈ s.base.base.written t
      · obtain ⟨t, ht⟩ := hq
        by_cases hsq : Spoilt b s.base.base q
        · exact .inl (hleave.removed q hsq)
        · obtain ⟨sq, h3, h4⟩ := hw2 t q ht (by rw [hkind]; exact hkq)
          refine .inr (.inl ⟨sq, by rw [hleave.kept q hsq]; exact h3, ?_⟩)
          have := hk.past p sp hkp hsp
          omega
      · exact .inr (.inr (hsame q hkq fun t ht => hq ⟨t, ht⟩))
  · refine hleave.kept p ?_
    rintro ⟨_, t, ht, hnf⟩
    exact hnf ((TaskList.C20_returns_complete hb.topological hi.sched hn).2 t (htask t p ht)).2

theorem realPast_kept {r : Recipes P V D} {kind area : P → Bool} {pr : Project r kind area} {tools : Tools P} {eff : Effects P V tools} {w : World P V} (h : RealPast pr eff w) : Kept pr w := by
  induction h with
  | start h1 h2 h3 => exact ⟨h2, h3, fun p sp hk ha hs => by rw [h1 p ha hk] at hs; cases hs⟩
  | edit _ ha hk ih => exact kept_edit ih _ ha hk
  | remove _ ih => exact kept_remove ih _
  | mkdir _ hk ih => exact kept_mkdir ih hk
  | wait _ ih => exact kept_later ih
  | build _ hpl hp ih => exact (executes_kept ih hpl hp).2.1

/-! ## C95 -/

/-- **C95.** Whatever has happened to a project, when a build that executes recipes as processes succeeds, every target it is responsible for contains what its recipe computes from the files that
are there now, whether the recipe has been executed or not. -/
theorem C95_consistent {r : Recipes P V D} {kind area : P → Bool} (pr : Project r kind area) {tools : Tools P} (eff : Effects P V tools) {w w' : World P V} {b : Build P} {desc : Nat → D}
    {s : CState P V} (hpast : RealPast pr eff w) (hplan : pr.plan (w.view kind) b desc) (hdry : b.dryrun = false) (hrun : Executes r eff b desc w s w') (hok : s.base.base.Succeeded)
    (hsources : ∀ t ∈ b.job.tasks, ∀ q, r.reads (desc t) q → area q = false → Exists w.fs q) :
    ∀ t ∈ b.job.tasks, ∀ p ∈ (b.task t).targets, b.kind p = false → Exists w'.fs p ∧ w'.content p = r.make (desc t) w'.content p := by
  have hk := realPast_kept hpast
  obtain ⟨⟨as, hx⟩, hk', hsame, hfs⟩ := executes_kept hk hplan hrun
  have hkind := pr.kinds hplan
  have hup := C13_up_to_date b (pr.sane hplan) (pr.fine hplan) hdry (plausible hk hkind) hx hok
  rw [← hfs hok] at hup
  have hc := consistent_of pr hk' hplan hsame hup fun t ht q hq haq => by
    obtain ⟨st, hst⟩ := hsources t ht q hq haq
    exact ⟨st, by rw [(hsame q (pr.inputs hplan t ht q hq).1 haq).1]; exact hst⟩
  exact fun t ht p hp hkp => ⟨(hup t ht).2 p hp, hc t ht p hp hkp⟩

/-- **C95.** When two builds that execute recipes as processes succeed and the source files are the same, then targets that both are responsible for have the same contents, whatever has happened
before either of them. -/
theorem C95_same_as_clean {r : Recipes P V D} {kind area : P → Bool} (pr : Project r kind area) {tools : Tools P} (eff : Effects P V tools)
    {w₁ w₁' : World P V} {b₁ : Build P} {desc₁ : Nat → D} {s₁ : CState P V} {w₂ w₂' : World P V} {b₂ : Build P} {desc₂ : Nat → D} {s₂ : CState P V}
    (hpast₁ : RealPast pr eff w₁) (hplan₁ : pr.plan (w₁.view kind) b₁ desc₁) (hdry₁ : b₁.dryrun = false) (hrun₁ : Executes r eff b₁ desc₁ w₁ s₁ w₁') (hok₁ : s₁.base.base.Succeeded)
    (hpast₂ : RealPast pr eff w₂) (hplan₂ : pr.plan (w₂.view kind) b₂ desc₂) (hdry₂ : b₂.dryrun = false) (hrun₂ : Executes r eff b₂ desc₂ w₂ s₂ w₂') (hok₂ : s₂.base.base.Succeeded)
    (hsources₁ : ∀ t ∈ b₁.job.tasks, ∀ q, r.reads (desc₁ t) q → area q = false → Exists w₁.fs q)
    (hsources₂ : ∀ t ∈ b₂.job.tasks, ∀ q, r.reads (desc₂ t) q → area q = false → Exists w₂.fs q)
    (hsame : ∀ q, area q = false → w₁.view kind q = w₂.view kind q) {t₁ t₂ : Nat} {p : P} (ht₁ : t₁ ∈ b₁.job.tasks) (ht₂ : t₂ ∈ b₂.job.tasks)
    (hp₁ : p ∈ (b₁.task t₁).targets) (hp₂ : p ∈ (b₂.task t₂).targets) (hkp : kind p = false) : w₁'.content p = w₂'.content p := by
  have h1 := C95_consistent pr eff hpast₁ hplan₁ hdry₁ hrun₁ hok₁ hsources₁
  have h2 := C95_consistent pr eff hpast₂ hplan₂ hdry₂ hrun₂ hok₂ hsources₂
  refine consistent_unique pr hplan₁ hplan₂ (fun t ht p hp hk => (h1 t ht p hp hk).2) (fun t ht p hp hk => (h2 t ht p hp hk).2) (fun t ht q hq haq => ⟨hsame q haq, ?_⟩) ht₁ ht₂ hp₁ hp₂ hkp
  have hkq := (pr.inputs hplan₁ t ht q hq).1
  obtain ⟨_, hb1⟩ := (executes_kept (realPast_kept hpast₁) hplan₁ hrun₁).2.2.1 q hkq haq
  obtain ⟨_, hb2⟩ := (executes_kept (realPast_kept hpast₂) hplan₂ hrun₂).2.2.1 q hkq haq
  have hv := hsame q haq
  obtain ⟨sq, hsq⟩ := hsources₁ t ht q hq haq
  rw [hb1, hb2]
  simp only [World.view, hkq, if_true, hsq, Option.map_some] at hv
  cases hfs : w₂.fs q with
  | none => rw [hfs] at hv; cases hv
  | some _ => rw [hfs] at hv; exact Option.some.inj hv

end Maike.Build
