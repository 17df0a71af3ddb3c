import Verif.Build.History

/-!
# What targets contain (C85)

The models so far know about time stamps only. Here files have contents as well, and recipes compute the contents of targets from the contents of what they read. Builds, edits
and deletions follow each other in any order; builds may fail or be interrupted at any point, and what is to be done is derived anew from the contents of source files each time.
-/

namespace Maike.Build

open Maike.Db (Dep isExternal)

/-! ## Model -/

/-- What recipes compute. `D` are descriptions of what is to be done (source file, targets, compiler, dependencies), `V` are contents of files. -/
structure Recipes (P V D : Type) where
  /-- the files that may have an influence -/
  reads : D → P → Prop
  /-- what is written to a target, given the contents of all files -/
  make : D → (P → V) → P → V
  /-- nothing else has an influence -/
  pure : ∀ d c c' p, (∀ q, reads d q → c q = c' q) → make d c p = make d c' p

/-- The effect of an action on contents: a recipe that writes a target writes what it is supposed to compute from what it finds. Nobody changes what it reads while it is running
(`C13_inputs_stable`), so it does not matter when it reads it. That recipes do not leave incomplete targets behind is an assumption, see C82 and C80. -/
def contentStep {P V D : Type} [DecidableEq P] (r : Recipes P V D) (desc : Nat → D) (a : Act P) (s : State P) (c : P → V) : P → V :=
  match a with
  | .write k p =>
    match s.sched.running[k]? with
    | some (t, _) => update c p (r.make (desc t) c p)
    | none => c
  | _ => c

/-- Perform a sequence of actions, see `exec`. -/
def execContents {P V D : Type} [DecidableEq P] (r : Recipes P V D) (b : Build P) (desc : Nat → D) :
    List (Act P) → State P → (P → V) → Option (State P × (P → V))
  | [], s, c => some (s, c)
  | a :: as, s, c =>
    match step b a s with
    | some s' => execContents r b desc as s' (contentStep r desc a s c)
    | none => none

/-- Files with their time stamps and contents, and the time. -/
structure World (P V : Type) where
  fs : FileSys P
  clock : Nat
  content : P → V

/-- Somebody writes a file. -/
def World.edit {P V : Type} [DecidableEq P] (w : World P V) (p : P) (v : V) : World P V :=
  ⟨update w.fs p (some ⟨w.clock, false⟩), w.clock + 1, update w.content p v⟩

/-- Somebody removes a file or directory. -/
def World.remove {P V : Type} [DecidableEq P] (w : World P V) (p : P) : World P V :=
  ⟨update w.fs p none, w.clock, w.content⟩

/-- Somebody makes a directory. -/
def World.mkdir {P V : Type} [DecidableEq P] (w : World P V) (p : P) : World P V :=
  ⟨update w.fs p (some ⟨w.clock, true⟩), w.clock, w.content⟩

/-- Time passes. -/
def World.wait {P V : Type} (w : World P V) : World P V := { w with clock := w.clock + 1 }

/-- A build that starts in `w`, has arrived at state `s`, and leaves `w'` behind if it is interrupted there, or has ended. -/
def Performs {P V D : Type} [DecidableEq P] (r : Recipes P V D) (b : Build P) (desc : Nat → D) (w : World P V) (s : State P) (w' : World P V) : Prop :=
  ∃ as, execContents r b desc as (init b w.fs w.clock) w.content = some (s, w'.content) ∧ w'.fs = s.fs ∧ w'.clock = s.clock

/-! ## Specification -/

variable {P V D : Type} [DecidableEq P]

/-- Which files there are, and what they contain. Directories do not count. -/
def World.view (w : World P V) (kind : P → Bool) (p : P) : Option V :=
  if kind p = false then (w.fs p).map fun _ => w.content p else none

/-- A way of deriving what is to be done from the contents of files, `plan`. Targets that are not directories are in `area`, and nothing else is. -/
structure Project (r : Recipes P V D) (kind area : P → Bool) where
  plan : (P → Option V) → Build P → (Nat → D) → Prop
  sane : ∀ {c b desc}, plan c b desc → b.Sane
  fine : ∀ {c b desc}, plan c b desc → b.fine = true
  kinds : ∀ {c b desc}, plan c b desc → b.kind = kind
  /-- targets are in the area for targets -/
  inArea : ∀ {c b desc}, plan c b desc → ∀ t ∈ b.job.tasks, ∀ p ∈ (b.task t).targets, kind p = false → area p = true
  /-- recipes read what they are supposed to read: the source file and declared dependencies -/
  inputs : ∀ {c b desc}, plan c b desc → ∀ t ∈ b.job.tasks, ∀ q, r.reads (desc t) q →
    kind q = false ∧ (q = (b.task t).src ∨ ∃ d ∈ (b.task t).deps, d.name = q ∧ isExternal d.origin = false)
  /-- what is read is a source file, or the target of another task -/
  closed : ∀ {c b desc}, plan c b desc → ∀ t ∈ b.job.tasks, ∀ q, r.reads (desc t) q → area q = true → ∃ u ∈ b.job.tasks, q ∈ (b.task u).targets
  /-- what is done for a target does not depend on anything but what is read -/
  only : ∀ {c b desc c' b' desc'}, plan c b desc → plan c' b' desc' → ∀ t ∈ b.job.tasks, ∀ t' ∈ b'.job.tasks, ∀ p, p ∈ (b.task t).targets → p ∈ (b'.task t').targets →
    kind p = false → (∀ q, r.reads (desc t) q → area q = false → c q = c' q) → desc t = desc' t'

/-- What can have happened: at first there are no targets. Then files that are not targets have been written, files have been removed, directories have been made, and there have been
builds, according to what was to be done at the time. Each of them may have succeeded or failed, or may have been interrupted. -/
inductive Past {r : Recipes P V D} {kind area : P → Bool} (pr : Project r kind area) : World P V → Prop
  | start {w} : (∀ p, area p = true → kind p = false → w.fs p = none) → (∀ p st, kind p = false → w.fs p = some st → st.mtime < w.clock) →
      (∀ p st, w.fs p = some st → st.dir = kind p) → Past pr w
  | edit {w p v} : Past pr w → area p = false → kind p = false → Past pr (w.edit p v)
  | remove {w p} : Past pr w → Past pr (w.remove p)
  | mkdir {w p} : Past pr w → kind p = true → Past pr (w.mkdir p)
  | wait {w} : Past pr w → Past pr w.wait
  | build {w b desc s w'} : Past pr w → pr.plan (w.view kind) b desc → Performs r b desc w s w' → Past pr w'

/-- The targets contain what the recipes compute from what is there. -/
def Consistent (r : Recipes P V D) (b : Build P) (desc : Nat → D) (c : P → V) : Prop :=
  ∀ t ∈ b.job.tasks, ∀ p ∈ (b.task t).targets, b.kind p = false → c p = r.make (desc t) c p

/-! ## Proof -/

/-- What is known about a file `p` in the area: it has been made according to some plan, and what has been used for it exists no longer, or has become newer, or is still the same. -/
def KeptAt {r : Recipes P V D} {kind area : P → Bool} (pr : Project r kind area) (w : World P V) (p : P) (sp : Stat) : Prop :=
  ∃ c b desc t c₁, pr.plan c b desc ∧ t ∈ b.job.tasks ∧ p ∈ (b.task t).targets ∧ w.content p = r.make (desc t) c₁ p ∧
    (∀ q, kind q = false → area q = false → w.fs q = none ∨ (∃ sq, w.fs q = some sq ∧ sp.mtime ≤ sq.mtime) ∨ (c q = some (w.content q) ∧ c₁ q = w.content q)) ∧
    (∀ q, kind q = false → area q = true → w.fs q = none ∨ (∃ sq, w.fs q = some sq ∧ sp.mtime ≤ sq.mtime) ∨ c₁ q = w.content q)

structure Kept {r : Recipes P V D} {kind area : P → Bool} (pr : Project r kind area) (w : World P V) : Prop where
  past : ∀ p st, kind p = false → w.fs p = some st → st.mtime < w.clock
  kinds : ∀ p st, w.fs p = some st → st.dir = kind p
  made : ∀ p sp, kind p = false → area p = true → w.fs p = some sp → KeptAt pr w p sp

omit [DecidableEq P] in
/-- A file other than `p` has been written or has vanished, or nothing has happened to it. -/
theorem keptAt_of {r : Recipes P V D} {kind area : P → Bool} {pr : Project r kind area} {w w' : World P V} {p : P} {sp : Stat}
    (h : KeptAt pr w p sp) (hp : w'.content p = w.content p)
    (hq : ∀ q, kind q = false → w'.fs q = none ∨ (∃ sq, w'.fs q = some sq ∧ sp.mtime ≤ sq.mtime) ∨ (w'.fs q = w.fs q ∧ w'.content q = w.content q)) :
    KeptAt pr w' p sp := by
  obtain ⟨c, b, desc, t, c₁, h1, h2, h3, h4, h5, h6⟩ := h
  refine ⟨c, b, desc, t, c₁, h1, h2, h3, hp.trans h4, fun q hkq haq => ?_, fun q hkq haq => ?_⟩
  · rcases hq q hkq with h | h | ⟨ha, hb⟩
    · exact .inl h
    · exact .inr (.inl h)
    · rw [ha, hb]; exact h5 q hkq haq
  · rcases hq q hkq with h | h | ⟨ha, hb⟩
    · exact .inl h
    · exact .inr (.inl h)
    · rw [ha, hb]; exact h6 q hkq haq

theorem kept_edit {r : Recipes P V D} {kind area : P → Bool} {pr : Project r kind area} {w : World P V} (hk : Kept pr w) {p : P} (v : V) (ha : area p = false)
    (hkp : kind p = false) : Kept pr (w.edit p v) where
  past := by
    intro q st hkq hst
    by_cases hqp : q = p
    · subst hqp
      simp only [World.edit, update_self, Option.some.injEq] at hst ⊢
      subst hst; simp
    · simp only [World.edit, update_ne _ _ hqp] at hst ⊢
      have := hk.past q st hkq hst
      omega
  kinds := by
    intro q st hst
    by_cases hqp : q = p
    · subst hqp
      simp only [World.edit, update_self, Option.some.injEq] at hst
      subst hst; exact hkp.symm
    · simp only [World.edit, update_ne _ _ hqp] at hst
      exact hk.kinds q st hst
  made := by
    intro q sq hkq haq hsq
    have hqp : q ≠ p := by rintro rfl; rw [ha] at haq; cases haq
    simp only [World.edit, update_ne _ _ hqp] at hsq
    refine keptAt_of (hk.made q sq hkq haq hsq) (by simp only [World.edit, update_ne _ _ hqp]) fun q' hkq' => ?_
    by_cases hq'p : q' = p
    · subst hq'p
      exact .inr (.inl ⟨_, update_self _ _ _, Nat.le_of_lt (hk.past q sq hkq hsq)⟩)
    · exact .inr (.inr ⟨update_ne _ _ hq'p, update_ne _ _ hq'p⟩)

theorem kept_remove {r : Recipes P V D} {kind area : P → Bool} {pr : Project r kind area} {w : World P V} (hk : Kept pr w) (p : P) : Kept pr (w.remove p) where
  past := by
    intro q st hkq hst
    by_cases hqp : q = p
    · subst hqp; simp [World.remove, update_self] at hst
    · simp only [World.remove, update_ne _ _ hqp] at hst ⊢
      exact hk.past q st hkq hst
  kinds := by
    intro q st hst
    by_cases hqp : q = p
    · subst hqp; simp [World.remove, update_self] at hst
    · simp only [World.remove, update_ne _ _ hqp] at hst
      exact hk.kinds q st hst
  made := by
    intro q sq hkq haq hsq
    have hqp : q ≠ p := by rintro rfl; simp [World.remove, update_self] at hsq
    simp only [World.remove, update_ne _ _ hqp] at hsq
    refine keptAt_of (hk.made q sq hkq haq hsq) rfl fun q' hkq' => ?_
    by_cases hq'p : q' = p
    · subst hq'p
      exact .inl (update_self _ _ _)
    · exact .inr (.inr ⟨update_ne _ _ hq'p, rfl⟩)

theorem kept_mkdir {r : Recipes P V D} {kind area : P → Bool} {pr : Project r kind area} {fs : FileSys P} {clock : Nat} {content : P → V}
    (hk : Kept pr ⟨fs, clock, content⟩) {p : P} (hkp : kind p = true) : Kept pr ⟨update fs p (some ⟨clock, true⟩), clock, content⟩ where
  past := by
    intro q st hkq hst
    have hqp : q ≠ p := by rintro rfl; rw [hkp] at hkq; cases hkq
    simp only [update_ne _ _ hqp] at hst
    exact hk.past q st hkq hst
  kinds := by
    intro q st hst
    by_cases hqp : q = p
    · subst hqp
      simp only [update_self, Option.some.injEq] at hst
      subst hst; exact hkp.symm
    · simp only [update_ne _ _ hqp] at hst
      exact hk.kinds q st hst
  made := by
    intro q sq hkq haq hsq
    have hqp : q ≠ p := by rintro rfl; rw [hkp] at hkq; cases hkq
    simp only [update_ne _ _ hqp] at hsq
    refine keptAt_of (hk.made q sq hkq haq hsq) rfl fun q' hkq' => ?_
    have hqp : q' ≠ p := by rintro rfl; rw [hkp] at hkq'; cases hkq'
    exact .inr (.inr ⟨update_ne _ _ hqp, rfl⟩)

omit [DecidableEq P] in
theorem kept_later {r : Recipes P V D} {kind area : P → Bool} {pr : Project r kind area} {fs : FileSys P} {clock : Nat} {content : P → V}
    (hk : Kept pr ⟨fs, clock, content⟩) : Kept pr ⟨fs, clock + 1, content⟩ where
  past := fun q st hkq hst => Nat.lt_succ_of_lt (hk.past q st hkq hst)
  kinds := hk.kinds
  made := hk.made

/-- Contents do not influence what can happen. -/
theorem execContents_exec {r : Recipes P V D} {b : Build P} {desc : Nat → D} {as : List (Act P)} {s s' : State P} {x x' : P → V}
    (h : execContents r b desc as s x = some (s', x')) : exec b as s = some s' := by
  induction as generalizing s x with
  | nil => simp only [execContents, Option.some.injEq, Prod.mk.injEq] at h; simp [exec, h.1]
  | cons a as ih =>
    simp only [execContents] at h
    simp only [exec]
    cases hs : step b a s with
    | none => rw [hs] at h; cases h
    | some s1 => rw [hs] at h; exact ih h

theorem execContents_induction {r : Recipes P V D} {b : Build P} {desc : Nat → D} {Q : State P → (P → V) → Prop}
    (hstep : ∀ s x a s', Q s x → step b a s = some s' → Q s' (contentStep r desc a s x)) {as : List (Act P)} {s s' : State P} {x x' : P → V} (h0 : Q s x)
    (h : execContents r b desc as s x = some (s', x')) : Q s' x' := by
  induction as generalizing s x with
  | nil =>
    simp only [execContents, Option.some.injEq, Prod.mk.injEq] at h
    obtain ⟨rfl, rfl⟩ := h
    exact h0
  | cons a as ih =>
    simp only [execContents] at h
    split at h
    · exact ih (hstep _ _ _ _ h0 ‹_›) h
    · cases h

omit [DecidableEq P] in
theorem plausible {b : Build P} {r : Recipes P V D} {kind area : P → Bool} {pr : Project r kind area} {w : World P V} (hk : Kept pr w) (hb : b.kind = kind) :
    Plausible b w.fs w.clock where
  past := by rw [hb]; exact hk.past
  kinds := by rw [hb]; exact hk.kinds

/-- A build writes into the area only, and keeps what is known about files, whatever becomes of it. -/
theorem performs_kept {r : Recipes P V D} {kind area : P → Bool} {pr : Project r kind area} {b : Build P} {desc : Nat → D} {w w' : World P V} {s : State P}
    (hk : Kept pr w) (hpl : pr.plan (w.view kind) b desc) (h : Performs r b desc w s w') :
    Inv b s ∧ Kept pr w' ∧ ∀ q, kind q = false → area q = false → w'.fs q = w.fs q ∧ w'.content q = w.content q := by
  obtain ⟨as, hx, h1, h2⟩ := h
  have hb := pr.sane hpl
  have hfine := pr.fine hpl
  have hkind := pr.kinds hpl
  have := execContents_induction (Q := fun s x => Inv b s ∧ Kept pr ⟨s.fs, s.clock, x⟩ ∧ ∀ q, kind q = false → area q = false → s.fs q = w.fs q ∧ x q = w.content q)
    ?_ ⟨inv_init (plausible hk hkind), hk, fun _ _ _ => ⟨rfl, rfl⟩⟩ hx
  · obtain ⟨fs', clock', content'⟩ := w'
    simp only at h1 h2 this
    subst h1 h2
    exact this
  · rintro s x a s' ⟨hi, hk, hw⟩ hs
    refine ⟨inv_step hb hfine hi hs, ?_⟩
    rcases step_cases hs with ⟨a', sched', rfl, hal, hss, rfl⟩ | ⟨k', t', rfl, hk', hd, rfl⟩ |
      ⟨k', t', p', rfl, hk', hd, hp', rfl⟩ | ⟨p', rfl, hkp, rfl⟩ | ⟨rfl, rfl⟩
    · exact ⟨hk, hw⟩
    · exact ⟨hk, hw⟩
    · obtain ⟨_, _, ht'⟩ := TaskList.body_facts hb.topological hi.sched hk'
      simp only [contentStep, hk', hfine, if_true]
      have hpast := hk.past
      constructor
      · constructor
        · intro p st hkp hst
          by_cases hpp : p = p'
          · subst hpp
            simp only [update_self, Option.some.injEq] at hst
            subst hst
            exact Nat.lt_succ_self _
          · simp only [update_ne _ _ hpp] at hst
            exact Nat.lt_succ_of_lt (hpast p st hkp hst)
        · intro p st hst
          by_cases hpp : p = p'
          · subst hpp
            simp only [update_self, Option.some.injEq] at hst
            subst hst
            simp only
            rw [hkind]
          · simp only [update_ne _ _ hpp] at hst
            exact hk.kinds p st hst
        · intro p sp hkp hap hsp
          by_cases hpp : p = p'
          · subst hpp
            simp only [update_self, Option.some.injEq] at hsp
            subst hsp
            refine ⟨_, b, desc, t', x, hpl, ht', hp', update_self _ _ _, fun q hkq haq => ?_, fun q hkq haq => ?_⟩
            · have hqp : q ≠ p := by rintro rfl; rw [hap] at haq; cases haq
              simp only [update_ne _ _ hqp]
              obtain ⟨h3, h4⟩ := hw q hkq haq
              cases hfs : s.fs q with
              | none => exact .inl rfl
              | some sq =>
                refine .inr (.inr ⟨?_, trivial⟩)
                simp [World.view, hkq, ← h3, hfs, h4]
            · by_cases hqp : q = p
              · subst hqp
                exact .inr (.inl ⟨_, update_self _ _ _, Nat.le_refl _⟩)
              · exact .inr (.inr (update_ne _ _ hqp).symm)
          · simp only [update_ne _ _ hpp] at hsp
            refine keptAt_of (hk.made p sp hkp hap hsp) (update_ne _ _ hpp) fun q hkq => ?_
            by_cases hqp : q = p'
            · subst hqp
              exact .inr (.inl ⟨_, update_self _ _ _, Nat.le_of_lt (hpast p sp hkp hsp)⟩)
            · exact .inr (.inr ⟨update_ne _ _ hqp, update_ne _ _ hqp⟩)
      · intro q hkq haq
        have hqp : q ≠ p' := by
          rintro rfl
          have := pr.inArea hpl t' ht' q hp' hkq
          rw [this] at haq; cases haq
        simp only [update_ne _ _ hqp]
        exact hw q hkq haq
    · refine ⟨kept_mkdir hk (by rw [← hkind]; exact hkp), fun q hkq haq => ?_⟩
      have hqp : q ≠ p' := by rintro rfl; rw [hkind, hkq] at hkp; cases hkp
      simp only [update_ne _ _ hqp]
      exact hw q hkq haq
    · exact ⟨kept_later hk, hw⟩

theorem past_kept {r : Recipes P V D} {kind area : P → Bool} {pr : Project r kind area} {w : World P V} (h : Past pr w) : Kept pr w := by
  induction h with
  | start h1 h2 h3 => exact ⟨h2, h3, fun p sp hk ha hs => by rw [h1 p ha hk] at hs; cases hs⟩
  | edit _ ha hk ih => exact kept_edit ih _ ha hk
  | remove _ ih => exact kept_remove ih _
  | mkdir _ hk ih => exact kept_mkdir ih hk
  | wait _ ih => exact kept_later ih
  | build _ hpl hp ih => exact (performs_kept ih hpl hp).2.1

/-- If all targets are up to date, and what is known about files is kept, then targets contain what their recipes compute. -/
theorem consistent_of {r : Recipes P V D} {kind area : P → Bool} (pr : Project r kind area) {w w' : World P V} {b : Build P} {desc : Nat → D}
    (hk' : Kept pr w') (hplan : pr.plan (w.view kind) b desc) (hsame : ∀ q, kind q = false → area q = false → w'.fs q = w.fs q ∧ w'.content q = w.content q)
    (hup : ∀ t ∈ b.job.tasks, UpToDate w'.fs (b.task t) ∧ ∀ p ∈ (b.task t).targets, Exists w'.fs p)
    (hsources : ∀ t ∈ b.job.tasks, ∀ q, r.reads (desc t) q → area q = false → Exists w'.fs q) : Consistent r b desc w'.content := by
  have hb := pr.sane hplan
  have hkind := pr.kinds hplan
  intro t ht p hp hkp
  rw [hkind] at hkp
  have hfresh : Fresh b w'.fs t p := (upToDate_iff hb (by rw [hkind]; exact hk'.kinds) ht).mp (hup t ht).1 p hp
  have hap := pr.inArea hplan t ht p hp hkp
  obtain ⟨sp, hsp⟩ := hfresh.1
  obtain ⟨c, b₀, desc₀, t₀, c₁, h1, h2, h3, h4, h5, h6⟩ := hk'.made p sp hkp hap hsp
  have hold : ∀ q, r.reads (desc t) q → ∀ sq, w'.fs q = some sq → sq.mtime < sp.mtime := by
    intro q hq sq hsq
    obtain ⟨hkq, hin⟩ := pr.inputs hplan t ht q hq
    obtain ⟨sp', hsp', hlt⟩ := hfresh.2 (by rw [hkind]; exact hkp) q ⟨by rw [hkind]; exact hkq, hin⟩
    obtain rfl := Option.some.inj (hsp.symm.trans hsp')
    exact hlt sq hsq
  have hsrc : ∀ q, r.reads (desc t) q → area q = false → c q = some (w'.content q) ∧ c₁ q = w'.content q := by
    intro q hq haq
    obtain ⟨sq, hsq⟩ := hsources t ht q hq haq
    rcases h5 q (pr.inputs hplan t ht q hq).1 haq with h | ⟨sq', h, hle⟩ | h
    · rw [h] at hsq; cases hsq
    · have := hold q hq sq' h; omega
    · exact h
  have hdesc : desc t = desc₀ t₀ := by
    refine pr.only hplan h1 t ht t₀ h2 p hp h3 hkp fun q hq haq => ?_
    have hkq := (pr.inputs hplan t ht q hq).1
    obtain ⟨h7, h8⟩ := hsame q hkq haq
    obtain ⟨sq, hsq⟩ := hsources t ht q hq haq
    rw [(hsrc q hq haq).1]
    simp [World.view, hkq, ← h7, hsq, h8]
  rw [h4, ← hdesc]
  refine r.pure _ _ _ _ fun q hq => ?_
  cases haq : area q with
  | false => exact (hsrc q hq haq).2
  | true =>
    obtain ⟨u, hu, hqu⟩ := pr.closed hplan t ht q hq haq
    obtain ⟨sq, hsq⟩ := (hup u hu).2 q hqu
    rcases h6 q (pr.inputs hplan t ht q hq).1 haq with h | ⟨sq', h, hle⟩ | h
    · rw [h] at hsq; cases hsq
    · have := hold q hq sq' h; omega
    · exact h

/-! ## C85 -/

/-- **C85.** Whatever has happened to a project, when a build succeeds, every target it is responsible for contains what its recipe computes from the files that are there now,
whether the recipe has been executed or not. -/
theorem C85_consistent {r : Recipes P V D} {kind area : P → Bool} (pr : Project r kind area) {w w' : World P V} {b : Build P} {desc : Nat → D} {s : State P}
    (hpast : Past pr w) (hplan : pr.plan (w.view kind) b desc) (hdry : b.dryrun = false) (hrun : Performs r b desc w s w') (hok : s.Succeeded)
    (hsources : ∀ t ∈ b.job.tasks, ∀ q, r.reads (desc t) q → area q = false → Exists w'.fs q) : Consistent r b desc w'.content := by
  have hk := past_kept hpast
  obtain ⟨hi, hk', hsame⟩ := performs_kept hk hplan hrun
  have hkind := pr.kinds hplan
  obtain ⟨as, hx, hfs, _⟩ := hrun
  refine consistent_of pr hk' hplan hsame ?_ hsources
  rw [hfs]
  exact C13_up_to_date b (pr.sane hplan) (pr.fine hplan) hdry (plausible hk hkind) (execContents_exec hx) hok

omit [DecidableEq P] in
/-- Consistent contents of targets are determined by the source files. -/
theorem consistent_unique {r : Recipes P V D} {kind area : P → Bool} (pr : Project r kind area) {v v' : P → Option V} {c c' : P → V} {b b' : Build P} {desc desc' : Nat → D}
    (hplan : pr.plan v b desc) (hplan' : pr.plan v' b' desc') (h : Consistent r b desc c) (h' : Consistent r b' desc' c')
    (hsources : ∀ t ∈ b.job.tasks, ∀ q, r.reads (desc t) q → area q = false → v q = v' q ∧ c q = c' q) {t t' : Nat} {p : P} (ht : t ∈ b.job.tasks) (ht' : t' ∈ b'.job.tasks)
    (hp : p ∈ (b.task t).targets) (hp' : p ∈ (b'.task t').targets) (hkp : kind p = false) : c p = c' p := by
  have key : ∀ n (l₁ l₂ : List Nat) (t t' : Nat) (p : P), l₁.length = n → b.job.tasks = l₁ ++ t :: l₂ → t' ∈ b'.job.tasks → p ∈ (b.task t).targets → p ∈ (b'.task t').targets →
      kind p = false → c p = c' p := by
    intro n
    induction n using Nat.strongRecOn with
    | _ n ih =>
      intro l₁ l₂ t t' p hn hl ht' hp hp' hkp
      have ht : t ∈ b.job.tasks := by rw [hl]; simp
      have hdesc : desc t = desc' t' := pr.only hplan hplan' t ht t' ht' p hp hp' hkp fun q hq haq => (hsources t ht q hq haq).1
      rw [h t ht p hp (by rw [pr.kinds hplan]; exact hkp), h' t' ht' p hp' (by rw [pr.kinds hplan']; exact hkp), hdesc]
      refine r.pure _ _ _ _ fun q hq' => ?_
      have hq : r.reads (desc t) q := by rw [hdesc]; exact hq'
      cases haq : area q with
      | false => exact (hsources t ht q hq haq).2
      | true =>
        obtain ⟨u, hu, hqu⟩ := pr.closed hplan t ht q hq haq
        obtain ⟨u', hu', hqu'⟩ := pr.closed hplan' t' ht' q hq' haq
        obtain ⟨hkq, hin⟩ := pr.inputs hplan t ht q hq
        have hdep := (pr.sane hplan).waits t ht q hin (by rw [pr.kinds hplan]; exact hkq) u hu hqu
        have hmem := (pr.sane hplan).topological.ordered l₁ t l₂ hl u hdep hu
        obtain ⟨m₁, m₂, rfl⟩ := List.append_of_mem hmem
        refine ih m₁.length (by simp only [List.length_append, List.length_cons] at hn; omega) m₁ (m₂ ++ t :: l₂) u u' q rfl ?_ hu' hqu hqu' hkq
        rw [hl]; simp
  obtain ⟨l₁, l₂, hl⟩ := List.append_of_mem ht
  exact key _ l₁ l₂ t t' p rfl hl ht' hp hp' hkp

/-- **C85.** When two builds succeed and the source files are the same, then targets that both are responsible for have the same contents, whatever has happened before either of them. In
particular a build after any history of edits and other builds gives the same result as one that starts with no targets at all. -/
theorem C85_same_as_clean {r : Recipes P V D} {kind area : P → Bool} (pr : Project r kind area)
    {w₁ w₁' : World P V} {b₁ : Build P} {desc₁ : Nat → D} {s₁ : State P} {w₂ w₂' : World P V} {b₂ : Build P} {desc₂ : Nat → D} {s₂ : State P}
    (hpast₁ : Past pr w₁) (hplan₁ : pr.plan (w₁.view kind) b₁ desc₁) (hdry₁ : b₁.dryrun = false) (hrun₁ : Performs r b₁ desc₁ w₁ s₁ w₁') (hok₁ : s₁.Succeeded)
    (hpast₂ : Past pr w₂) (hplan₂ : pr.plan (w₂.view kind) b₂ desc₂) (hdry₂ : b₂.dryrun = false) (hrun₂ : Performs r b₂ desc₂ w₂ s₂ w₂') (hok₂ : s₂.Succeeded)
    (hsources₁ : ∀ t ∈ b₁.job.tasks, ∀ q, r.reads (desc₁ t) q → area q = false → Exists w₁'.fs q)
    (hsources₂ : ∀ t ∈ b₂.job.tasks, ∀ q, r.reads (desc₂ t) q → area q = false → Exists w₂'.fs q)
    (hsame : ∀ q, area q = false → w₁.view kind q = w₂.view kind q) {t₁ t₂ : Nat} {p : P} (ht₁ : t₁ ∈ b₁.job.tasks) (ht₂ : t₂ ∈ b₂.job.tasks)
    (hp₁ : p ∈ (b₁.task t₁).targets) (hp₂ : p ∈ (b₂.task t₂).targets) (hkp : kind p = false) : w₁'.content p = w₂'.content p := by
  have h1 := C85_consistent pr hpast₁ hplan₁ hdry₁ hrun₁ hok₁ hsources₁
  have h2 := C85_consistent pr hpast₂ hplan₂ hdry₂ hrun₂ hok₂ hsources₂
  refine consistent_unique pr hplan₁ hplan₂ h1 h2 (fun t ht q hq haq => ⟨hsame q haq, ?_⟩) ht₁ ht₂ hp₁ hp₂ hkp
  have hkq := (pr.inputs hplan₁ t ht q hq).1
  obtain ⟨ha1, hb1⟩ := (performs_kept (past_kept hpast₁) hplan₁ hrun₁).2.2 q hkq haq
  obtain ⟨ha2, hb2⟩ := (performs_kept (past_kept hpast₂) hplan₂ hrun₂).2.2 q hkq haq
  have hv := hsame q haq
  obtain ⟨sq, hsq⟩ := hsources₁ t ht q hq haq
  rw [ha1] at hsq
  rw [hb1, hb2]
  simp only [World.view, hkq, if_true, hsq, Option.map_some] at hv
  cases hfs : w₂.fs q with
  | none => rw [hfs] at hv; cases hv
  | some _ => rw [hfs] at hv; exact Option.some.inj hv

end Maike.Build
