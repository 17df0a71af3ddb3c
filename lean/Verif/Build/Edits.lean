import Verif.Build.Settings

/-!
# Source files that are edited while maike is running (C110)

In C85 nobody touches source files between the moment maike reads them and the end of the build. Here they may be edited, removed and created at any moment: while the source tree is scanned, while
tasks wait, while recipes are running. A recipe reads its inputs at some moments between the comparison of time stamps and the moment it writes a target, core/db/task.cpp:15-29; which ones is not
known. The time stamp of a target is that of the moment it is written, and the comparison, core/db/target_info.cpp:9-21, has nothing else to go by.
-/

namespace Maike.Build

open Maike.Db (Dep isExternal)

variable {P V D : Type} [DecidableEq P]

/-! ## Model -/

/-- A build that is disturbed, and a record of what has happened. -/
structure Live (P V : Type) where
  s : State P
  content : P → V
  /-- the contents that a file has had since time stamps were compared for a task -/
  seen : Nat → P → V → Prop
  /-- the files that have been edited since maike has read them, to find out what is to be done -/
  changed : P → Prop
  /-- `spoilt p q`: `q` had been edited after maike has read it, and before `p` was written in the same run. Neither has `q` been saved or removed after that, nor has `p` been removed
  or written in another way. -/
  spoilt : P → P → Prop

/-- The files. -/
def Live.world (L : Live P V) : World P V := ⟨L.s.fs, L.s.clock, L.content⟩

/-- The beginning of a build, see `init`. -/
def Live.start (b : Build P) (w : World P V) (changed : P → Prop) (spoilt : P → P → Prop) : Live P V where
  s := init b w.fs w.clock
  content := w.content
  seen := fun _ _ _ => False
  changed := changed
  spoilt := spoilt

/-- One thing that happens during a build. The build does what it does in `step`. In between, somebody edits files that are not targets, removes files, or makes directories. -/
inductive LStep (r : Recipes P V D) (b : Build P) (desc : Nat → D) (kind area : P → Bool) : Live P V → Live P V → Prop
  /-- the scheduler does something, a directory is touched, or time passes -/
  | other {L a s'} : step b a L.s = some s' → (∀ k, a ≠ .check k) → (∀ k p, a ≠ .write k p) → LStep r b desc kind area L { L with s := s' }
  /-- time stamps are compared; from now on, the recipe may read what it needs -/
  | check {L k t s'} : step b (.check k) L.s = some s' → L.s.sched.running[k]? = some (t, .body) →
      LStep r b desc kind area L { L with s := s', seen := update L.seen t fun q v => v = L.content q }
  /-- a recipe writes a target, having read contents `c` of files at various moments -/
  | write {L k t p s' c} : step b (.write k p) L.s = some s' → L.s.sched.running[k]? = some (t, .body) → (∀ q, L.seen t q (c q)) →
      LStep r b desc kind area L { L with
        s := s'
        content := update L.content p (r.make (desc t) c p)
        seen := fun u q v => L.seen u q v ∨ (q = p ∧ v = r.make (desc t) c p)
        spoilt := fun p' q => (p' = p ∧ L.changed q) ∨ (p' ≠ p ∧ L.spoilt p' q) }
  /-- somebody writes a file -/
  | edit {L q v} : area q = false → kind q = false →
      LStep r b desc kind area L { L with
        s := { L.s with fs := update L.s.fs q (some ⟨L.s.clock, false⟩), clock := L.s.clock + 1 }
        content := update L.content q v
        seen := fun u x y => L.seen u x y ∨ (x = q ∧ y = v)
        changed := fun x => x = q ∨ L.changed x
        spoilt := fun p x => L.spoilt p x ∧ x ≠ q }
  /-- somebody removes a file -/
  | remove {L q} : LStep r b desc kind area L { L with
      s := { L.s with fs := update L.s.fs q none }
      spoilt := fun p x => L.spoilt p x ∧ p ≠ q ∧ x ≠ q }
  /-- somebody makes a directory -/
  | mkdir {L q} : kind q = true → LStep r b desc kind area L { L with s := { L.s with fs := update L.s.fs q (some ⟨L.s.clock, true⟩) } }

/-- Any number of such things. -/
inductive LExec (r : Recipes P V D) (b : Build P) (desc : Nat → D) (kind area : P → Bool) (L₀ : Live P V) : Live P V → Prop
  | refl : LExec r b desc kind area L₀ L₀
  | tail {L L'} : LExec r b desc kind area L₀ L → LStep r b desc kind area L L' → LExec r b desc kind area L₀ L'

/-! ## Specification -/

/-- A run of maike: it has read files with contents `v`, and performs builds according to that, one for each of `--targets`, core/db/source_tree.cpp:56-75. Each may have succeeded or failed, or may have
been interrupted. -/
inductive Session {r : Recipes P V D} {kind area : P → Bool} (pr : Project r kind area) (v : P → Option V) :
    World P V → (P → Prop) → (P → P → Prop) → World P V → (P → P → Prop) → Prop
  | done {w ch sp} : Session pr v w ch sp w sp
  | build {w ch sp b desc L w' sp'} : pr.plan v b desc → LExec r b desc kind area (.start b w ch sp) L → Session pr v L.world L.changed L.spoilt w' sp' →
      Session pr v w ch sp w' sp'

/-- What can have happened, see `Past`: files may also be edited while maike is running. When a run begins with its first build, what it has read of a file may not be what is in the file any more. -/
inductive BusyPast {r : Recipes P V D} {kind area : P → Bool} (pr : Project r kind area) : World P V → (P → P → Prop) → Prop
  | start {w} : (∀ p, area p = true → kind p = false → w.fs p = none) → (∀ p st, kind p = false → w.fs p = some st → st.mtime < w.clock) →
      (∀ p st, w.fs p = some st → st.dir = kind p) → BusyPast pr w fun _ _ => False
  | edit {w sp q x} : BusyPast pr w sp → area q = false → kind q = false → BusyPast pr (w.edit q x) fun p y => sp p y ∧ y ≠ q
  | remove {w sp q} : BusyPast pr w sp → BusyPast pr (w.remove q) fun p y => sp p y ∧ p ≠ q ∧ y ≠ q
  | mkdir {w sp p} : BusyPast pr w sp → kind p = true → BusyPast pr (w.mkdir p) sp
  | wait {w sp} : BusyPast pr w sp → BusyPast pr w.wait sp
  | run {w sp v w' sp'} : BusyPast pr w sp → Session pr v w (fun q => v q ≠ w.view kind q) sp w' sp' → BusyPast pr w' sp'

/-! ## Proof -/

/-- See `KeptAt`. -/
def BusyAt {r : Recipes P V D} {kind area : P → Bool} (pr : Project r kind area) (w : World P V) (spoilt : P → P → Prop) (p : P) (sp : Stat) : Prop :=
  ∃ c b desc t c₁, pr.plan c b desc ∧ t ∈ b.job.tasks ∧ p ∈ (b.task t).targets ∧ w.content p = r.make (desc t) c₁ p ∧
    (∀ q, kind q = false → area q = false → spoilt p q ∨ w.fs q = none ∨ (∃ sq, w.fs q = some sq ∧ sp.mtime ≤ sq.mtime) ∨
      (c q = some (w.content q) ∧ c₁ q = w.content q)) ∧
    (∀ q, kind q = false → area q = true → r.reads (desc t) q → w.fs q = none ∨ (∃ sq, w.fs q = some sq ∧ sp.mtime ≤ sq.mtime) ∨ c₁ q = w.content q)

structure Busy {r : Recipes P V D} {kind area : P → Bool} (pr : Project r kind area) (w : World P V) (spoilt : P → P → Prop) : Prop where
  past : ∀ p st, kind p = false → w.fs p = some st → st.mtime < w.clock
  kinds : ∀ p st, w.fs p = some st → st.dir = kind p
  made : ∀ p sp, kind p = false → area p = true → w.fs p = some sp → BusyAt pr w spoilt p sp

section

variable {r : Recipes P V D} {kind area : P → Bool} {pr : Project r kind area} {w w' : World P V} {spoilt spoilt' : P → P → Prop}

omit [DecidableEq P] in
theorem busyAt_of {p : P} {sp : Stat} (h : BusyAt pr w spoilt p sp) (hp : w'.content p = w.content p)
    (hq : ∀ q, kind q = false → w'.fs q = none ∨ (∃ sq, w'.fs q = some sq ∧ sp.mtime ≤ sq.mtime) ∨
      (w'.fs q = w.fs q ∧ w'.content q = w.content q ∧ (spoilt p q → spoilt' p q))) :
    BusyAt pr w' spoilt' p sp := by
  obtain ⟨c, b, desc, t, c₁, h1, h2, h3, h4, h5, h6⟩ := h
  refine ⟨c, b, desc, t, c₁, h1, h2, h3, hp.trans h4, fun q hkq haq => ?_, fun q hkq haq hr => ?_⟩
  · rcases hq q hkq with h | h | ⟨ha, hb, hc⟩
    · exact .inr (.inl h)
    · exact .inr (.inr (.inl h))
    · rw [ha, hb]
      exact (h5 q hkq haq).imp hc id
  · rcases hq q hkq with h | h | ⟨ha, hb, hc⟩
    · exact .inl h
    · exact .inr (.inl h)
    · rw [ha, hb]; exact h6 q hkq haq hr

theorem busy_edit (hk : Busy pr w spoilt) {p : P} (v : V) (ha : area p = false) (hkp : kind p = false) :
    Busy pr (w.edit p v) fun y x => spoilt y x ∧ x ≠ p where
  past := by
    intro q st hkq hst
    by_cases hqp : q = p
    · subst hqp
      simp only [World.edit, update_self, Option.some.injEq] at hst ⊢
      subst hst; simp
    · simp only [World.edit, update_ne _ _ hqp] at hst ⊢
      have := hk.past q st hkq hst
      omega
  kinds := by
    intro q st hst
    by_cases hqp : q = p
    · subst hqp
      simp only [World.edit, update_self, Option.some.injEq] at hst
      subst hst; exact hkp.symm
    · simp only [World.edit, update_ne _ _ hqp] at hst
      exact hk.kinds q st hst
  made := by
    intro q sq hkq haq hsq
    have hqp : q ≠ p := by rintro rfl; rw [ha] at haq; cases haq
    simp only [World.edit, update_ne _ _ hqp] at hsq
    refine busyAt_of (hk.made q sq hkq haq hsq) (by simp only [World.edit, update_ne _ _ hqp]) fun q' hkq' => ?_
    by_cases hq'p : q' = p
    · subst hq'p
      exact .inr (.inl ⟨_, update_self _ _ _, Nat.le_of_lt (hk.past q sq hkq hsq)⟩)
    · exact .inr (.inr ⟨update_ne _ _ hq'p, update_ne _ _ hq'p, fun h => ⟨h, hq'p⟩⟩)

theorem busy_remove (hk : Busy pr w spoilt) (p : P) : Busy pr (w.remove p) fun y x => spoilt y x ∧ y ≠ p ∧ x ≠ p where
  past := by
    intro q st hkq hst
    by_cases hqp : q = p
    · subst hqp; simp [World.remove, update_self] at hst
    · simp only [World.remove, update_ne _ _ hqp] at hst ⊢
      exact hk.past q st hkq hst
  kinds := by
    intro q st hst
    by_cases hqp : q = p
    · subst hqp; simp [World.remove, update_self] at hst
    · simp only [World.remove, update_ne _ _ hqp] at hst
      exact hk.kinds q st hst
  made := by
    intro q sq hkq haq hsq
    have hqp : q ≠ p := by rintro rfl; simp [World.remove, update_self] at hsq
    simp only [World.remove, update_ne _ _ hqp] at hsq
    refine busyAt_of (hk.made q sq hkq haq hsq) rfl fun q' hkq' => ?_
    by_cases hq'p : q' = p
    · subst hq'p
      exact .inl (update_self _ _ _)
    · exact .inr (.inr ⟨update_ne _ _ hq'p, rfl, fun h => ⟨h, hqp, hq'p⟩⟩)

theorem busy_mkdir (hk : Busy pr w spoilt) {p : P} (hkp : kind p = true) : Busy pr (w.mkdir p) spoilt where
  past := by
    intro q st hkq hst
    have hqp : q ≠ p := by rintro rfl; rw [hkp] at hkq; cases hkq
    simp only [World.mkdir, update_ne _ _ hqp] at hst
    exact hk.past q st hkq hst
  kinds := by
    intro q st hst
    by_cases hqp : q = p
    · subst hqp
      simp only [World.mkdir, update_self, Option.some.injEq] at hst
      subst hst; exact hkp.symm
    · simp only [World.mkdir, update_ne _ _ hqp] at hst
      exact hk.kinds q st hst
  made := by
    intro q sq hkq haq hsq
    have hqp : q ≠ p := by rintro rfl; rw [hkp] at hkq; cases hkq
    simp only [World.mkdir, update_ne _ _ hqp] at hsq
    refine busyAt_of (hk.made q sq hkq haq hsq) rfl fun q' hkq' => ?_
    have hqp : q' ≠ p := by rintro rfl; rw [hkp] at hkq'; cases hkq'
    exact .inr (.inr ⟨update_ne _ _ hqp, rfl, id⟩)

omit [DecidableEq P] in
theorem busy_wait (hk : Busy pr w spoilt) : Busy pr w.wait spoilt where
  past := fun q st hkq hst => Nat.lt_succ_of_lt (hk.past q st hkq hst)
  kinds := hk.kinds
  made := hk.made

end

/-- What is known during a build that is disturbed. -/
structure LInv {r : Recipes P V D} {kind area : P → Bool} (pr : Project r kind area) (v : P → Option V) (b : Build P) (desc : Nat → D) (L : Live P V) : Prop where
  sched : TaskList.Reachable b.job L.s.sched
  dstart : ∀ t, L.s.decision t ≠ none → .start t ∈ L.s.sched.hist
  busy : Busy pr L.world L.spoilt
  scan : ∀ q, kind q = false → area q = false → ¬ L.changed q → L.s.fs q = none ∨ v q = some (L.content q)
  still : ∀ q, kind q = false → area q = false → ¬ L.changed q → ∀ t x, L.s.decision t ≠ none → L.seen t q x → x = L.content q
  made : ∀ t, L.s.decision t ≠ none → ∀ q, r.reads (desc t) q → area q = true → ∀ x, L.seen t q x → x = L.content q

section

variable {r : Recipes P V D} {kind area : P → Bool} {pr : Project r kind area} {v : P → Option V} {b : Build P} {desc : Nat → D} {L L' : Live P V}

omit [DecidableEq P] in
theorem linv_start {w : World P V} {ch : P → Prop} {sp : P → P → Prop} (hk : Busy pr w sp)
    (hch : ∀ q, kind q = false → area q = false → ¬ ch q → w.fs q = none ∨ v q = some (w.content q)) : LInv pr v b desc (.start b w ch sp) where
  sched := ⟨[], rfl⟩
  dstart := fun _ ht => absurd rfl ht
  busy := hk
  scan := hch
  still := fun _ _ _ _ _ _ ht => absurd rfl ht
  made := fun _ ht => absurd rfl ht

theorem linv_step (hpl : pr.plan v b desc) (hi : LInv pr v b desc L) (h : LStep r b desc kind area L L') : LInv pr v b desc L' := by
  have hb := pr.sane hpl
  have hfine := pr.fine hpl
  have hkind := pr.kinds hpl
  cases h with
  | @other a s' hs hc hw =>
    rcases step_cases hs with ⟨a', sched', rfl, hal, hss, rfl⟩ | ⟨k', t', rfl, hk', hd, rfl⟩ |
      ⟨k', t', p', rfl, hk', hd, hp', rfl⟩ | ⟨p', rfl, hkp, rfl⟩ | ⟨rfl, rfl⟩
    · obtain ⟨e, he⟩ := TaskList.step_hist hss
      exact { hi with sched := hi.sched.step hss, dstart := fun t ht => by rw [he]; exact List.mem_append_left _ (hi.dstart t ht) }
    · exact absurd rfl (hc k')
    · exact absurd rfl (hw k' p')
    · refine { hi with busy := busy_mkdir hi.busy (p := p') (by rw [← hkind]; exact hkp), scan := fun q hkq haq hn => ?_ }
      have hqp : q ≠ p' := by rintro rfl; rw [hkind, hkq] at hkp; cases hkp
      simp only [update_ne _ _ hqp]
      exact hi.scan q hkq haq hn
    · exact { hi with busy := busy_wait hi.busy }
  | @check k t s' hs hk =>
    rcases step_cases hs with ⟨a', sched', h, hal, hss, rfl⟩ | ⟨k', t', h, hk', hd, rfl⟩ |
      ⟨k', t', p', h, hk', hd, hp', rfl⟩ | ⟨p', h, hkp, rfl⟩ | ⟨h, rfl⟩ <;> cases h
    obtain rfl : t = t' := by rw [hk] at hk'; injection hk' with hk'; injection hk'
    refine { hi with dstart := fun u hu => ?_, still := fun q hkq haq hn u x hu hx => ?_, made := fun u hu q hr haq x hx => ?_ }
    · by_cases hut : u = t
      · subst hut; exact (TaskList.body_facts hb.topological hi.sched hk).1
      · simp only [update_ne _ _ hut] at hu; exact hi.dstart u hu
    · by_cases hut : u = t
      · subst hut; simp only [update_self] at hx; exact hx
      · simp only [update_ne _ _ hut] at hu hx; exact hi.still q hkq haq hn u x hu hx
    · by_cases hut : u = t
      · subst hut; simp only [update_self] at hx; exact hx
      · simp only [update_ne _ _ hut] at hu hx; exact hi.made u hu q hr haq x hx
  | @write k t p s' c hs hk hc =>
    rcases step_cases hs with ⟨a', sched', h, hal, hss, rfl⟩ | ⟨k', t', h, hk', hd, rfl⟩ |
      ⟨k', t', p', h, hk', hd, hp', rfl⟩ | ⟨p', h, hkp, rfl⟩ | ⟨h, rfl⟩ <;> cases h
    obtain rfl : t = t' := by rw [hk] at hk'; injection hk' with hk'; injection hk'
    obtain ⟨_, hnf, ht⟩ := TaskList.body_facts hb.topological hi.sched hk
    have hdt : L.s.decision t ≠ none := by rw [hd]; simp
    have hpast := hi.busy.past
    have hother : ∀ q, kind q = false → area q = false → q ≠ p := by
      rintro q hkq haq rfl
      rw [pr.inArea hpl t ht q hp' hkq] at haq; cases haq
    have hinput : ∀ u, L.s.decision u ≠ none → ∀ q, r.reads (desc u) q → q ≠ p := by
      rintro u hu q hq rfl
      have hst := hi.dstart u hu
      have hut := TaskList.started_task hb.topological hi.sched hst
      obtain ⟨hkq, hin⟩ := pr.inputs hpl u hut q hq
      exact hnf _ (TaskList.dep_done hb.topological hi.sched hst (hb.waits u hut q hin (by rw [hkind]; exact hkq) t ht hp') ht)
    refine ⟨hi.sched, hi.dstart, ⟨?_, ?_, ?_⟩, fun q hkq haq hn => ?_, fun q hkq haq hn u x hu hx => ?_, fun u hu q hr haq x hx => ?_⟩
    · intro q st hkq hst
      simp only [Live.world, hfine, if_true] at hst ⊢
      by_cases hqp : q = p
      · subst hqp
        simp only [update_self, Option.some.injEq] at hst
        subst hst
        exact Nat.lt_succ_self _
      · simp only [update_ne _ _ hqp] at hst
        exact Nat.lt_succ_of_lt (hpast q st hkq hst)
    · intro q st hst
      simp only [Live.world] at hst
      by_cases hqp : q = p
      · subst hqp
        simp only [update_self, Option.some.injEq] at hst
        subst hst
        simp only
        rw [hkind]
      · simp only [update_ne _ _ hqp] at hst
        exact hi.busy.kinds q st hst
    · intro y sy hky hay hsy
      simp only [Live.world] at hsy
      by_cases hyp : y = p
      · subst hyp
        simp only [update_self, Option.some.injEq] at hsy
        subst hsy
        refine ⟨_, b, desc, t, c, hpl, ht, hp', update_self _ _ _, fun q hkq haq => ?_, fun q hkq haq hr => ?_⟩
        · by_cases hchq : L.changed q
          · exact .inl (.inl ⟨rfl, hchq⟩)
          · have hqp := hother q hkq haq
            simp only [Live.world, update_ne _ _ hqp]
            refine .inr ?_
            rcases hi.scan q hkq haq hchq with h | h
            · exact .inl h
            · exact .inr (.inr ⟨h, hi.still q hkq haq hchq t _ hdt (hc q)⟩)
        · have hqp := hinput t hdt q hr
          simp only [Live.world, update_ne _ _ hqp]
          exact .inr (.inr (hi.made t hdt q hr haq _ (hc q)))
      · simp only [update_ne _ _ hyp] at hsy
        refine busyAt_of (hi.busy.made y sy hky hay hsy) (update_ne _ _ hyp) fun q hkq => ?_
        by_cases hqp : q = p
        · subst hqp
          exact .inr (.inl ⟨_, update_self _ _ _, Nat.le_of_lt (hpast y sy hky hsy)⟩)
        · exact .inr (.inr ⟨update_ne _ _ hqp, update_ne _ _ hqp, fun h => .inr ⟨hyp, h⟩⟩)
    · simp only [update_ne _ _ (hother q hkq haq)]
      exact hi.scan q hkq haq hn
    · rcases hx with hx | ⟨rfl, rfl⟩
      · simp only [update_ne _ _ (hother q hkq haq)]
        exact hi.still q hkq haq hn u x hu hx
      · simp only [update_self]
    · rcases hx with hx | ⟨rfl, rfl⟩
      · simp only [update_ne _ _ (hinput u hu q hr)]
        exact hi.made u hu q hr haq x hx
      · simp only [update_self]
  | @edit q x haq hkq =>
    refine ⟨hi.sched, hi.dstart, busy_edit hi.busy x haq hkq, fun y hky hay hn => ?_, fun y hky hay hn u z hu hz => ?_, fun u hu y hr hay z hz => ?_⟩
    · have hyq : y ≠ q := fun h => hn (.inl h)
      simp only [update_ne _ _ hyq]
      exact hi.scan y hky hay fun h => hn (.inr h)
    · have hyq : y ≠ q := fun h => hn (.inl h)
      simp only [update_ne _ _ hyq]
      rcases hz with hz | ⟨h, _⟩
      · exact hi.still y hky hay (fun h => hn (.inr h)) u z hu hz
      · exact absurd h hyq
    · have hyq : y ≠ q := by rintro rfl; rw [haq] at hay; cases hay
      simp only [update_ne _ _ hyq]
      rcases hz with hz | ⟨h, _⟩
      · exact hi.made u hu y hr hay z hz
      · exact absurd h hyq
  | @remove q =>
    refine ⟨hi.sched, hi.dstart, busy_remove hi.busy q, fun y hky hay hn => ?_, hi.still, hi.made⟩
    by_cases hyq : y = q
    · subst hyq; exact .inl (update_self _ _ _)
    · simp only [update_ne _ _ hyq]
      exact hi.scan y hky hay hn
  | @mkdir q hkq =>
    refine ⟨hi.sched, hi.dstart, busy_mkdir hi.busy hkq, fun y hky hay hn => ?_, hi.still, hi.made⟩
    have hyq : y ≠ q := by rintro rfl; rw [hkq] at hky; cases hky
    simp only [update_ne _ _ hyq]
    exact hi.scan y hky hay hn

theorem linv_exec (hpl : pr.plan v b desc) (hi : LInv pr v b desc L) (h : LExec r b desc kind area L L') : LInv pr v b desc L' := by
  induction h with
  | refl => exact hi
  | tail _ hs ih => exact linv_step hpl ih hs

theorem session_busy {w w' : World P V} {ch : P → Prop} {sp sp' : P → P → Prop} (h : Session pr v w ch sp w' sp') (hk : Busy pr w sp)
    (hch : ∀ q, kind q = false → area q = false → ¬ ch q → w.fs q = none ∨ v q = some (w.content q)) : Busy pr w' sp' := by
  induction h with
  | done => exact hk
  | build hpl hx _ ih =>
    have := linv_exec hpl (linv_start hk hch) hx
    exact ih this.busy this.scan

theorem busyPast_busy {w : World P V} {sp : P → P → Prop} (h : BusyPast pr w sp) : Busy pr w sp := by
  induction h with
  | start h1 h2 h3 => exact ⟨h2, h3, fun p sp hk ha hs => by rw [h1 p ha hk] at hs; cases hs⟩
  | edit _ ha hk ih => exact busy_edit ih _ ha hk
  | remove _ ih => exact busy_remove ih _
  | mkdir _ hk ih => exact busy_mkdir ih hk
  | wait _ ih => exact busy_wait ih
  | @run w sp v w' sp' _ hs ih =>
    refine session_busy hs ih fun q hkq _ hn => ?_
    have hv := Classical.not_not.mp hn
    cases hfs : w.fs q with
    | none => exact .inl rfl
    | some st => rw [hv]; exact .inr (by simp [World.view, hkq, hfs])

/-- A build that nobody disturbs is one in which nothing else happens. -/
theorem live_of_performs {w w' : World P V} {s : State P} {ch : P → Prop} {sp : P → P → Prop} (hb : b.Sane) (h : Performs r b desc w s w') :
    ∃ L, LExec r b desc kind area (.start b w ch sp) L ∧ L.s = s ∧ L.world = w' ∧ L.changed = ch ∧
      ∀ p q, L.spoilt p q → ((∃ t ∈ b.job.tasks, p ∈ s.written t) ∧ ch q) ∨ ((∀ t ∈ b.job.tasks, p ∉ s.written t) ∧ sp p q) := by
  obtain ⟨as, hx, h1, h2⟩ := h
  have := execContents_induction (r := r) (b := b) (desc := desc) (Q := fun s x => ∃ L : Live P V, LExec r b desc kind area (.start b w ch sp) L ∧ L.s = s ∧ L.content = x ∧ L.changed = ch ∧
      TaskList.Reachable b.job s.sched ∧ (∀ t, s.decision t ≠ none → ∀ q, L.seen t q (x q)) ∧
      ∀ p q, L.spoilt p q → ((∃ t ∈ b.job.tasks, p ∈ s.written t) ∧ ch q) ∨ ((∀ t ∈ b.job.tasks, p ∉ s.written t) ∧ sp p q))
    ?_ ⟨.start b w ch sp, .refl, rfl, rfl, rfl, ⟨[], rfl⟩, fun _ ht => absurd rfl ht, fun p q h => .inr ⟨fun t _ => List.not_mem_nil, h⟩⟩ hx
  · obtain ⟨L, h3, h4, h5, h6, _, _, h8⟩ := this
    refine ⟨L, h3, h4, ?_, h6, h8⟩
    obtain ⟨fs', clock', content'⟩ := w'
    simp only at h1 h2 h5
    simp [Live.world, h4, h5, h1, h2]
  · rintro s x a s' ⟨L, hL, rfl, rfl, hch, hr, hseen, hsp⟩ hs
    rcases step_cases hs with ⟨a', sched', rfl, hal, hss, rfl⟩ | ⟨k', t', rfl, hk', hd, rfl⟩ |
      ⟨k', t', p', rfl, hk', hd, hp', rfl⟩ | ⟨p', rfl, hkp, rfl⟩ | ⟨rfl, rfl⟩
    · exact ⟨_, hL.tail (.other hs (by simp) (by simp)), rfl, rfl, hch, hr.step hss, hseen, hsp⟩
    · refine ⟨_, hL.tail (.check hs hk'), rfl, rfl, hch, hr, fun t ht q => ?_, hsp⟩
      by_cases htt : t = t'
      · subst htt; simp only [update_self, contentStep]
      · simp only [update_ne _ _ htt] at ht ⊢
        exact hseen t ht q
    · obtain ⟨_, _, ht'⟩ := TaskList.body_facts hb.topological hr hk'
      refine ⟨_, hL.tail (.write hs hk' (c := L.content) fun q => hseen t' (by rw [hd]; simp) q), rfl, ?_, hch, hr, fun t ht q => ?_, fun p q h => ?_⟩
      · simp only [contentStep, hk']
      · simp only [contentStep, hk']
        by_cases hqp : q = p'
        · subst hqp; exact .inr ⟨rfl, update_self _ _ _⟩
        · simp only [update_ne _ _ hqp]; exact .inl (hseen t ht q)
      · rcases h with ⟨rfl, h⟩ | ⟨hne, h⟩
        · exact .inl ⟨⟨t', ht', by simp [update_self]⟩, hch ▸ h⟩
        · rcases hsp p q h with ⟨⟨t, ht, h1⟩, h2⟩ | ⟨h1, h2⟩
          · refine .inl ⟨⟨t, ht, ?_⟩, h2⟩
            by_cases htt : t = t'
            · subst htt; simp [update_self, h1]
            · simp only [update_ne _ _ htt]; exact h1
          · refine .inr ⟨fun t ht => ?_, h2⟩
            by_cases htt : t = t'
            · subst htt; simp [update_self, h1 t ht, hne]
            · simp only [update_ne _ _ htt]; exact h1 t ht
    · exact ⟨_, hL.tail (.other hs (by simp) (by simp)), rfl, rfl, hch, hr, hseen, hsp⟩
    · exact ⟨_, hL.tail (.other hs (by simp) (by simp)), rfl, rfl, hch, hr, hseen, hsp⟩

/-- See `consistent_of`. -/
theorem target_of {w w' : World P V} {sp : P → P → Prop} (hk' : Busy pr w' sp) (hplan : pr.plan (w.view kind) b desc)
    (hsame : ∀ q, kind q = false → area q = false → w'.fs q = w.fs q ∧ w'.content q = w.content q)
    (hup : ∀ t ∈ b.job.tasks, UpToDate w'.fs (b.task t) ∧ ∀ p ∈ (b.task t).targets, Exists w'.fs p)
    {t : Nat} (ht : t ∈ b.job.tasks) (hsources : ∀ q, r.reads (desc t) q → area q = false → Exists w'.fs q) {p : P} (hp : p ∈ (b.task t).targets) (hkp : kind p = false)
    (hsp : ∀ q, r.reads (desc t) q → area q = false → ¬ sp p q) : w'.content p = r.make (desc t) w'.content p := by
  have hb := pr.sane hplan
  have hkind := pr.kinds hplan
  have hfresh : Fresh b w'.fs t p := (upToDate_iff hb (by rw [hkind]; exact hk'.kinds) ht).mp (hup t ht).1 p hp
  have hap := pr.inArea hplan t ht p hp hkp
  obtain ⟨st, hst⟩ := hfresh.1
  obtain ⟨c, b₀, desc₀, t₀, c₁, h1, h2, h3, h4, h5, h6⟩ := hk'.made p st hkp hap hst
  have hold : ∀ q, r.reads (desc t) q → ∀ sq, w'.fs q = some sq → sq.mtime < st.mtime := by
    intro q hq sq hsq
    obtain ⟨hkq, hin⟩ := pr.inputs hplan t ht q hq
    obtain ⟨sp', hsp', hlt⟩ := hfresh.2 (by rw [hkind]; exact hkp) q ⟨by rw [hkind]; exact hkq, hin⟩
    obtain rfl := Option.some.inj (hst.symm.trans hsp')
    exact hlt sq hsq
  have hsrc : ∀ q, r.reads (desc t) q → area q = false → c q = some (w'.content q) ∧ c₁ q = w'.content q := by
    intro q hq haq
    obtain ⟨sq, hsq⟩ := hsources q hq haq
    rcases h5 q (pr.inputs hplan t ht q hq).1 haq with h | h | ⟨sq', h, hle⟩ | h
    · exact absurd h (hsp q hq haq)
    · rw [h] at hsq; cases hsq
    · have := hold q hq sq' h; omega
    · exact h
  have hdesc : desc t = desc₀ t₀ := by
    refine pr.only hplan h1 t ht t₀ h2 p hp h3 hkp fun q hq haq => ?_
    have hkq := (pr.inputs hplan t ht q hq).1
    obtain ⟨h7, h8⟩ := hsame q hkq haq
    obtain ⟨sq, hsq⟩ := hsources q hq haq
    rw [(hsrc q hq haq).1]
    simp [World.view, hkq, ← h7, hsq, h8]
  rw [h4, ← hdesc]
  refine r.pure _ _ _ _ fun q hq => ?_
  cases haq : area q with
  | false => exact (hsrc q hq haq).2
  | true =>
    obtain ⟨u, hu, hqu⟩ := pr.closed hplan t ht q hq haq
    obtain ⟨sq, hsq⟩ := (hup u hu).2 q hqu
    rcases h6 q (pr.inputs hplan t ht q hq).1 haq (by rw [← hdesc]; exact hq) with h | ⟨sq', h, hle⟩ | h
    · rw [h] at hsq; cases hsq
    · have := hold q hq sq' h; omega
    · exact h

/-- A build that nobody disturbs leaves everything alone but targets. -/
theorem performs_same {w w' : World P V} {s : State P} {sp : P → P → Prop} (hk : Busy pr w sp) (hpl : pr.plan (w.view kind) b desc) (h : Performs r b desc w s w') :
    Inv b s ∧ ∀ q, kind q = false → area q = false → w'.fs q = w.fs q ∧ w'.content q = w.content q := by
  obtain ⟨as, hx, h1, h2⟩ := h
  have hb := pr.sane hpl
  have hfine := pr.fine hpl
  have hkind := pr.kinds hpl
  have := execContents_induction (Q := fun s x => Inv b s ∧ ∀ q, kind q = false → area q = false → s.fs q = w.fs q ∧ x q = w.content q)
    ?_ ⟨inv_init ⟨by rw [hkind]; exact hk.past, by rw [hkind]; exact hk.kinds⟩, fun _ _ _ => ⟨rfl, rfl⟩⟩ hx
  · rw [h1]; exact this
  · rintro s x a s' ⟨hi, hw⟩ hs
    refine ⟨inv_step hb hfine hi hs, fun q hkq haq => ?_⟩
    rcases step_cases hs with ⟨a', sched', rfl, hal, hss, rfl⟩ | ⟨k', t', rfl, hk', hd, rfl⟩ |
      ⟨k', t', p', rfl, hk', hd, hp', rfl⟩ | ⟨p', rfl, hkp, rfl⟩ | ⟨rfl, rfl⟩
    · exact hw q hkq haq
    · exact hw q hkq haq
    · obtain ⟨_, _, ht'⟩ := TaskList.body_facts hb.topological hi.sched hk'
      have hqp : q ≠ p' := by
        rintro rfl
        rw [pr.inArea hpl t' ht' q hp' hkq] at haq; cases haq
      simp only [contentStep, hk', update_ne _ _ hqp]
      exact hw q hkq haq
    · have hqp : q ≠ p' := by rintro rfl; rw [hkind, hkq] at hkp; cases hkp
      simp only [contentStep, update_ne _ _ hqp]
      exact hw q hkq haq
    · exact hw q hkq haq

end

/-- Histories in which source files are edited only while maike is not running, are among those considered here. Nothing is spoilt then. -/
theorem busyPast_of_past {r : Recipes P V D} {kind area : P → Bool} {pr : Project r kind area} {w : World P V} (h : Past pr w) :
    ∃ sp, BusyPast pr w sp ∧ ∀ p q, ¬ sp p q := by
  induction h with
  | start h1 h2 h3 => exact ⟨_, .start h1 h2 h3, fun _ _ h => h⟩
  | edit _ ha hk ih => obtain ⟨sp, h1, h2⟩ := ih; exact ⟨_, .edit h1 ha hk, fun p q h => h2 p q h.1⟩
  | remove _ ih => obtain ⟨sp, h1, h2⟩ := ih; exact ⟨_, .remove h1, fun p q h => h2 p q h.1⟩
  | mkdir _ hk ih => obtain ⟨sp, h1, h2⟩ := ih; exact ⟨_, .mkdir h1 hk, h2⟩
  | wait _ ih => obtain ⟨sp, h1, h2⟩ := ih; exact ⟨_, .wait h1, h2⟩
  | @build w b desc s w' _ hpl hp ih =>
    obtain ⟨sp, h1, h2⟩ := ih
    obtain ⟨L, hL, _, rfl, _, hsp⟩ := live_of_performs (kind := kind) (area := area) (ch := fun q => w.view kind q ≠ w.view kind q) (sp := sp) (pr.sane hpl) hp
    refine ⟨_, .run h1 (.build hpl hL .done), fun p q h => ?_⟩
    rcases hsp p q h with ⟨_, h⟩ | ⟨_, h⟩
    · exact h rfl
    · exact h2 p q h

/-- Only files that have been edited during a run can have spoilt something in it. -/
theorem spoilt_changed {r : Recipes P V D} {b : Build P} {desc : Nat → D} {kind area : P → Bool} {L L' : Live P V} (h : LExec r b desc kind area L L') :
    (∀ q, L.changed q → L'.changed q) ∧ ∀ p q, L'.spoilt p q → L.spoilt p q ∨ L'.changed q := by
  induction h with
  | refl => exact ⟨fun _ h => h, fun _ _ h => .inl h⟩
  | tail _ hs ih =>
    obtain ⟨h1, h2⟩ := ih
    cases hs with
    | other | check | mkdir => exact ⟨h1, h2⟩
    | write => exact ⟨h1, fun p q h => h.elim (fun h => .inr h.2) fun h => h2 p q h.2⟩
    | edit => exact ⟨fun q h => .inr (h1 q h), fun p q h => (h2 p q h.1).imp id .inr⟩
    | remove => exact ⟨h1, fun p q h => h2 p q h.1⟩

/-! ## C110 -/

section

variable {r : Recipes P V D} {kind area : P → Bool} (pr : Project r kind area) {w w' : World P V} {sp : P → P → Prop} {b : Build P} {desc : Nat → D} {s : State P}

/-- **C110, as far as it holds.** Files have been edited at any time, also while maike was running. Then a build that nobody disturbs succeeds. Each of its targets contains what its recipe
computes from the files that are there now if that build has executed the recipe, or if none of its source files is one that had been edited, in an earlier run, between being read by maike and
that target being written, and has not been saved since. Missing: the other targets, see `C110_false`. -/
theorem C110_partial (hpast : BusyPast pr w sp) (hplan : pr.plan (w.view kind) b desc) (hdry : b.dryrun = false) (hrun : Performs r b desc w s w') (hok : s.Succeeded)
    {t : Nat} (ht : t ∈ b.job.tasks) (hsources : ∀ q, r.reads (desc t) q → area q = false → Exists w'.fs q) {p : P} (hp : p ∈ (b.task t).targets) (hkp : kind p = false)
    (hsp : s.Executed t ∨ ∀ q, r.reads (desc t) q → area q = false → ¬ sp p q) : w'.content p = r.make (desc t) w'.content p := by
  have hk := busyPast_busy hpast
  have hb := pr.sane hplan
  have hkind := pr.kinds hplan
  have hfs : Plausible b w.fs w.clock := ⟨by rw [hkind]; exact hk.past, by rw [hkind]; exact hk.kinds⟩
  rcases hsp with hsp | hsp
  · exact C91_executed_partial hb (pr.fine hplan) hdry (fun t ht q hq => by
      obtain ⟨h1, h2⟩ := pr.inputs hplan t ht q hq
      exact ⟨by rw [hkind]; exact h1, h2⟩) hfs hrun hok ht hsp p hp (by rw [hkind]; exact hkp)
  obtain ⟨hi, hsame⟩ := performs_same hk hplan hrun
  obtain ⟨L, hL, hs, hw, hch, hspL⟩ := live_of_performs (kind := kind) (area := area) (ch := fun _ => False) (sp := sp) hb hrun
  have hLi := linv_exec hplan (linv_start hk fun q hkq _ _ => by
    cases hfs : w.fs q with
    | none => exact .inl rfl
    | some st => exact .inr (by simp [World.view, hkq, hfs])) hL
  have hbusy := hLi.busy
  rw [hw] at hbusy
  obtain ⟨as, hx, hfs', _⟩ := hrun
  refine target_of hbusy hplan hsame ?_ ht hsources hp hkp fun q hq haq hspq => ?_
  · rw [hfs']
    exact C13_up_to_date b hb (pr.fine hplan) hdry hfs (execContents_exec hx) hok
  · rcases hspL p q hspq with ⟨_, h⟩ | ⟨_, h⟩
    · exact h
    · exact hsp q hq haq h

/-- **C110.** A file has been edited while maike was running, and no other file has. When it is saved once more after that, the next build that succeeds leaves all targets as they should be. -/
theorem C110_saved_again {q : P} {x : V} (hpast : BusyPast pr w sp) (hsp : ∀ p y, sp p y → y = q) (hq : area q = false) (hkq : kind q = false)
    (hplan : pr.plan ((w.edit q x).view kind) b desc) (hdry : b.dryrun = false) (hrun : Performs r b desc (w.edit q x) s w') (hok : s.Succeeded)
    (hsources : ∀ t ∈ b.job.tasks, ∀ q, r.reads (desc t) q → area q = false → Exists w'.fs q) : Consistent r b desc w'.content := fun t ht _ hp hkp =>
  C110_partial pr (.edit hpast hq hkq) hplan hdry hrun hok ht (hsources t ht) hp (by rw [← pr.kinds hplan]; exact hkp) (.inr fun y _ _ h => h.2 (hsp _ y h.1))

/-- **C110.** A forced build that nobody disturbs repairs everything: when it succeeds, all targets contain what their recipes compute, whatever has been edited before, and when. -/
theorem C110_forced (hpast : BusyPast pr w sp) (hplan : pr.plan (w.view kind) b desc) (hdry : b.dryrun = false) (hforce : b.force = true) (hrun : Performs r b desc w s w')
    (hok : s.Succeeded) : Consistent r b desc w'.content := by
  have hk := busyPast_busy hpast
  have hkind := pr.kinds hplan
  exact C91_forced_partial (pr.sane hplan) (pr.fine hplan) hdry hforce (fun t ht q hq => by
      obtain ⟨h1, h2⟩ := pr.inputs hplan t ht q hq
      exact ⟨by rw [hkind]; exact h1, h2⟩) ⟨by rw [hkind]; exact hk.past, by rw [hkind]; exact hk.kinds⟩ hrun hok

end

end Maike.Build
