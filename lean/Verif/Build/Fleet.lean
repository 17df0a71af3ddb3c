import Verif.Build.Content

/-!
# Several runs of maike at the same time (C115)

Nothing prevents maike from being started while it is running already, in the same directory: an editor and a terminal, or two terminals. There is no lock. The runs share the files and the clock; apart from
that each of them has its own scheduler, its own decisions and its own recipes. A recipe reads each of its inputs at some moment after time stamps have been compared, core/db/task.cpp:15-29, and other runs
may write the input in between.
-/

namespace Maike.Build

open Maike.Db (Dep isExternal)

variable {P V D : Type} [DecidableEq P]

/-! ## Model -/

/-- Any number of runs, with the files they have in common. -/
structure Fleet (P V : Type) where
  fs : FileSys P
  clock : Nat
  content : P → V
  /-- the states of the runs; the files and the clock in these are not used, see `Fleet.state` -/
  part : Nat → State P
  /-- `got i t q`: what the recipe of task `t` in run `i` has read from `q` -/
  got : Nat → Nat → P → V

/-- What run `i` sees. -/
def Fleet.state (F : Fleet P V) (i : Nat) : State P := { F.part i with fs := F.fs, clock := F.clock }

/-- Run `i` has arrived at `s`. -/
def Fleet.put (F : Fleet P V) (i : Nat) (s : State P) : Fleet P V := { F with fs := s.fs, clock := s.clock, part := update F.part i s }

/-- All runs are at the beginning of their builds. A run that is started later stays there for a while. -/
def Fleet.start (b : Nat → Build P) (w : World P V) : Fleet P V where
  fs := w.fs
  clock := w.clock
  content := w.content
  part := fun i => init (b i) w.fs w.clock
  got := fun _ _ => w.content

/-- The files. -/
def Fleet.world (F : Fleet P V) : World P V := ⟨F.fs, F.clock, F.content⟩

inductive FAct (P V : Type) where
  /-- an action of one of the builds. Recipes write what they compute from what they have read. -/
  | act (i : Nat) (a : Act P)
  /-- a recipe reads a file -/
  | read (i k : Nat) (q : P)
  /-- a recipe has written the beginning of a target, or has opened it, so that it is empty -/
  | tear (i k : Nat) (p : P) (v : V)

/-- Targets are written in one piece. -/
def FAct.whole : FAct P V → Bool
  | .tear .. => false
  | _ => true

/-- The recipe of task `t` in run `i` has read what is in `q`. -/
def Fleet.reads (F : Fleet P V) (i t : Nat) (g : P → V) : Fleet P V := { F with got := update F.got i (update (F.got i) t g) }

/-- One action. What has not been read explicitly has been read at the moment time stamps were compared. -/
def Fleet.step (r : Recipes P V D) (b : Nat → Build P) (desc : Nat → Nat → D) : FAct P V → Fleet P V → Option (Fleet P V)
  | .act i a, F =>
    match Build.step (b i) a (F.state i) with
    | none => none
    | some s =>
      match a with
      | .check k =>
        match (F.part i).sched.running[k]? with
        | some (t, _) => some ((F.put i s).reads i t F.content)
        | none => none
      | .write k p =>
        match (F.part i).sched.running[k]? with
        | some (t, _) => some { F.put i s with content := update F.content p (r.make (desc i t) (F.got i t) p) }
        | none => none
      | _ => some (F.put i s)
  | .read i k q, F =>
    match (F.part i).sched.running[k]? with
    | some (t, .body) => some (F.reads i t (update (F.got i t) q (F.content q)))
    | _ => none
  | .tear i k p v, F =>
    match Build.step (b i) (.write k p) (F.state i) with
    | none => none
    | some s => some { F.put i s with content := update F.content p v }

/-- Any number of actions. -/
def Fleet.exec (r : Recipes P V D) (b : Nat → Build P) (desc : Nat → Nat → D) : List (FAct P V) → Fleet P V → Option (Fleet P V)
  | [], F => some F
  | a :: as, F =>
    match Fleet.step r b desc a F with
    | some F' => Fleet.exec r b desc as F'
    | none => none

/-! ## Specification -/

/-- What the runs are supposed to do: each has found out what is to be done from the same source files, and the source files exist. The runs need not build the same targets. -/
structure Crew {r : Recipes P V D} {kind area : P → Bool} (pr : Project r kind area) (w : World P V) (b : Nat → Build P) (desc : Nat → Nat → D) : Prop where
  plan : ∀ i, ∃ v, pr.plan v (b i) (desc i) ∧ ∀ q, area q = false → v q = w.view kind q
  real : ∀ i, (b i).dryrun = false
  sources : ∀ i, ∀ t ∈ (b i).job.tasks, ∀ q, r.reads (desc i t) q → area q = false → Exists w.fs q

/-- The runs have arrived at `F`. Each of them may have succeeded or failed, may have been interrupted, or may still be running. No recipe writes a target piece by piece. -/
def Together (r : Recipes P V D) (b : Nat → Build P) (desc : Nat → Nat → D) (w : World P V) (F : Fleet P V) : Prop :=
  ∃ as, (∀ a ∈ as, FAct.whole a = true) ∧ Fleet.exec r b desc as (.start b w) = some F

/-- What can have happened, see `Past`. There may have been several runs at the same time. -/
inductive SharedPast {r : Recipes P V D} {kind area : P → Bool} (pr : Project r kind area) : World P V → Prop
  | start {w} : (∀ p, area p = true → kind p = false → w.fs p = none) → (∀ p st, kind p = false → w.fs p = some st → st.mtime < w.clock) →
      (∀ p st, w.fs p = some st → st.dir = kind p) → SharedPast pr w
  | edit {w p v} : SharedPast pr w → area p = false → kind p = false → SharedPast pr (w.edit p v)
  | remove {w p} : SharedPast pr w → SharedPast pr (w.remove p)
  | mkdir {w p} : SharedPast pr w → kind p = true → SharedPast pr (w.mkdir p)
  | wait {w} : SharedPast pr w → SharedPast pr w.wait
  | build {w b desc s w'} : SharedPast pr w → pr.plan (w.view kind) b desc → Performs r b desc w s w' → SharedPast pr w'
  | builds {w b desc F} : SharedPast pr w → Crew pr w b desc → Together r b desc w F → SharedPast pr F.world

/-- The value that a file has to have in the end, given the source files. -/
inductive Right (r : Recipes P V D) (kind area : P → Bool) (b : Nat → Build P) (desc : Nat → Nat → D) (content : P → V) : P → V → Prop
  | source {q} : area q = false → Right r kind area b desc content q (content q)
  | target {i t p c} : t ∈ (b i).job.tasks → p ∈ ((b i).task t).targets → kind p = false →
      (∀ q, r.reads (desc i t) q → Right r kind area b desc content q (c q)) → Right r kind area b desc content p (r.make (desc i t) c p)

/-! ## Proof -/

section

variable {r : Recipes P V D} {kind area : P → Bool} {pr : Project r kind area} {w : World P V} {b : Nat → Build P} {desc : Nat → Nat → D}

omit [DecidableEq P] in
theorem right_unique (hc : Crew pr w b desc) {p : P} {v v' : V} (h : Right r kind area b desc w.content p v) (h' : Right r kind area b desc w.content p v') : v = v' := by
  induction h generalizing v' with
  | source ha =>
    cases h' with
    | source => rfl
    | @target i t _ c ht hp hk hr =>
      obtain ⟨v, hv, _⟩ := hc.plan i
      rw [pr.inArea hv t ht _ hp hk] at ha; cases ha
  | @target i t p c ht hp hk hr ih =>
    obtain ⟨v, hv, hsv⟩ := hc.plan i
    cases h' with
    | source ha => rw [pr.inArea hv t ht _ hp hk] at ha; cases ha
    | @target i' t' _ c' ht' hp' _ hr' =>
      obtain ⟨v', hv', hsv'⟩ := hc.plan i'
      have hd : desc i t = desc i' t' := pr.only hv hv' t ht t' ht' p hp hp' hk fun q _ ha => by rw [hsv q ha, hsv' q ha]
      rw [hd]
      exact r.pure _ _ _ _ fun q hq => ih q (by rw [hd]; exact hq) (hr' q hq)

/-- What is true at any moment. -/
structure FInv (pr : Project r kind area) (w : World P V) (b : Nat → Build P) (desc : Nat → Nat → D) (F : Fleet P V) : Prop where
  sched : ∀ i, TaskList.Reachable (b i).job (F.part i).sched
  dstart : ∀ i t, (F.part i).decision t ≠ none → .start t ∈ (F.part i).sched.hist
  fin : ∀ i t, .finish t .success ∈ (F.part i).sched.hist → (F.part i).decision t = some .skip ∨ ∀ p ∈ ((b i).task t).targets, kind p = false → p ∈ (F.part i).written t
  wr : ∀ i t, ∀ p ∈ (F.part i).written t, kind p = false → Right r kind area b desc w.content p (F.content p) ∧ Exists F.fs p
  skip : ∀ i t, (F.part i).decision t = some .skip → ∀ p ∈ ((b i).task t).targets, kind p = false → Right r kind area b desc w.content p (F.content p) ∧ Exists F.fs p
  later : w.clock ≤ F.clock
  kept : Kept pr F.world
  changed : ∀ p, kind p = false → (F.fs p = w.fs p ∧ F.content p = w.content p) ∨
    (area p = true ∧ Right r kind area b desc w.content p (F.content p) ∧ ∃ st, F.fs p = some st ∧ w.clock ≤ st.mtime)
  got : ∀ i t, (F.part i).decision t ≠ none → ∀ q, r.reads (desc i t) q → Right r kind area b desc w.content q (F.got i t q)

omit [DecidableEq P] in
theorem FInv.source {F : Fleet P V} (hi : FInv pr w b desc F) {q : P} (hk : kind q = false) (ha : area q = false) : F.fs q = w.fs q ∧ F.content q = w.content q := by
  rcases hi.changed q hk with h | ⟨h, _⟩
  · exact h
  · rw [ha] at h; cases h

omit [DecidableEq P] in
/-- What a task needs is there, and is as it should be, when the task is started. -/
theorem FInv.inputs (hc : Crew pr w b desc) {F : Fleet P V} (hi : FInv pr w b desc F) {i t : Nat} (hs : .start t ∈ (F.part i).sched.hist) {q : P} (hq : r.reads (desc i t) q) :
    Right r kind area b desc w.content q (F.content q) ∧ Exists F.fs q := by
  obtain ⟨v, hv, hsv⟩ := hc.plan i
  have hb := pr.sane hv
  have ht := TaskList.started_task hb.topological (hi.sched i) hs
  obtain ⟨hkq, hin⟩ := pr.inputs hv t ht q hq
  cases haq : area q with
  | false =>
    obtain ⟨h1, h2⟩ := hi.source hkq haq
    have := hc.sources i t ht q hq haq
    unfold Exists at this ⊢
    rw [h1, h2]
    exact ⟨.source haq, this⟩
  | true =>
    obtain ⟨u, hu, hqu⟩ := pr.closed hv t ht q hq haq
    have hdep := hb.waits t ht q hin (by rw [pr.kinds hv]; exact hkq) u hu hqu
    have hfin := TaskList.dep_done hb.topological (hi.sched i) hs hdep hu
    rcases hi.fin i u hfin with h | h
    · exact hi.skip i u h q hqu hkq
    · exact hi.wr i u q (h q hqu hkq) hkq

/-- The cases of a step. -/
theorem fleet_cases {a : FAct P V} (ha : a.whole = true) {F F' : Fleet P V} (h : Fleet.step r b desc a F = some F') :
    (∃ i a' sched', allowed (b i) (F.state i) a' = true ∧ TaskList.step (b i).job a' (F.part i).sched = some sched' ∧
      F' = F.put i { F.state i with sched := sched' }) ∨
    (∃ i k t : Nat, (F.part i).sched.running[k]? = some (t, TaskList.Stage.body) ∧ (F.part i).decision t = none ∧
      F' = (F.put i { F.state i with decision := update (F.part i).decision t (some (decisionOf (shouldRun F.fs (b i).force ((b i).task t)))) }).reads i t F.content) ∨
    (∃ (i k t : Nat) (p : P), (F.part i).sched.running[k]? = some (t, TaskList.Stage.body) ∧ (F.part i).decision t = some .run ∧ p ∈ ((b i).task t).targets ∧
      F' = { F.put i { F.state i with
          fs := update F.fs p (some ⟨F.clock, (b i).kind p⟩)
          clock := if (b i).fine then F.clock + 1 else F.clock
          written := update (F.part i).written t (p :: (F.part i).written t) } with content := update F.content p (r.make (desc i t) (F.got i t) p) }) ∨
    (∃ i p, (b i).kind p = true ∧ F' = F.put i { F.state i with fs := update F.fs p (some ⟨F.clock, true⟩) }) ∨
    (∃ i, F' = F.put i { F.state i with clock := F.clock + 1 }) ∨
    (∃ (i k t : Nat) (q : P), (F.part i).sched.running[k]? = some (t, TaskList.Stage.body) ∧ F' = F.reads i t (update (F.got i t) q (F.content q))) := by
  cases a with
  | tear => cases ha
  | read i k q =>
    simp only [Fleet.step] at h
    split at h
    · rename_i t hk
      exact .inr (.inr (.inr (.inr (.inr ⟨i, k, t, q, hk, (Option.some.inj h).symm⟩))))
    · cases h
  | act i a =>
    simp only [Fleet.step] at h
    cases hs : Build.step (b i) a (F.state i) with
    | none => rw [hs] at h; cases h
    | some s =>
      rw [hs] at h
      rcases step_cases hs with ⟨a', sched', rfl, hal, hss, rfl⟩ | ⟨k, t, rfl, hk, hd, rfl⟩ | ⟨k, t, p, rfl, hk, hd, hp, rfl⟩ | ⟨p, rfl, hkp, rfl⟩ | ⟨rfl, rfl⟩
      · exact .inl ⟨i, a', sched', hal, hss, (Option.some.inj h).symm⟩
      · have hk' : (F.part i).sched.running[k]? = some (t, TaskList.Stage.body) := hk
        simp only [hk'] at h
        exact .inr (.inl ⟨i, k, t, hk, hd, (Option.some.inj h).symm⟩)
      · have hk' : (F.part i).sched.running[k]? = some (t, TaskList.Stage.body) := hk
        simp only [hk'] at h
        exact .inr (.inr (.inl ⟨i, k, t, p, hk, hd, hp, (Option.some.inj h).symm⟩))
      · exact .inr (.inr (.inr (.inl ⟨i, p, hkp, (Option.some.inj h).symm⟩)))
      · exact .inr (.inr (.inr (.inr (.inl ⟨i, (Option.some.inj h).symm⟩))))

omit [DecidableEq P] in
theorem finv_start (hk : Kept pr w) : FInv pr w b desc (.start b w) where
  sched := fun _ => ⟨[], rfl⟩
  dstart := fun _ _ h => absurd rfl h
  fin := fun _ t h => by simp [Fleet.start, init, TaskList.init] at h
  wr := fun _ _ p hp => by simp [Fleet.start, init] at hp
  skip := fun _ _ h => by simp [Fleet.start, init] at h
  later := Nat.le_refl _
  kept := hk
  changed := fun _ _ => .inl ⟨rfl, rfl⟩
  got := fun _ _ h => absurd rfl h

/-- A decision not to execute a recipe is right, whoever has made the target. -/
theorem skip_right (hc : Crew pr w b desc) (hkw : Kept pr w) {F : Fleet P V} (hi : FInv pr w b desc F) {i t : Nat} (hs : .start t ∈ (F.part i).sched.hist)
    (hup : UpToDate F.fs ((b i).task t)) {p : P} (hp : p ∈ ((b i).task t).targets) (hkp : kind p = false) :
    Right r kind area b desc w.content p (F.content p) ∧ Exists F.fs p := by
  obtain ⟨v, hv, hsv⟩ := hc.plan i
  have hb := pr.sane hv
  have hkind := pr.kinds hv
  have ht := TaskList.started_task hb.topological (hi.sched i) hs
  have hfresh : Fresh (b i) F.fs t p := (upToDate_iff hb (by rw [hkind]; exact hi.kept.kinds) ht).mp hup p hp
  refine ⟨?_, hfresh.1⟩
  rcases hi.changed p hkp with ⟨hfs, hcont⟩ | ⟨_, h, _⟩
  · have hap := pr.inArea hv t ht p hp hkp
    obtain ⟨sp, hsp⟩ := hfresh.1
    rw [hfs] at hsp
    obtain ⟨c, b₀, desc₀, t₀, c₁, h1, h2, h3, h4, h5, h6⟩ := hkw.made p sp hkp hap hsp
    have hold : ∀ q, r.reads (desc i t) q → F.fs q = w.fs q ∧ F.content q = w.content q ∧ ∃ sq, w.fs q = some sq ∧ sq.mtime < sp.mtime := by
      intro q hq
      obtain ⟨hkq, hin⟩ := pr.inputs hv t ht q hq
      obtain ⟨_, sq, hsq⟩ := hi.inputs hc hs hq
      obtain ⟨sp', hsp', hlt⟩ := hfresh.2 (by rw [hkind]; exact hkp) q ⟨by rw [hkind]; exact hkq, hin⟩
      rw [hfs] at hsp'
      obtain rfl := Option.some.inj (hsp.symm.trans hsp')
      have hlt := hlt sq hsq
      rcases hi.changed q hkq with ⟨ha, hb⟩ | ⟨_, _, st, hst, hle⟩
      · exact ⟨ha, hb, sq, by rw [← ha]; exact hsq, hlt⟩
      · have := hkw.past p sp hkp hsp
        obtain rfl := Option.some.inj (hsq.symm.trans hst)
        omega
    have hsrc : ∀ q, r.reads (desc i t) q → area q = false → c q = some (w.content q) ∧ c₁ q = w.content q := by
      intro q hq haq
      obtain ⟨_, _, sq, hsq, hlt⟩ := hold q hq
      rcases h5 q (pr.inputs hv t ht q hq).1 haq with h | ⟨sq', h, hle⟩ | h
      · rw [h] at hsq; cases hsq
      · obtain rfl := Option.some.inj (hsq.symm.trans h); omega
      · exact h
    have hdesc : desc i t = desc₀ t₀ := by
      refine pr.only hv h1 t ht t₀ h2 p hp h3 hkp fun q hq haq => ?_
      have hkq := (pr.inputs hv t ht q hq).1
      obtain ⟨_, _, sq, hsq, _⟩ := hold q hq
      rw [(hsrc q hq haq).1, hsv q haq]
      simp [World.view, hkq, hsq]
    rw [hcont, h4, ← hdesc]
    refine .target ht hp hkp fun q hq => ?_
    have hkq := (pr.inputs hv t ht q hq).1
    have hr := (hi.inputs hc hs hq).1
    obtain ⟨_, hcq, sq, hsq, hlt⟩ := hold q hq
    rw [hcq] at hr
    cases haq : area q with
    | false => rw [(hsrc q hq haq).2]; exact hr
    | true =>
      rcases h6 q hkq haq with h | ⟨sq', h, hle⟩ | h
      · rw [h] at hsq; cases hsq
      · obtain rfl := Option.some.inj (hsq.symm.trans h); omega
      · rw [h]; exact hr
  · exact h

omit [DecidableEq P] in
theorem part_put (F : Fleet P V) (i : Nat) (s : State P) : (F.put i s).part i = s := update_self _ _ _

omit [DecidableEq P] in
theorem part_put_ne (F : Fleet P V) {i j : Nat} (s : State P) (h : j ≠ i) : (F.put i s).part j = F.part j := update_ne _ _ h

omit [DecidableEq P] in
/-- What a recipe has read is what is there now. -/
theorem FInv.make_eq (hc : Crew pr w b desc) {F : Fleet P V} (hi : FInv pr w b desc F) {i t : Nat} (hd : (F.part i).decision t ≠ none) (p : P) :
    r.make (desc i t) (F.got i t) p = r.make (desc i t) F.content p :=
  r.pure _ _ _ _ fun q hq => right_unique hc (hi.got i t hd q hq) (hi.inputs hc (hi.dstart i t hd) hq).1

/-- A scheduler does something. -/
theorem finv_sched (hc : Crew pr w b desc) {F : Fleet P V} (hi : FInv pr w b desc F) {i : Nat} {a' : TaskList.Act} {sched' : TaskList.State}
    (hal : allowed (b i) (F.state i) a' = true) (hs : TaskList.step (b i).job a' (F.part i).sched = some sched') :
    FInv pr w b desc (F.put i { F.state i with sched := sched' }) := by
  obtain ⟨v, hv, _⟩ := hc.plan i
  have hkind := pr.kinds hv
  obtain ⟨e, he⟩ := TaskList.step_hist hs
  refine { sched := ?_, dstart := ?_, fin := ?_, wr := ?_, skip := ?_, later := hi.later, kept := hi.kept, changed := hi.changed, got := ?_ }
  · intro j
    by_cases hj : j = i
    · subst hj; rw [part_put]; exact (hi.sched j).step hs
    · rw [part_put_ne _ _ hj]; exact hi.sched j
  · intro j t
    by_cases hj : j = i
    · subst hj; rw [part_put]
      intro h
      exact he ▸ List.mem_append_left _ (hi.dstart j t h)
    · rw [part_put_ne _ _ hj]; exact hi.dstart j t
  · intro j t
    by_cases hj : j = i
    · subst hj; rw [part_put]
      intro h
      rcases TaskList.step_success hs h with h' | ⟨k, rfl, hk⟩
      · exact hi.fin j t h'
      · have hk' : (F.state j).sched.running[k]? = some (t, TaskList.Stage.body) := hk
        simp only [allowed, hk'] at hal
        unfold mayEnd at hal
        split at hal
        · cases hal
        · rename_i hd
          have hal : ∀ p ∈ ((b j).task t).targets, p ∈ (F.part j).written t ∨ isDir F.fs p = true := by
            simp [hc.real j, Fleet.state] at hal
            exact fun p hp => (hal p hp).imp of_decide_eq_true id
          refine .inr fun p hp hkp => (hal p hp).resolve_right fun h => ?_
          unfold isDir at h
          split at h
          · cases h
          · rename_i st hst
            rw [hi.kept.kinds p st hst, hkp] at h; cases h
        · rename_i hd; exact .inl hd
        · simp at hal
    · rw [part_put_ne _ _ hj]; exact hi.fin j t
  · intro j t
    by_cases hj : j = i
    · subst hj; rw [part_put]; exact hi.wr j t
    · rw [part_put_ne _ _ hj]; exact hi.wr j t
  · intro j t
    by_cases hj : j = i
    · subst hj; rw [part_put]; exact hi.skip j t
    · rw [part_put_ne _ _ hj]; exact hi.skip j t
  · intro j t
    by_cases hj : j = i
    · subst hj; rw [part_put]; exact hi.got j t
    · rw [part_put_ne _ _ hj]; exact hi.got j t

/-- Time stamps are compared. -/
theorem finv_check (hc : Crew pr w b desc) (hkw : Kept pr w) {F : Fleet P V} (hi : FInv pr w b desc F) {i k t : Nat}
    (hk : (F.part i).sched.running[k]? = some (t, .body)) (hd : (F.part i).decision t = none) :
    FInv pr w b desc ((F.put i { F.state i with decision := update (F.part i).decision t (some (decisionOf (shouldRun F.fs (b i).force ((b i).task t)))) }).reads i t F.content) := by
  obtain ⟨v, hv, _⟩ := hc.plan i
  obtain ⟨hst, hnf, ht⟩ := TaskList.body_facts (pr.sane hv).topological (hi.sched i) hk
  have hpart : ∀ (G : Fleet P V) g j, (G.reads i t g).part j = G.part j := fun _ _ _ => rfl
  refine { sched := ?_, dstart := ?_, fin := ?_, wr := ?_, skip := ?_, later := hi.later, kept := hi.kept, changed := hi.changed, got := ?_ }
  · intro j
    rw [hpart]
    by_cases hj : j = i
    · subst hj; rw [part_put]; exact hi.sched j
    · rw [part_put_ne _ _ hj]; exact hi.sched j
  · intro j u
    rw [hpart]
    by_cases hj : j = i
    · subst hj; rw [part_put]
      intro h
      by_cases hu : u = t
      · subst hu; exact hst
      · simp only [update_ne _ _ hu] at h; exact hi.dstart j u h
    · rw [part_put_ne _ _ hj]; exact hi.dstart j u
  · intro j u
    rw [hpart]
    by_cases hj : j = i
    · subst hj; rw [part_put]
      intro h
      by_cases hu : u = t
      · subst hu; exact absurd h (hnf _)
      · simp only [update_ne _ _ hu]; exact hi.fin j u h
    · rw [part_put_ne _ _ hj]; exact hi.fin j u
  · intro j u
    rw [hpart]
    by_cases hj : j = i
    · subst hj; rw [part_put]; exact hi.wr j u
    · rw [part_put_ne _ _ hj]; exact hi.wr j u
  · intro j u
    rw [hpart]
    by_cases hj : j = i
    · subst hj; rw [part_put]
      intro h
      by_cases hu : u = t
      · subst hu
        simp only [update_self, Option.some.injEq] at h
        unfold decisionOf at h; split at h
        · cases h
        · cases h
        · rename_i hrun
          exact fun p hp hkp => skip_right hc hkw hi hst ((C12_skip _ _ _).mp hrun).2.2 hp hkp
      · simp only [update_ne _ _ hu] at h; exact hi.skip j u h
    · rw [part_put_ne _ _ hj]; exact hi.skip j u
  · intro j u
    rw [hpart]
    by_cases hj : j = i
    · subst hj; rw [part_put]
      intro h q hq
      by_cases hu : u = t
      · subst hu
        simp only [Fleet.reads, update_self]
        exact (hi.inputs hc hst hq).1
      · simp only [update_ne _ _ hu] at h
        simp only [Fleet.reads, update_self, update_ne _ _ hu]
        exact hi.got j u h q hq
    · rw [part_put_ne _ _ hj]
      intro h q hq
      simp only [Fleet.reads, update_ne _ _ hj]
      exact hi.got j u h q hq

/-- A recipe reads a file. -/
theorem finv_read (hc : Crew pr w b desc) {F : Fleet P V} (hi : FInv pr w b desc F) {i k t : Nat} {q : P}
    (hk : (F.part i).sched.running[k]? = some (t, .body)) : FInv pr w b desc (F.reads i t (update (F.got i t) q (F.content q))) := by
  obtain ⟨v, hv, _⟩ := hc.plan i
  obtain ⟨hst, _, _⟩ := TaskList.body_facts (pr.sane hv).topological (hi.sched i) hk
  refine { sched := hi.sched, dstart := hi.dstart, fin := hi.fin, wr := hi.wr, skip := hi.skip, later := hi.later, kept := hi.kept, changed := hi.changed, got := ?_ }
  intro j u h x hx
  by_cases hj : j = i
  · subst hj
    by_cases hu : u = t
    · subst hu
      simp only [Fleet.reads, update_self]
      by_cases hxq : x = q
      · subst hxq; rw [update_self]; exact (hi.inputs hc hst hx).1
      · rw [update_ne _ _ hxq]; exact hi.got j u h x hx
    · simp only [Fleet.reads, update_self, update_ne _ _ hu]
      exact hi.got j u h x hx
  · simp only [Fleet.reads, update_ne _ _ hj]
    exact hi.got j u h x hx

/-- A directory is made or touched. -/
theorem finv_touch (hc : Crew pr w b desc) {F : Fleet P V} (hi : FInv pr w b desc F) {i : Nat} {p : P} (hkp : (b i).kind p = true) :
    FInv pr w b desc (F.put i { F.state i with fs := update F.fs p (some ⟨F.clock, true⟩) }) := by
  obtain ⟨v, hv, _⟩ := hc.plan i
  rw [pr.kinds hv] at hkp
  have hne : ∀ q, kind q = false → q ≠ p := by rintro q hq rfl; rw [hkp] at hq; cases hq
  have hpart : ∀ j, (F.put i { F.state i with fs := update F.fs p (some ⟨F.clock, true⟩) }).part j =
      if j = i then { F.state i with fs := update F.fs p (some ⟨F.clock, true⟩) } else F.part j := fun _ => rfl
  refine { sched := ?_, dstart := ?_, fin := ?_, wr := ?_, skip := ?_, later := hi.later, kept := kept_mkdir hi.kept hkp, changed := ?_, got := ?_ }
  · intro j; rw [hpart]; split
    · subst j; exact hi.sched i
    · exact hi.sched j
  · intro j u; rw [hpart]; split
    · subst j; exact hi.dstart i u
    · exact hi.dstart j u
  · intro j u; rw [hpart]; split
    · subst j; exact hi.fin i u
    · exact hi.fin j u
  · intro j u q hq hkq
    have hq : q ∈ (F.part j).written u := by
      rw [hpart] at hq
      split at hq
      · subst j; exact hq
      · exact hq
    exact ⟨(hi.wr j u q hq hkq).1, exists_update (hi.wr j u q hq hkq).2⟩
  · intro j u hu q hq hkq
    have hu : (F.part j).decision u = some .skip := by
      rw [hpart] at hu
      split at hu
      · subst j; exact hu
      · exact hu
    exact ⟨(hi.skip j u hu q hq hkq).1, exists_update (hi.skip j u hu q hq hkq).2⟩
  · intro q hkq
    have : (F.put i { F.state i with fs := update F.fs p (some ⟨F.clock, true⟩) }).fs q = F.fs q := update_ne _ _ (hne q hkq)
    rw [this]
    exact hi.changed q hkq
  · intro j u; rw [hpart]; split
    · subst j; exact hi.got i u
    · exact hi.got j u

omit [DecidableEq P] in
/-- Time passes. -/
theorem finv_tick {F : Fleet P V} (hi : FInv pr w b desc F) (i : Nat) : FInv pr w b desc (F.put i { F.state i with clock := F.clock + 1 }) := by
  have hpart : ∀ j, (F.put i { F.state i with clock := F.clock + 1 }).part j =
      if j = i then { F.state i with clock := F.clock + 1 } else F.part j := fun _ => rfl
  refine { sched := ?_, dstart := ?_, fin := ?_, wr := ?_, skip := ?_, later := Nat.le_succ_of_le hi.later, kept := kept_later hi.kept, changed := hi.changed, got := ?_ }
  · intro j; rw [hpart]; split
    · subst j; exact hi.sched i
    · exact hi.sched j
  · intro j u; rw [hpart]; split
    · subst j; exact hi.dstart i u
    · exact hi.dstart j u
  · intro j u; rw [hpart]; split
    · subst j; exact hi.fin i u
    · exact hi.fin j u
  · intro j u; rw [hpart]; split
    · subst j; exact hi.wr i u
    · exact hi.wr j u
  · intro j u; rw [hpart]; split
    · subst j; exact hi.skip i u
    · exact hi.skip j u
  · intro j u; rw [hpart]; split
    · subst j; exact hi.got i u
    · exact hi.got j u

/-- A recipe writes a target. -/
theorem finv_write (hc : Crew pr w b desc) {F : Fleet P V} (hi : FInv pr w b desc F) {i k t : Nat} {p : P} (hk : (F.part i).sched.running[k]? = some (t, .body))
    (hd : (F.part i).decision t = some .run) (hp : p ∈ ((b i).task t).targets) :
    FInv pr w b desc { F.put i { F.state i with
          fs := update F.fs p (some ⟨F.clock, (b i).kind p⟩)
          clock := if (b i).fine then F.clock + 1 else F.clock
          written := update (F.part i).written t (p :: (F.part i).written t) } with content := update F.content p (r.make (desc i t) (F.got i t) p) } := by
  obtain ⟨v, hv, hsv⟩ := hc.plan i
  have hkind := pr.kinds hv
  have hfine := pr.fine hv
  obtain ⟨hst, _, ht⟩ := TaskList.body_facts (pr.sane hv).topological (hi.sched i) hk
  have hdn : (F.part i).decision t ≠ none := by rw [hd]; simp
  simp only [hkind, hfine, if_true]
  have hright : kind p = false → Right r kind area b desc w.content p (r.make (desc i t) (F.got i t) p) := fun hkp => .target ht hp hkp (hi.got i t hdn)
  have hkeep : ∀ q, kind q = false → Right r kind area b desc w.content q (F.content q) ∧ Exists F.fs q →
      Right r kind area b desc w.content q (update F.content p (r.make (desc i t) (F.got i t) p) q) ∧ Exists (update F.fs p (some ⟨F.clock, kind p⟩)) q := by
    rintro q hkq ⟨h1, h2⟩
    refine ⟨?_, exists_update h2⟩
    by_cases hqp : q = p
    · subst hqp; rw [update_self]; exact hright hkq
    · rw [update_ne _ _ hqp]; exact h1
  refine { sched := ?_, dstart := ?_, fin := ?_, wr := ?_, skip := ?_, later := Nat.le_succ_of_le hi.later, kept := ?_, changed := ?_, got := ?_ }
  · intro j
    by_cases hj : j = i
    · subst hj; simp only [part_put]; exact hi.sched j
    · simp only [part_put_ne _ _ hj]; exact hi.sched j
  · intro j u
    by_cases hj : j = i
    · subst hj; simp only [part_put]; exact hi.dstart j u
    · simp only [part_put_ne _ _ hj]; exact hi.dstart j u
  · intro j u
    by_cases hj : j = i
    · subst hj; simp only [part_put]
      intro h
      refine (hi.fin j u h).imp id fun h q hq hkq => ?_
      by_cases hu : u = t
      · subst hu; rw [update_self]; exact List.mem_cons_of_mem _ (h q hq hkq)
      · rw [update_ne _ _ hu]; exact h q hq hkq
    · simp only [part_put_ne _ _ hj]; exact hi.fin j u
  · intro j u q
    by_cases hj : j = i
    · subst hj; simp only [part_put]
      intro hq hkq
      by_cases hu : u = t
      · subst hu
        simp only [update_self, List.mem_cons] at hq
        rcases hq with rfl | hq
        · exact ⟨by simp only [update_self]; exact hright hkq, _, update_self _ _ _⟩
        · exact hkeep q hkq (hi.wr j u q hq hkq)
      · simp only [update_ne _ _ hu] at hq
        exact hkeep q hkq (hi.wr j u q hq hkq)
    · simp only [part_put_ne _ _ hj]
      exact fun hq hkq => hkeep q hkq (hi.wr j u q hq hkq)
  · intro j u
    by_cases hj : j = i
    · subst hj; simp only [part_put]
      exact fun h q hq hkq => hkeep q hkq (hi.skip j u h q hq hkq)
    · simp only [part_put_ne _ _ hj]
      exact fun h q hq hkq => hkeep q hkq (hi.skip j u h q hq hkq)
  · have hpast := hi.kept.past
    constructor
    · intro q st hkq hst
      have hst : update F.fs p (some ⟨F.clock, kind p⟩) q = some st := hst
      show st.mtime < F.clock + 1
      by_cases hqp : q = p
      · subst hqp
        simp only [update_self, Option.some.injEq] at hst
        subst hst
        exact Nat.lt_succ_self _
      · simp only [update_ne _ _ hqp] at hst
        exact Nat.lt_succ_of_lt (hpast q st hkq hst)
    · intro q st hst
      have hst : update F.fs p (some ⟨F.clock, kind p⟩) q = some st := hst
      by_cases hqp : q = p
      · subst hqp
        simp only [update_self, Option.some.injEq] at hst
        subst hst; rfl
      · simp only [update_ne _ _ hqp] at hst
        exact hi.kept.kinds q st hst
    · intro q sq hkq haq hsq
      replace hsq : update F.fs p (some ⟨F.clock, kind p⟩) q = some sq := hsq
      by_cases hqp : q = p
      · subst hqp
        simp only [update_self, Option.some.injEq] at hsq
        subst hsq
        refine ⟨v, b i, desc i, t, F.content, hv, ht, hp, ?_, fun x hkx hax => ?_, fun x hkx hax => ?_⟩
        · exact (update_self _ _ _).trans (hi.make_eq hc hdn q)
        · have hxq : x ≠ q := by rintro rfl; rw [haq] at hax; cases hax
          simp only [Fleet.world, Fleet.put, update_ne _ _ hxq]
          obtain ⟨h3, h4⟩ := hi.source hkx hax
          cases hfs : F.fs x with
          | none => exact .inl rfl
          | some sx =>
            refine .inr (.inr ⟨?_, trivial⟩)
            rw [hsv x hax]
            simp [World.view, hkx, ← h3, hfs, h4]
        · by_cases hxq : x = q
          · subst hxq
            exact .inr (.inl ⟨_, update_self _ _ _, Nat.le_refl _⟩)
          · exact .inr (.inr (update_ne _ _ hxq).symm)
      · simp only [update_ne _ _ hqp] at hsq
        refine keptAt_of (hi.kept.made q sq hkq haq hsq) (update_ne _ _ hqp) fun x hkx => ?_
        by_cases hxp : x = p
        · subst hxp
          exact .inr (.inl ⟨_, update_self _ _ _, Nat.le_of_lt (hpast q sq hkq hsq)⟩)
        · exact .inr (.inr ⟨update_ne _ _ hxp, update_ne _ _ hxp⟩)
  · intro q hkq
    by_cases hqp : q = p
    · subst hqp
      refine .inr ⟨pr.inArea hv t ht q hp hkq, ?_, _, update_self _ _ _, hi.later⟩
      simp only [update_self]
      exact hright hkq
    · simp only [Fleet.put, update_ne _ _ hqp]
      exact hi.changed q hkq
  · intro j u
    by_cases hj : j = i
    · subst hj; simp only [part_put]; exact hi.got j u
    · simp only [part_put_ne _ _ hj]; exact hi.got j u

theorem finv_step (hc : Crew pr w b desc) (hkw : Kept pr w) {F F' : Fleet P V} (hi : FInv pr w b desc F) {a : FAct P V} (ha : a.whole = true)
    (h : Fleet.step r b desc a F = some F') : FInv pr w b desc F' := by
  rcases fleet_cases ha h with ⟨i, a', sched', hal, hs, rfl⟩ | ⟨i, k, t, hk, hd, rfl⟩ | ⟨i, k, t, p, hk, hd, hp, rfl⟩ | ⟨i, p, hkp, rfl⟩ | ⟨i, rfl⟩ | ⟨i, k, t, q, hk, rfl⟩
  · exact finv_sched hc hi hal hs
  · exact finv_check hc hkw hi hk hd
  · exact finv_write hc hi hk hd hp
  · exact finv_touch hc hi hkp
  · exact finv_tick hi i
  · exact finv_read hc hi hk

theorem together_inv (hc : Crew pr w b desc) (hkw : Kept pr w) {F : Fleet P V} (h : Together r b desc w F) : FInv pr w b desc F := by
  obtain ⟨as, has, hx⟩ := h
  have : ∀ (as : List (FAct P V)) (G : Fleet P V), (∀ a ∈ as, FAct.whole a = true) → FInv pr w b desc G → Fleet.exec r b desc as G = some F → FInv pr w b desc F := by
    intro as
    induction as with
    | nil => intro G _ hi hx; simp only [Fleet.exec, Option.some.injEq] at hx; exact hx ▸ hi
    | cons a as ih =>
      intro G ha hi hx
      simp only [Fleet.exec] at hx
      split at hx
      · rename_i G' hs
        exact ih G' (fun x hx => ha x (List.mem_cons_of_mem _ hx)) (finv_step hc hkw hi (ha a (List.mem_cons_self ..)) hs) hx
      · cases hx
  exact this as _ has (finv_start hkw) hx

theorem shared_kept {w : World P V} (h : SharedPast pr w) : Kept pr w := by
  induction h with
  | start h1 h2 h3 => exact ⟨h2, h3, fun p sp hk ha hs => by rw [h1 p ha hk] at hs; cases hs⟩
  | edit _ ha hk ih => exact kept_edit ih _ ha hk
  | remove _ ih => exact kept_remove ih _
  | mkdir _ hk ih => exact kept_mkdir ih hk
  | wait _ ih => exact kept_later ih
  | build _ hpl hp ih => exact (performs_kept ih hpl hp).2.1
  | builds _ hc ht ih => exact (together_inv hc ih ht).kept

/-! ## C115 -/

/-- **C115.** If targets are written in one piece, then runs do not disturb each other: as soon as one of them has succeeded, all targets it is responsible for exist, and contain what their recipes compute from the
source files, whatever the other runs have done so far and do afterwards. -/
theorem C115_right_partial (hpast : SharedPast pr w) (hc : Crew pr w b desc) {F : Fleet P V} (h : Together r b desc w F) {i : Nat} (hok : (F.state i).Succeeded) :
    ∀ t ∈ (b i).job.tasks, ∀ p ∈ ((b i).task t).targets, kind p = false → Exists F.fs p ∧ Right r kind area b desc w.content p (F.content p) := by
  have hi := together_inv hc (shared_kept hpast) h
  obtain ⟨v, hv, _⟩ := hc.plan i
  obtain ⟨n, hn⟩ := hok
  intro t ht p hp hkp
  have hfin := ((TaskList.C20_returns_complete (pr.sane hv).topological (hi.sched i) hn).2 t ht).2
  rcases hi.fin i t hfin with h | h
  · exact (hi.skip i t h p hp hkp).symm
  · exact (hi.wr i t p (h p hp hkp) hkp).symm

/-- **C115.** The same in terms of `Consistent`, as in C85. -/
theorem C115_consistent_partial (hpast : SharedPast pr w) (hc : Crew pr w b desc) {F : Fleet P V} (h : Together r b desc w F) {i : Nat} (hok : (F.state i).Succeeded) :
    Consistent r (b i) (desc i) F.content := by
  have hi := together_inv hc (shared_kept hpast) h
  obtain ⟨v, hv, _⟩ := hc.plan i
  have hkind := pr.kinds hv
  intro t ht p hp hkp
  rw [hkind] at hkp
  refine right_unique hc (C115_right_partial hpast hc h hok t ht p hp hkp).2 (.target ht hp hkp fun q hq => ?_)
  obtain ⟨n, hn⟩ := hok
  have hfin := ((TaskList.C20_returns_complete (pr.sane hv).topological (hi.sched i) hn).2 t ht).2
  obtain ⟨hkq, _⟩ := pr.inputs hv t ht q hq
  cases haq : area q with
  | false => rw [(hi.source hkq haq).2]; exact .source haq
  | true =>
    obtain ⟨u, hu, hqu⟩ := pr.closed hv t ht q hq haq
    exact (C115_right_partial hpast hc h ⟨n, hn⟩ u hu q hqu hkq).2

/-- **C115.** Runs at the same time do not change source files. -/
theorem C115_sources_partial (hpast : SharedPast pr w) (hc : Crew pr w b desc) {F : Fleet P V} (h : Together r b desc w F) :
    ∀ q, kind q = false → area q = false → F.fs q = w.fs q ∧ F.content q = w.content q :=
  fun _ hk ha => (together_inv hc (shared_kept hpast) h).source hk ha

/-- **C115.** Runs at the same time do no lasting harm either: when a run succeeds that is alone, then everything is as it should be, whatever has happened before, including runs at the same time that have failed or
have been interrupted. -/
theorem C115_afterwards_partial {w' : World P V} {b : Build P} {desc : Nat → D} {s : State P} (hpast : SharedPast pr w) (hplan : pr.plan (w.view kind) b desc) (hdry : b.dryrun = false)
    (hrun : Performs r b desc w s w') (hok : s.Succeeded) (hsources : ∀ t ∈ b.job.tasks, ∀ q, r.reads (desc t) q → area q = false → Exists w'.fs q) :
    Consistent r b desc w'.content := by
  have hk := shared_kept hpast
  obtain ⟨_, hk', hsame⟩ := performs_kept hk hplan hrun
  obtain ⟨as, hx, hfs, _⟩ := hrun
  refine consistent_of pr hk' hplan hsame ?_ hsources
  rw [hfs]
  exact C13_up_to_date b (pr.sane hplan) (pr.fine hplan) hdry (plausible hk (pr.kinds hplan)) (execContents_exec hx) hok

/-- **C115.** Two runs that have succeeded, at the same time or not, agree on what they have in common. -/
theorem C115_agree_partial {w₁ w₂ : World P V} {b₁ b₂ : Nat → Build P} {desc₁ desc₂ : Nat → Nat → D} {F₁ F₂ : Fleet P V} {i₁ i₂ : Nat}
    (hpast₁ : SharedPast pr w₁) (hc₁ : Crew pr w₁ b₁ desc₁) (h₁ : Together r b₁ desc₁ w₁ F₁) (hok₁ : (F₁.state i₁).Succeeded)
    (hpast₂ : SharedPast pr w₂) (hc₂ : Crew pr w₂ b₂ desc₂) (h₂ : Together r b₂ desc₂ w₂ F₂) (hok₂ : (F₂.state i₂).Succeeded)
    (hsame : ∀ q, area q = false → w₁.view kind q = w₂.view kind q) {t₁ t₂ : Nat} {p : P} (ht₁ : t₁ ∈ (b₁ i₁).job.tasks) (ht₂ : t₂ ∈ (b₂ i₂).job.tasks)
    (hp₁ : p ∈ ((b₁ i₁).task t₁).targets) (hp₂ : p ∈ ((b₂ i₂).task t₂).targets) (hkp : kind p = false) : F₁.content p = F₂.content p := by
  obtain ⟨v₁, hv₁, hs₁⟩ := hc₁.plan i₁
  obtain ⟨v₂, hv₂, hs₂⟩ := hc₂.plan i₂
  refine consistent_unique pr hv₁ hv₂ (C115_consistent_partial hpast₁ hc₁ h₁ hok₁) (C115_consistent_partial hpast₂ hc₂ h₂ hok₂)
    (fun t ht q hq haq => ⟨by rw [hs₁ q haq, hs₂ q haq, hsame q haq], ?_⟩) ht₁ ht₂ hp₁ hp₂ hkp
  have hkq := (pr.inputs hv₁ t ht q hq).1
  rw [(C115_sources_partial hpast₁ hc₁ h₁ q hkq haq).2, (C115_sources_partial hpast₂ hc₂ h₂ q hkq haq).2]
  have hv := hsame q haq
  obtain ⟨sq, hsq⟩ := hc₁.sources i₁ t ht q hq haq
  simp only [World.view, hkq, if_true, hsq, Option.map_some] at hv
  cases hfs : w₂.fs q with
  | none => rw [hfs] at hv; cases hv
  | some _ => rw [hfs] at hv; exact Option.some.inj hv

end

end Maike.Build
