import Verif.Build.FleetIdle

/-!
# Runs with different targets at the same time (C117)

Runs of maike at the same time whose targets are different files, such as runs with different target directories. See `Fleet.lean` for the model. Here recipes of other runs may write their targets piece
by piece.
-/

namespace Maike.Build

open Maike.Db (Dep isExternal)

variable {P V D : Type} [DecidableEq P]

/-! ## Specification -/

/-- The files that matter for a build: source files, targets and declared dependencies of its tasks, and what their recipes read. -/
def Watches (r : Recipes P V D) (b : Build P) (desc : Nat → D) (p : P) : Prop :=
  ∃ t ∈ b.job.tasks, p = (b.task t).src ∨ p ∈ (b.task t).targets ∨ (∃ d ∈ (b.task t).deps, d.name = p ∧ isExternal d.origin = false) ∨ r.reads (desc t) p

/-- The other runs do not make anything that matters for run `i`. They may change directories that matter, if these exist already. Run `i` itself writes targets in one piece: nobody but itself can see them. -/
structure Separate (r : Recipes P V D) (b : Nat → Build P) (desc : Nat → Nat → D) (w : World P V) (i : Nat) (as : List (FAct P V)) : Prop where
  targets : ∀ j, j ≠ i → ∀ t ∈ (b j).job.tasks, ∀ p ∈ ((b j).task t).targets, ¬ Watches r (b i) (desc i) p
  dirs : ∀ j p, j ≠ i → .act j (.touchDir p) ∈ as → Watches r (b i) (desc i) p → Exists w.fs p
  own : ∀ k p v, FAct.tear i k p v ∉ as

/-- Who does it. -/
def FAct.run : FAct P V → Nat
  | .act i _ => i
  | .read i _ _ => i
  | .tear i _ _ _ => i

/-- Run `i` is alone, and has arrived at `G`. -/
def ByItself (r : Recipes P V D) (b : Build P) (desc : Nat → D) (w : World P V) (i : Nat) (G : Fleet P V) : Prop :=
  ∃ as, (∀ a ∈ as, FAct.whole a = true ∧ FAct.run a = i) ∧ Fleet.exec r (fun _ => b) (fun _ => desc) as (.start (fun _ => b) w) = some G

/-! ## Proof -/

/-- Two file systems that agree on what matters, apart from the time stamps of directories. -/
structure SameWhere (kind : P → Bool) (S : P → Prop) (fs fs' : FileSys P) : Prop where
  files : ∀ p, S p → kind p = false → fs p = fs' p
  dirs : ∀ p, S p → (Exists fs p ↔ Exists fs' p)

omit [DecidableEq P] in
theorem isDir_agree {kind : P → Bool} {S : P → Prop} {fs fs' : FileSys P} (h : SameWhere kind S fs fs') (hk : ∀ p st, fs p = some st → st.dir = kind p)
    (hk' : ∀ p st, fs' p = some st → st.dir = kind p) {p : P} (hp : S p) : isDir fs p = isDir fs' p := by
  have hd := h.dirs p hp
  unfold Exists at hd
  unfold isDir
  cases h1 : fs p with
  | none =>
    cases h2 : fs' p with
    | none => rfl
    | some st' => rw [h1, h2] at hd; simp at hd
  | some st =>
    cases h2 : fs' p with
    | none => rw [h1, h2] at hd; simp at hd
    | some st' => simp only [hk p st h1, hk' p st' h2]

omit [DecidableEq P] in
theorem isOlder_agree {kind : P → Bool} {S : P → Prop} {fs fs' : FileSys P} (h : SameWhere kind S fs fs') {p q : P} (hp : S p) (hq : S q)
    (hpq : Exists fs p → Exists fs q → kind p = false ∧ kind q = false) : isOlder fs p q = isOlder fs' p q := by
  have hd := h.dirs p hp
  have hd' := h.dirs q hq
  unfold Exists at hd hd' hpq
  unfold isOlder
  cases h1 : fs p with
  | none =>
    rw [h1] at hd
    have e1 : fs' p = none := by
      cases h2 : fs' p with
      | none => rfl
      | some st' => rw [h2] at hd; simp at hd
    rw [e1]
    cases h3 : fs q with
    | none =>
      have e2 : fs' q = none := by
        cases h2 : fs' q with
        | none => rfl
        | some st' => rw [h3, h2] at hd'; simp at hd'
      rw [e2]
    | some sq =>
      cases h2 : fs' q with
      | none => rw [h3, h2] at hd'; simp at hd'
      | some st' => rfl
  | some sp =>
    cases h3 : fs q with
    | none =>
      have e2 : fs' q = none := by
        cases h2 : fs' q with
        | none => rfl
        | some st' => rw [h3, h2] at hd'; simp at hd'
      rw [e2]
      cases h2 : fs' p with
      | none => rw [h1, h2] at hd; simp at hd
      | some st' => rfl
    | some sq =>
      obtain ⟨g1, g2⟩ := hpq ⟨sp, h1⟩ ⟨sq, h3⟩
      rw [← h.files p hp g1, ← h.files q hq g2, h1, h3]

theorem allOf_congr {α E : Type} {f g : α → Except E Bool} {l : List α} (h : ∀ x ∈ l, f x = g x) : allOf f l = allOf g l := by
  induction l with
  | nil => rfl
  | cons x l ih =>
    unfold allOf
    rw [h x List.mem_cons_self, ih fun y hy => h y (List.mem_cons_of_mem _ hy)]

section

variable {r : Recipes P V D} {kind : P → Bool} {b : Build P} {desc : Nat → D}

omit [DecidableEq P] in
/-- Whether a task is up to date depends on what matters only. -/
theorem isUpToDate_agree (hb : b.Sane) (hkind : b.kind = kind) {fs fs' : FileSys P} (h : SameWhere kind (Watches r b desc) fs fs') (hk : ∀ p st, fs p = some st → st.dir = kind p)
    (hk' : ∀ p st, fs' p = some st → st.dir = kind p) {t : Nat} (ht : t ∈ b.job.tasks) : isUpToDate fs (b.task t) = isUpToDate fs' (b.task t) := by
  have hsrc : Watches r b desc (b.task t).src := ⟨t, ht, .inl rfl⟩
  refine allOf_congr fun p hp => ?_
  have hwp : Watches r b desc p := ⟨t, ht, .inr (.inl hp)⟩
  unfold targetUpToDate
  rw [← isDir_agree h hk hk' hwp]
  cases hd : isDir fs p with
  | true => rfl
  | false =>
    simp only [Bool.false_eq_true, if_false]
    have hfile : Exists fs p → kind p = false := by
      rintro ⟨st, hst⟩
      have := hk p st hst
      simp only [isDir, hst] at hd
      rw [← this, hd]
    have hfs : Exists fs p → kind (b.task t).src = false := by
      intro he
      cases hks : kind (b.task t).src with
      | false => rfl
      | true =>
        have := hb.dirs t ht (by rw [hkind]; exact hks) p hp
        rw [hkind, hfile he] at this
        cases this
    rw [← isOlder_agree h hsrc hwp fun _ he => ⟨hfs he, hfile he⟩]
    cases isOlder fs (b.task t).src p with
    | error e => rfl
    | ok x =>
      cases x with
      | false => rfl
      | true =>
        refine allOf_congr fun d hdep => ?_
        unfold depIsOlder
        cases hx : isExternal d.origin with
        | true => rfl
        | false =>
          have hwd : Watches r b desc d.name := ⟨t, ht, .inr (.inr (.inl ⟨d, hdep, rfl, hx⟩))⟩
          rw [← isDir_agree h hk hk' hwd]
          cases hdd : isDir fs d.name with
          | true => rfl
          | false =>
            simp only [Bool.false_or, Bool.false_eq_true, if_false]
            refine isOlder_agree h hwd hwp fun hed he => ⟨?_, hfile he⟩
            obtain ⟨st, hst⟩ := hed
            have := hk _ st hst
            simp only [isDir, hst] at hdd
            rw [← this, hdd]

omit [DecidableEq P] in
/-- What is decided depends on what matters only. -/
theorem shouldRun_agree (hb : b.Sane) (hkind : b.kind = kind) {fs fs' : FileSys P} (h : SameWhere kind (Watches r b desc) fs fs') (hk : ∀ p st, fs p = some st → st.dir = kind p)
    (hk' : ∀ p st, fs' p = some st → st.dir = kind p) {t : Nat} (ht : t ∈ b.job.tasks) (force : Bool) : shouldRun fs force (b.task t) = shouldRun fs' force (b.task t) := by
  unfold shouldRun
  rw [isUpToDate_agree hb hkind h hk hk' ht]

end

section

variable {r : Recipes P V D} {kind area : P → Bool} {pr : Project r kind area} {w : World P V} {b : Nat → Build P} {desc : Nat → Nat → D} {i : Nat}

/-- In `G`, there is only run `i`. It has done what it has done in `F`. -/
structure Same (r : Recipes P V D) (kind : P → Bool) (w : World P V) (b : Nat → Build P) (desc : Nat → Nat → D) (i : Nat) (F G : Fleet P V) : Prop where
  sched : (G.part i).sched = (F.part i).sched
  decision : (G.part i).decision = (F.part i).decision
  written : (G.part i).written = (F.part i).written
  clock : G.clock = F.clock
  agree : SameWhere kind (Watches r (b i) (desc i)) F.fs G.fs
  content : ∀ p, Watches r (b i) (desc i) p → F.content p = G.content p
  got : ∀ t q, Watches r (b i) (desc i) q → F.got i t q = G.got i t q
  kinds : ∀ p st, F.fs p = some st → st.dir = kind p
  kinds' : ∀ p st, G.fs p = some st → st.dir = kind p
  there : ∀ p, Exists w.fs p → Exists F.fs p ∧ Exists G.fs p
  reach : TaskList.Reachable (b i).job (F.part i).sched
  idle : ∀ j, j ≠ i → ∀ t, (G.part j).written t = []

omit [DecidableEq P] in
theorem same_start (hk : ∀ p st, w.fs p = some st → st.dir = kind p) : Same r kind w b desc i (.start b w) (.start (fun _ => b i) w) :=
  ⟨rfl, rfl, rfl, rfl, ⟨fun _ _ _ => rfl, fun _ _ => .rfl⟩, fun _ _ => rfl, fun _ _ _ => rfl, hk, hk, fun _ h => ⟨h, h⟩, ⟨[], rfl⟩, fun _ _ _ => rfl⟩

/-- The scheduler of run `i` may do the same. -/
theorem allowed_same (hb : (b i).Sane) {F G : Fleet P V} (h : Same r kind w b desc i F G) (a : TaskList.Act) : allowed (b i) (G.state i) a = allowed (b i) (F.state i) a := by
  unfold allowed
  cases a with
  | work k o =>
    simp only [Fleet.state, h.sched]
    cases hk : (F.part i).sched.running[k]? with
    | none => rfl
    | some x =>
      obtain ⟨t, st⟩ := x
      cases st with
      | body =>
        have ht := (TaskList.body_facts hb.topological h.reach hk).2.2
        simp only [mayEnd, h.decision, h.written]
        cases (F.part i).decision t with
        | none => rfl
        | some dec =>
          cases dec with
          | run =>
            simp only
            split
            · rfl
            · congr 1
              rw [Bool.eq_iff_iff, List.all_eq_true, List.all_eq_true]
              have : ∀ p ∈ ((b i).task t).targets, isDir G.fs p = isDir F.fs p := fun p hp => (isDir_agree h.agree h.kinds h.kinds' ⟨t, ht, .inr (.inl hp)⟩).symm
              constructor <;> intro g p hp
              · rw [← this p hp]; exact g p hp
              · rw [this p hp]; exact g p hp
          | skip => rfl
          | raise => rfl
      | _ => rfl
  | _ => rfl

theorem fleet_one {a : FAct P V} {G G' : Fleet P V} (h : Fleet.step r b desc a G = some G') : Fleet.exec r b desc [a] G = some G' := by
  simp [Fleet.exec, h]

theorem fleet_append {as as' : List (FAct P V)} {G G' G'' : Fleet P V} (h : Fleet.exec r b desc as G = some G') (h' : Fleet.exec r b desc as' G' = some G'') :
    Fleet.exec r b desc (as ++ as') G = some G'' := by
  induction as generalizing G with
  | nil => cases h; exact h'
  | cons a as ih =>
    simp only [Fleet.exec, List.cons_append] at h ⊢
    cases hs : Fleet.step r b desc a G with
    | none => rw [hs] at h; cases h
    | some H => rw [hs] at h; exact ih h

/-- Something happens outside of run `i`. In the other execution, time passes. -/
theorem same_other {F F' G : Fleet P V} (h : Same r kind w b desc i F G) (hp : F'.part i = F.part i) (hg : F'.got i = F.got i)
    (hf : ∀ p, Watches r (b i) (desc i) p → kind p = false → F'.fs p = F.fs p) (hd : ∀ p, Watches r (b i) (desc i) p → (Exists F'.fs p ↔ Exists F.fs p))
    (hc : ∀ p, Watches r (b i) (desc i) p → F'.content p = F.content p) (hk : ∀ p st, F'.fs p = some st → st.dir = kind p) (ht : ∀ p, Exists F.fs p → Exists F'.fs p)
    (hcl : F'.clock = F.clock ∨ F'.clock = F.clock + 1) :
    ∃ as G', (∀ a ∈ as, FAct.whole a = true ∧ FAct.run a = i) ∧ Fleet.exec r (fun _ => b i) (fun _ => desc i) as G = some G' ∧ Same r kind w b desc i F' G' := by
  have hagree : SameWhere kind (Watches r (b i) (desc i)) F'.fs G.fs :=
    ⟨fun p hw hk => (hf p hw hk).trans (h.agree.files p hw hk), fun p hw => (hd p hw).trans (h.agree.dirs p hw)⟩
  rcases hcl with e | e
  · refine ⟨[], G, by simp, rfl, ⟨by rw [hp, h.sched], by rw [hp, h.decision], by rw [hp, h.written], by rw [e, h.clock], hagree, fun p hw => (hc p hw).trans (h.content p hw),
      fun t q hw => by rw [hg]; exact h.got t q hw, hk, h.kinds', fun p he => ⟨ht p (h.there p he).1, (h.there p he).2⟩, hp ▸ h.reach, h.idle⟩⟩
  · refine ⟨[.act i .tick], G.put i { G.state i with clock := G.clock + 1 }, by simp [FAct.whole, FAct.run], fleet_one (by simp only [Fleet.step, step]; rfl), ⟨?_, ?_, ?_, ?_, hagree, fun p hw => (hc p hw).trans (h.content p hw),
      fun t q hw => by rw [hg]; exact h.got t q hw, hk, h.kinds', fun p he => ⟨ht p (h.there p he).1, (h.there p he).2⟩, hp ▸ h.reach, ?_⟩⟩
    · rw [part_put, hp]; exact h.sched
    · rw [part_put, hp]; exact h.decision
    · rw [part_put, hp]; exact h.written
    · show G.clock + 1 = _; rw [e, h.clock]
    · intro j hj t; rw [part_put_ne _ _ hj]; exact h.idle j hj t

omit [DecidableEq P] in
theorem agree_update [DecidableEq P] {S : P → Prop} {fs fs' : FileSys P} (h : SameWhere kind S fs fs') (p : P) (st : Stat) : SameWhere kind S (update fs p (some st)) (update fs' p (some st)) := by
  constructor
  · intro q hq hk
    by_cases e : q = p
    · subst e; simp [update_self]
    · rw [update_ne _ _ e, update_ne _ _ e]; exact h.files q hq hk
  · intro q hq
    by_cases e : q = p
    · subst e; simp [Exists, update_self]
    · unfold Exists; rw [update_ne _ _ e, update_ne _ _ e]; exact h.dirs q hq

theorem kinds_update {fs : FileSys P} (h : ∀ p st, fs p = some st → st.dir = kind p) {p : P} {n : Nat} {x : Bool} (hx : x = kind p) :
    ∀ q st, update fs p (some ⟨n, x⟩) q = some st → st.dir = kind q := by
  intro q st
  by_cases e : q = p
  · subst e; rw [update_self]; rintro ⟨⟩; exact hx
  · rw [update_ne _ _ e]; exact h q st

theorem there_update {fs : FileSys P} {p q : P} {st : Stat} (h : Exists fs q) : Exists (update fs p (some st)) q := by
  by_cases e : q = p
  · subst e; exact ⟨st, update_self _ _ _⟩
  · unfold Exists; rw [update_ne _ _ e]; exact h

omit [DecidableEq P] in
/-- The schedulers go on. -/
theorem fleet_reach [DecidableEq P] {a : FAct P V} {F F' : Fleet P V} (hs : Fleet.step r b desc a F = some F') (hr : ∀ j, TaskList.Reachable (b j).job (F.part j).sched) :
    ∀ j, TaskList.Reachable (b j).job (F'.part j).sched := by
  have hput : ∀ {j a s}, Build.step (b j) a (F.state j) = some s → ∀ l, TaskList.Reachable (b l).job ((F.put j s).part l).sched := by
    intro j a s hst l
    by_cases e : l = j
    · subst e
      rw [part_put]
      rcases step_cases hst with ⟨_, _, _, _, hss, rfl⟩ | ⟨_, _, _, _, _, rfl⟩ | ⟨_, _, _, _, _, _, _, rfl⟩ | ⟨_, _, _, rfl⟩ | ⟨_, rfl⟩
      · exact (hr l).step hss
      all_goals exact hr l
    · rw [part_put_ne _ _ e]; exact hr l
  cases a with
  | tear j k p v =>
    simp only [Fleet.step] at hs
    split at hs
    · cases hs
    · rename_i s hst
      obtain rfl := Option.some.inj hs
      exact hput hst
  | read j k q =>
    simp only [Fleet.step] at hs
    split at hs
    · obtain rfl := Option.some.inj hs
      exact hr
    · cases hs
  | act j a =>
    simp only [Fleet.step] at hs
    split at hs
    · cases hs
    · rename_i s hst
      split at hs
      · split at hs
        · obtain rfl := Option.some.inj hs
          exact hput hst
        · cases hs
      · split at hs
        · obtain rfl := Option.some.inj hs
          exact hput hst
        · cases hs
      · obtain rfl := Option.some.inj hs
        exact hput hst

/-- One action of anybody. -/
theorem same_step (hb : (b i).Sane) (htop : ∀ j, (b j).job.Topological) (hkinds : ∀ j, (b j).kind = kind) {as : List (FAct P V)} (hsep : Separate r b desc w i as) {a : FAct P V} (ha : a ∈ as) {F F' G : Fleet P V}
    (hs : Fleet.step r b desc a F = some F') (hr : ∀ j, TaskList.Reachable (b j).job (F.part j).sched) (h : Same r kind w b desc i F G) :
    ∃ as' G', (∀ a ∈ as', FAct.whole a = true ∧ FAct.run a = i) ∧ Fleet.exec r (fun _ => b i) (fun _ => desc i) as' G = some G' ∧ Same r kind w b desc i F' G' := by
  cases a with
  | tear j k p v =>
    have hj : j ≠ i := by rintro rfl; exact hsep.own k p v ha
    simp only [Fleet.step] at hs
    split at hs
    · cases hs
    · rename_i s hst
      rcases step_cases hst with ⟨_, _, e, _⟩ | ⟨_, _, e, _⟩ | ⟨k', t, p', e, hk, hd, hp, rfl⟩ | ⟨_, e, _⟩ | ⟨e, _⟩ <;> cases e
      have hne : ∀ q, Watches r (b i) (desc i) q → q ≠ p := by rintro q hq rfl; exact hsep.targets j hj t (TaskList.body_facts (htop j) (hr j) hk).2.2 _ hp hq
      obtain rfl := Option.some.inj hs
      refine same_other h (part_put_ne _ _ (Ne.symm hj)) rfl (fun q hq _ => update_ne _ _ (hne q hq)) (fun q hq => ?_) (fun q hq => update_ne _ _ (hne q hq))
        (kinds_update h.kinds (by rw [hkinds])) (fun q => there_update) ?_
      · show Exists (update F.fs p _) q ↔ _
        unfold Exists; rw [update_ne _ _ (hne q hq)]
      · show (if (b j).fine = true then F.clock + 1 else F.clock) = _ ∨ (if (b j).fine = true then F.clock + 1 else F.clock) = _
        split
        · exact .inr rfl
        · exact .inl rfl
  | read j k q =>
    simp only [Fleet.step] at hs
    split at hs
    · rename_i t hk
      obtain rfl := Option.some.inj hs
      by_cases hj : j = i
      · subst hj
        refine ⟨[.read j k q], G.reads j t (update (G.got j t) q (G.content q)), by simp [FAct.whole, FAct.run], fleet_one (by simp only [Fleet.step, h.sched, hk]), ⟨h.sched, h.decision, h.written, h.clock, h.agree, h.content, ?_, h.kinds, h.kinds', h.there, h.reach, h.idle⟩⟩
        intro u q' hw
        simp only [Fleet.reads, update_self]
        by_cases e : u = t
        · subst e
          rw [update_self, update_self]
          by_cases e' : q' = q
          · subst e'; rw [update_self, update_self]; exact h.content _ hw
          · rw [update_ne _ _ e', update_ne _ _ e']; exact h.got u q' hw
        · rw [update_ne _ _ e, update_ne _ _ e]; exact h.got u q' hw
      · exact same_other h rfl (update_ne _ _ (Ne.symm hj)) (fun _ _ _ => rfl) (fun _ _ => .rfl) (fun _ _ => rfl) h.kinds (fun _ => id) (.inl rfl)
    · cases hs
  | act j a =>
    simp only [Fleet.step] at hs
    cases hst : Build.step (b j) a (F.state j) with
    | none => rw [hst] at hs; cases hs
    | some s =>
      rw [hst] at hs
      by_cases hj : j = i
      · subst hj
        rcases step_cases hst with ⟨a', sched', rfl, hal, hss, rfl⟩ | ⟨k, t, rfl, hk, hd, rfl⟩ | ⟨k, t, p, rfl, hk, hd, hp, rfl⟩ | ⟨p, rfl, hkp, rfl⟩ | ⟨rfl, rfl⟩
        · obtain rfl := Option.some.inj hs
          have hal' : allowed (b j) (G.state j) a' = true := (allowed_same hb h a').trans hal
          have hss' : TaskList.step (b j).job a' (G.state j).sched = some sched' := by show TaskList.step _ _ (G.part j).sched = _; rw [h.sched]; exact hss
          refine ⟨[.act j (.sched a')], G.put j { G.state j with sched := sched' }, by simp [FAct.whole, FAct.run], fleet_one (by simp only [Fleet.step, step, hal', hss', if_true]), ⟨?_, ?_, ?_, h.clock, h.agree, h.content, h.got, h.kinds, h.kinds', h.there, ?_, ?_⟩⟩
          · rw [part_put, part_put]
          · rw [part_put, part_put]; exact h.decision
          · rw [part_put, part_put]; exact h.written
          · rw [part_put]; exact h.reach.step hss
          · intro l hl t; rw [part_put_ne _ _ hl]; exact h.idle l hl t
        · have hk' : (F.part j).sched.running[k]? = some (t, TaskList.Stage.body) := hk
          have hkG : (G.part j).sched.running[k]? = some (t, TaskList.Stage.body) := by rw [h.sched]; exact hk
          have hdG : (G.part j).decision t = none := by rw [h.decision]; exact hd
          have ht := (TaskList.body_facts hb.topological h.reach hk').2.2
          simp only [hk'] at hs
          obtain rfl := Option.some.inj hs
          refine ⟨[.act j (.check k)], (G.put j { G.state j with decision := update (G.part j).decision t (some (decisionOf (shouldRun G.fs (b j).force ((b j).task t)))) }).reads j t G.content, by simp [FAct.whole, FAct.run], fleet_one (by simp only [Fleet.step, step, Fleet.state, hkG, hdG, if_true]), ⟨?_, ?_, ?_, h.clock, h.agree, h.content, ?_, h.kinds, h.kinds', h.there, ?_, ?_⟩⟩
          · show ((Fleet.put _ _ _).part j).sched = ((Fleet.put _ _ _).part j).sched
            rw [part_put, part_put]; exact h.sched
          · show ((Fleet.put _ _ _).part j).decision = ((Fleet.put _ _ _).part j).decision
            rw [part_put, part_put]
            show update (G.part j).decision t _ = update (F.part j).decision t _
            rw [h.decision]
            show update _ t (some (decisionOf (shouldRun G.fs (b j).force ((b j).task t)))) = update _ t (some (decisionOf (shouldRun F.fs (b j).force ((b j).task t))))
            rw [shouldRun_agree hb (hkinds j) h.agree h.kinds h.kinds' ht]
          · show ((Fleet.put _ _ _).part j).written = ((Fleet.put _ _ _).part j).written
            rw [part_put, part_put]; exact h.written
          · intro u q hw
            simp only [Fleet.reads, update_self]
            by_cases e : u = t
            · subst e; rw [update_self, update_self]; exact h.content q hw
            · rw [update_ne _ _ e, update_ne _ _ e]; exact h.got u q hw
          · show TaskList.Reachable _ ((Fleet.put _ _ _).part j).sched
            rw [part_put]; exact h.reach
          · intro l hl u
            show ((Fleet.put _ _ _).part l).written u = []
            rw [part_put_ne _ _ hl]; exact h.idle l hl u
        · have hk' : (F.part j).sched.running[k]? = some (t, TaskList.Stage.body) := hk
          have hkG : (G.part j).sched.running[k]? = some (t, TaskList.Stage.body) := by rw [h.sched]; exact hk
          have hdG : (G.part j).decision t = some .run := by rw [h.decision]; exact hd
          have ht := (TaskList.body_facts hb.topological h.reach hk').2.2
          simp only [hk'] at hs
          obtain rfl := Option.some.inj hs
          have hdry : (b j).dryrun = false := by
            simp only [step] at hst
            split at hst
            · split at hst
              · rename_i g; exact g.1
              · cases hst
            · cases hst
          let s' : State P := { G.state j with fs := update G.fs p (some ⟨G.clock, (b j).kind p⟩), clock := if (b j).fine then G.clock + 1 else G.clock, written := update (G.part j).written t (p :: (G.part j).written t) }
          refine ⟨[.act j (.write k p)], { G.put j s' with content := update G.content p (r.make (desc j t) (G.got j t) p) }, by simp [FAct.whole, FAct.run], fleet_one (by simp only [Fleet.step, step, Fleet.state, hkG, hdG, hdry, hp, and_self, if_true]; rfl), ⟨?_, ?_, ?_, ?_, ?_, ?_, h.got, ?_, ?_, ?_, ?_, ?_⟩⟩
          · show ((Fleet.put _ _ _).part j).sched = ((Fleet.put _ _ _).part j).sched
            rw [part_put, part_put]; exact h.sched
          · show ((Fleet.put _ _ _).part j).decision = ((Fleet.put _ _ _).part j).decision
            rw [part_put, part_put]; exact h.decision
          · show ((Fleet.put _ _ _).part j).written = ((Fleet.put _ _ _).part j).written
            rw [part_put, part_put]
            show update (G.part j).written t (p :: (G.part j).written t) = update (F.part j).written t (p :: (F.part j).written t)
            rw [h.written]
          · show (if (b j).fine = true then G.clock + 1 else G.clock) = (if (b j).fine = true then F.clock + 1 else F.clock)
            rw [h.clock]
          · show SameWhere _ _ (update F.fs p (some ⟨F.clock, (b j).kind p⟩)) (update G.fs p (some ⟨G.clock, (b j).kind p⟩))
            rw [h.clock]; exact agree_update h.agree _ _
          · intro q hq
            show update F.content p _ q = update G.content p _ q
            by_cases e : q = p
            · subst e
              rw [update_self, update_self]
              exact r.pure _ _ _ _ fun q' hq' => h.got t q' ⟨t, ht, .inr (.inr (.inr hq'))⟩
            · rw [update_ne _ _ e, update_ne _ _ e]; exact h.content q hq
          · exact kinds_update h.kinds (by rw [hkinds])
          · exact kinds_update h.kinds' (by rw [hkinds])
          · exact fun q he => ⟨there_update (h.there q he).1, there_update (h.there q he).2⟩
          · show TaskList.Reachable _ ((Fleet.put _ _ _).part j).sched
            rw [part_put]; exact h.reach
          · intro l hl u
            show ((Fleet.put _ _ _).part l).written u = []
            rw [part_put_ne _ _ hl]; exact h.idle l hl u
        · obtain rfl := Option.some.inj hs
          have hdry : (b j).dryrun = false := by
            simp only [step] at hst
            split at hst
            · rename_i g; exact g.1
            · cases hst
          refine ⟨[.act j (.touchDir p)], G.put j { G.state j with fs := update G.fs p (some ⟨G.clock, true⟩) }, by simp [FAct.whole, FAct.run], fleet_one (by simp only [Fleet.step, step, hdry, hkp, and_self, if_true]; rfl), ⟨?_, ?_, ?_, h.clock, ?_, h.content, h.got, ?_, ?_, ?_, ?_, ?_⟩⟩
          · rw [part_put, part_put]; exact h.sched
          · rw [part_put, part_put]; exact h.decision
          · rw [part_put, part_put]; exact h.written
          · show SameWhere _ _ (update F.fs p (some ⟨F.clock, true⟩)) (update G.fs p (some ⟨G.clock, true⟩))
            rw [h.clock]; exact agree_update h.agree _ _
          · exact kinds_update h.kinds (by rw [← hkinds j, hkp])
          · exact kinds_update h.kinds' (by rw [← hkinds j, hkp])
          · exact fun q he => ⟨there_update (h.there q he).1, there_update (h.there q he).2⟩
          · rw [part_put]; exact h.reach
          · intro l hl u; rw [part_put_ne _ _ hl]; exact h.idle l hl u
        · obtain rfl := Option.some.inj hs
          refine ⟨[.act j .tick], G.put j { G.state j with clock := G.clock + 1 }, by simp [FAct.whole, FAct.run], fleet_one (by simp only [Fleet.step, step]; rfl), ⟨?_, ?_, ?_, ?_, h.agree, h.content, h.got, h.kinds, h.kinds', h.there, ?_, ?_⟩⟩
          · rw [part_put, part_put]; exact h.sched
          · rw [part_put, part_put]; exact h.decision
          · rw [part_put, part_put]; exact h.written
          · show G.clock + 1 = F.clock + 1
            rw [h.clock]
          · rw [part_put]; exact h.reach
          · intro l hl u; rw [part_put_ne _ _ hl]; exact h.idle l hl u
      · have hj' : i ≠ j := Ne.symm hj
        rcases step_cases hst with ⟨a', sched', rfl, hal, hss, rfl⟩ | ⟨k, t, rfl, hk, hd, rfl⟩ | ⟨k, t, p, rfl, hk, hd, hp, rfl⟩ | ⟨p, rfl, hkp, rfl⟩ | ⟨rfl, rfl⟩
        · obtain rfl := Option.some.inj hs
          exact same_other h (part_put_ne _ _ hj') rfl (fun _ _ _ => rfl) (fun _ _ => .rfl) (fun _ _ => rfl) h.kinds (fun _ => id) (.inl rfl)
        · have hk' : (F.part j).sched.running[k]? = some (t, TaskList.Stage.body) := hk
          simp only [hk'] at hs
          obtain rfl := Option.some.inj hs
          exact same_other h (part_put_ne _ _ hj') (update_ne _ _ hj') (fun _ _ _ => rfl) (fun _ _ => .rfl) (fun _ _ => rfl) h.kinds (fun _ => id) (.inl rfl)
        · have hk' : (F.part j).sched.running[k]? = some (t, TaskList.Stage.body) := hk
          simp only [hk'] at hs
          obtain rfl := Option.some.inj hs
          have hne : ∀ q, Watches r (b i) (desc i) q → q ≠ p := by rintro q hq rfl; exact hsep.targets j hj t (TaskList.body_facts (htop j) (hr j) hk).2.2 _ hp hq
          refine same_other h (part_put_ne _ _ hj') rfl (fun q hq _ => update_ne _ _ (hne q hq)) (fun q hq => ?_) (fun q hq => update_ne _ _ (hne q hq))
            (kinds_update h.kinds (by rw [hkinds])) (fun q => there_update) ?_
          · show Exists (update F.fs p _) q ↔ _
            unfold Exists; rw [update_ne _ _ (hne q hq)]
          · show (if (b j).fine = true then F.clock + 1 else F.clock) = _ ∨ (if (b j).fine = true then F.clock + 1 else F.clock) = _
            split
            · exact .inr rfl
            · exact .inl rfl
        · obtain rfl := Option.some.inj hs
          have hkp' : true = kind p := by rw [← hkinds j, hkp]
          refine same_other h (part_put_ne _ _ hj') rfl (fun q hq hkq => update_ne _ _ ?_) (fun q hq => ?_) (fun _ _ => rfl) (kinds_update h.kinds hkp') (fun q => there_update) (.inl rfl)
          · rintro rfl; rw [hkq] at hkp'; cases hkp'
          · refine ⟨fun he => ?_, there_update⟩
            by_cases e : q = p
            · subst e; exact (h.there _ (hsep.dirs j _ hj ha hq)).1
            · have he : Exists (update F.fs p (some ⟨F.clock, true⟩)) q := he
              unfold Exists at he ⊢
              rwa [update_ne _ _ e] at he
        · obtain rfl := Option.some.inj hs
          exact same_other h (part_put_ne _ _ hj') rfl (fun _ _ _ => rfl) (fun _ _ => .rfl) (fun _ _ => rfl) h.kinds (fun _ => id) (.inr rfl)

/-- Run `i` could have done the same alone. -/
theorem same_exec (hb : (b i).Sane) (htop : ∀ j, (b j).job.Topological) (hkinds : ∀ j, (b j).kind = kind) {as : List (FAct P V)} (hsep : Separate r b desc w i as) {l : List (FAct P V)} (hl : ∀ a ∈ l, a ∈ as) {F F' G : Fleet P V}
    (hx : Fleet.exec r b desc l F = some F') (hr : ∀ j, TaskList.Reachable (b j).job (F.part j).sched) (h : Same r kind w b desc i F G) :
    ∃ as' G', (∀ a ∈ as', FAct.whole a = true ∧ FAct.run a = i) ∧ Fleet.exec r (fun _ => b i) (fun _ => desc i) as' G = some G' ∧ Same r kind w b desc i F' G' := by
  induction l generalizing F G with
  | nil => cases hx; exact ⟨[], G, by simp, rfl, h⟩
  | cons a l ih =>
    simp only [Fleet.exec] at hx
    cases hs : Fleet.step r b desc a F with
    | none => rw [hs] at hx; cases hx
    | some H =>
      rw [hs] at hx
      obtain ⟨as₁, G₁, h1, h2, h3⟩ := same_step hb htop hkinds hsep (hl a List.mem_cons_self) hs hr h
      obtain ⟨as₂, G₂, g1, g2, g3⟩ := ih (fun x hx => hl x (List.mem_cons_of_mem _ hx)) hx (fleet_reach hs hr) h3
      exact ⟨as₁ ++ as₂, G₂, fun x hx => (List.mem_append.mp hx).elim (h1 x) (g1 x), fleet_append h2 g2, g3⟩

/-! ## C117 -/

/-- **C117.** Run `i` does what it could have done alone: tasks are started and end in the same order, the same tasks are executed, and the files that matter become the same, with the same time stamps. It
does not matter what the other runs do, whether they succeed, or whether their targets are complete. -/
theorem C117_alone (hb : (b i).Sane) (htop : ∀ j, (b j).job.Topological) (hkinds : ∀ j, (b j).kind = kind) (hk : ∀ p st, w.fs p = some st → st.dir = kind p) {as : List (FAct P V)} {F : Fleet P V}
    (hsep : Separate r b desc w i as) (hx : Fleet.exec r b desc as (.start b w) = some F) :
    ∃ G, ByItself r (b i) (desc i) w i G ∧ (G.part i).sched = (F.part i).sched ∧ (G.part i).decision = (F.part i).decision ∧ (G.part i).written = (F.part i).written ∧
      ∀ p, Watches r (b i) (desc i) p → F.content p = G.content p ∧ (Exists F.fs p ↔ Exists G.fs p) ∧ (kind p = false → F.fs p = G.fs p) := by
  obtain ⟨as', G, h1, h2, h3⟩ := same_exec hb htop hkinds hsep (fun _ => id) hx (fun _ => ⟨[], rfl⟩) (same_start hk)
  exact ⟨G, ⟨as', h1, h2⟩, h3.sched, h3.decision, h3.written, fun p hp => ⟨h3.content p hp, h3.agree.dirs p hp, h3.agree.files p hp⟩⟩

/-- **C117.** When run `i` succeeds, its targets exist, each is what its recipe makes of the files it reads, and nothing is left to do. Nothing has to be known about the other runs, apart from what they write. -/
theorem C117_succeeds (hpast : SharedPast pr w) (htop : ∀ j, (b j).job.Topological) (hkinds : ∀ j, (b j).kind = kind) {v : P → Option V} (hplan : pr.plan v (b i) (desc i)) (hview : ∀ q, area q = false → v q = w.view kind q)
    (hdry : (b i).dryrun = false) (hsources : ∀ t ∈ (b i).job.tasks, ∀ q, r.reads (desc i t) q → area q = false → Exists w.fs q) {as : List (FAct P V)} {F : Fleet P V}
    (hsep : Separate r b desc w i as) (hx : Fleet.exec r b desc as (.start b w) = some F) (hok : (F.state i).Succeeded) :
    Consistent r (b i) (desc i) F.content ∧ ∀ t ∈ (b i).job.tasks, UpToDate F.fs ((b i).task t) ∧ ∀ p ∈ ((b i).task t).targets, Exists F.fs p := by
  have hb := pr.sane hplan
  obtain ⟨as', G, h1, h2, h3⟩ := same_exec hb htop hkinds hsep (fun _ => id) hx (fun _ => ⟨[], rfl⟩) (same_start (shared_kept hpast).kinds)
  have hcrew : Crew pr w (fun _ => b i) (fun _ => desc i) := ⟨fun _ => ⟨v, hplan, hview⟩, fun _ => hdry, fun _ => hsources⟩
  have htog : Together r (fun _ => b i) (fun _ => desc i) w G := ⟨as', fun a ha => (h1 a ha).1, h2⟩
  have hok' : (G.state i).Succeeded := by
    obtain ⟨n, hn⟩ := hok
    refine ⟨n, ?_⟩
    show (G.part i).sched.pc = _
    rw [h3.sched]
    exact hn
  have hall : ∀ j, G.Wrote j → (G.state j).Succeeded := by
    rintro j ⟨t, ht⟩
    by_cases e : j = i
    · subst e; exact hok'
    · exact absurd (h3.idle j e t) ht
  have hup := C115_up_to_date_partial hpast hcrew (fun _ _ => ⟨rfl, rfl⟩) htog hall hok'
  refine ⟨fun t ht p hp hkp => ?_, fun t ht => ⟨?_, fun p hp => ?_⟩⟩
  · rw [h3.content p ⟨t, ht, .inr (.inl hp)⟩, C115_consistent_partial hpast hcrew htog hok' t ht p hp hkp]
    exact r.pure _ _ _ _ fun q hq => (h3.content q ⟨t, ht, .inr (.inr (.inr hq))⟩).symm
  · rw [← isUpToDate_true, isUpToDate_agree hb (hkinds i) h3.agree h3.kinds h3.kinds' ht]
    exact isUpToDate_true.mpr (hup t ht).1
  · exact (h3.agree.dirs p ⟨t, ht, .inr (.inl hp)⟩).mpr ((hup t ht).2 p hp)

/-- **C117.** A run that is started next, with the same targets, executes nothing but what is executed every time. -/
theorem C117_idle (hpast : SharedPast pr w) (htop : ∀ j, (b j).job.Topological) (hkinds : ∀ j, (b j).kind = kind) {v : P → Option V} (hplan : pr.plan v (b i) (desc i)) (hview : ∀ q, area q = false → v q = w.view kind q)
    (hdry : (b i).dryrun = false) (hsources : ∀ t ∈ (b i).job.tasks, ∀ q, r.reads (desc i t) q → area q = false → Exists w.fs q) {as : List (FAct P V)} {F : Fleet P V}
    (hsep : Separate r b desc w i as) (hx : Fleet.exec r b desc as (.start b w) = some F) (hok : (F.state i).Succeeded) {later : Nat} {as' : List (Act P)} {s : State P}
    (hx' : exec { b i with force := false } as' (init { b i with force := false } F.fs later) = some s) {t : Nat} (ht : t ∈ (b i).job.tasks) (hex : s.Executed t) : AlwaysRebuilt (b i) t := by
  have hb := pr.sane hplan
  obtain ⟨_, _, _, _, h3⟩ := same_exec hb htop hkinds hsep (fun _ => id) hx (fun _ => ⟨[], rfl⟩) (same_start (shared_kept hpast).kinds)
  have hk : ∀ p st, F.fs p = some st → st.dir = (b i).kind p := by rw [hkinds]; exact h3.kinds
  have hn := C86_only_if_necessary { b i with force := false } ⟨hb.topological, hb.owner, hb.waits, hb.closed, hb.dirs⟩ rfl hk hx' ht hex
  exact necessary_always (b := { b i with force := false }) ⟨hb.topological, hb.owner, hb.waits, hb.closed, hb.dirs⟩
    (fun t ht => (upToDate_iff hb hk ht).mp ((C117_succeeds hpast htop hkinds hplan hview hdry hsources hsep hx hok).2 t ht).1) ht hn

end

end Maike.Build
