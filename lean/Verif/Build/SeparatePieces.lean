import Verif.Build.Separate

/-!
# Runs with different targets at the same time, with recipes that write piece by piece (C117)

In `Separate.lean`, only the other runs write their targets piece by piece. Here all of them do. A recipe that succeeds has completed its targets.
-/

namespace Maike.Build

variable {P V D : Type} [DecidableEq P]

/-! ## Specification -/

/-- The targets that run `i` has begun to write, after another action. -/
def begun (i : Nat) (a : FAct P V) (l : List P) : List P :=
  match a with
  | .tear j _ p _ => if j = i then p :: l else l
  | .act j (.write _ p) => if j = i then l.filter fun q => decide (q ≠ p) else l
  | _ => l

/-- When a recipe of run `i` ends with success, then none of its targets is incomplete; `l` are those that are incomplete at the beginning. -/
def Completes (r : Recipes P V D) (b : Nat → Build P) (desc : Nat → Nat → D) (i : Nat) : List P → List (FAct P V) → Fleet P V → Prop
  | _, [], _ => True
  | l, a :: as, F =>
    (∀ k t, a = .act i (.sched (.work k .success)) → (F.part i).sched.running[k]? = some (t, .body) → ∀ p ∈ ((b i).task t).targets, p ∉ l) ∧
      ∀ F', Fleet.step r b desc a F = some F' → Completes r b desc i (begun i a l) as F'

/-! ## Proof -/

/-- Run `i` writes its targets in one piece. -/
def FAct.unpiece (i : Nat) : FAct P V → FAct P V
  | .tear j k p v => if j = i then .act j (.write k p) else .tear j k p v
  | a => a

section

variable {r : Recipes P V D} {kind area : P → Bool} {pr : Project r kind area} {w : World P V} {b : Nat → Build P} {desc : Nat → Nat → D} {i : Nat}

/-- In `G`, run `i` writes its targets in one piece. Otherwise the same has happened. -/
structure Blur (r : Recipes P V D) (kind : P → Bool) (b : Nat → Build P) (desc : Nat → Nat → D) (i : Nat) (l : List P) (F G : Fleet P V) : Prop where
  fs : G.fs = F.fs
  clock : G.clock = F.clock
  part : G.part = F.part
  content : ∀ p, Watches r (b i) (desc i) p → kind p = false → p ∉ l → F.content p = G.content p
  got : ∀ t q, r.reads (desc i t) q → F.got i t q = G.got i t q
  open_ : ∀ p ∈ l, ∃ t ∈ (b i).job.tasks, p ∈ ((b i).task t).targets ∧ .finish t .success ∉ (F.part i).sched.hist

omit [DecidableEq P] in
theorem Blur.state {l : List P} {F G : Fleet P V} (h : Blur r kind b desc i l F G) (j : Nat) : G.state j = F.state j := by
  simp only [Fleet.state, h.fs, h.clock, h.part]

omit [DecidableEq P] in
/-- What a recipe reads has been completed. -/
theorem input_complete (hb : (b i).Sane) (hkind : (b i).kind = kind)
    (hin : ∀ t ∈ (b i).job.tasks, ∀ q, r.reads (desc i t) q → kind q = false ∧ (q = ((b i).task t).src ∨ ∃ d ∈ ((b i).task t).deps, d.name = q ∧ Db.isExternal d.origin = false))
    {l : List P} {F G : Fleet P V} (hr : TaskList.Reachable (b i).job (F.part i).sched) (h : Blur r kind b desc i l F G) {k t : Nat}
    (hk : (F.part i).sched.running[k]? = some (t, TaskList.Stage.body)) {q : P} (hq : r.reads (desc i t) q) : F.content q = G.content q := by
  obtain ⟨hs, _, ht⟩ := TaskList.body_facts hb.topological hr hk
  obtain ⟨hkq, hinq⟩ := hin t ht q hq
  refine h.content q ⟨t, ht, .inr (.inr (.inr hq))⟩ hkq fun hl => ?_
  obtain ⟨u, hu, hqu, hf⟩ := h.open_ q hl
  exact hf (TaskList.dep_done hb.topological hr hs (hb.waits t ht q hinq (by rw [hkind]; exact hkq) u hu hqu) hu)

/-- Another action. -/
theorem blur_step (hb : (b i).Sane) (hkind : (b i).kind = kind) (htop : ∀ j, (b j).job.Topological)
    (hin : ∀ t ∈ (b i).job.tasks, ∀ q, r.reads (desc i t) q → kind q = false ∧ (q = ((b i).task t).src ∨ ∃ d ∈ ((b i).task t).deps, d.name = q ∧ Db.isExternal d.origin = false))
    (htargets : ∀ j, j ≠ i → ∀ t ∈ (b j).job.tasks, ∀ p ∈ ((b j).task t).targets, ¬ Watches r (b i) (desc i) p) {l : List P} {F F' G : Fleet P V} {a : FAct P V}
    (hr : ∀ j, TaskList.Reachable (b j).job (F.part j).sched) (hs : Fleet.step r b desc a F = some F')
    (hend : ∀ k t, a = .act i (.sched (.work k .success)) → (F.part i).sched.running[k]? = some (t, .body) → ∀ p ∈ ((b i).task t).targets, p ∉ l)
    (h : Blur r kind b desc i l F G) :
    ∃ G', Fleet.step r b desc (a.unpiece i) G = some G' ∧ Blur r kind b desc i (begun i a l) F' G' := by
  cases a with
  | tear j k p v =>
    simp only [Fleet.step] at hs
    split at hs
    · cases hs
    · rename_i s hst
      obtain rfl := Option.some.inj hs
      have hst' := hst
      rcases step_cases hst with ⟨_, _, e, _⟩ | ⟨_, _, e, _⟩ | ⟨k', t, p', e, hk, hd, hp, hse⟩ | ⟨_, e, _⟩ | ⟨e, _⟩ <;> cases e
      have hk' : (F.part j).sched.running[k]? = some (t, TaskList.Stage.body) := hk
      by_cases hj : j = i
      · subst hj
        obtain ⟨_, hnf, ht⟩ := TaskList.body_facts hb.topological (hr j) hk'
        refine ⟨{ G.put j s with content := update G.content p (r.make (desc j t) (G.got j t) p) }, ?_, ?_⟩
        · simp only [FAct.unpiece, if_true, Fleet.step, h.state, hst', h.part, hk']
        · simp only [begun, if_true]
          refine ⟨rfl, rfl, by simp only [Fleet.put, h.part], fun q hw hkq hq => ?_, h.got, fun q hq => ?_⟩
          · have hne : q ≠ p := fun e => hq (e ▸ List.mem_cons_self)
            show update F.content p v q = update G.content p _ q
            rw [update_ne _ _ hne, update_ne _ _ hne]
            exact h.content q hw hkq fun hl => hq (List.mem_cons_of_mem _ hl)
          · show ∃ t ∈ _, _ ∧ _ ∉ ((F.put j s).part j).sched.hist
            rw [part_put, hse]
            rcases List.mem_cons.mp hq with rfl | hq
            · exact ⟨t, ht, hp, hnf _⟩
            · exact h.open_ q hq
      · refine ⟨{ G.put j s with content := update G.content p v }, ?_, ?_⟩
        · simp only [FAct.unpiece, if_neg hj, Fleet.step, h.state, hst']
        · simp only [begun, if_neg hj]
          refine ⟨rfl, rfl, by simp only [Fleet.put, h.part], fun q hw hkq hq => ?_, h.got, fun q hq => ?_⟩
          · show update F.content p v q = update G.content p v q
            by_cases e : q = p
            · subst e; rw [update_self, update_self]
            · rw [update_ne _ _ e, update_ne _ _ e]; exact h.content q hw hkq hq
          · show ∃ t ∈ _, _ ∧ _ ∉ ((F.put j s).part i).sched.hist
            rw [part_put_ne _ _ (Ne.symm hj)]; exact h.open_ q hq
  | read j k q =>
    simp only [Fleet.step] at hs
    split at hs
    · rename_i t hk
      obtain rfl := Option.some.inj hs
      refine ⟨G.reads j t (update (G.got j t) q (G.content q)), by simp only [FAct.unpiece, Fleet.step, h.part, hk], ⟨h.fs, h.clock, h.part, h.content, fun u q' hq' => ?_, h.open_⟩⟩
      by_cases hj : j = i
      · subst hj
        simp only [Fleet.reads, update_self]
        by_cases e : u = t
        · subst e
          rw [update_self, update_self]
          by_cases e' : q' = q
          · subst e'; rw [update_self, update_self]; exact input_complete hb hkind hin (hr j) h hk hq'
          · rw [update_ne _ _ e', update_ne _ _ e']; exact h.got u q' hq'
        · rw [update_ne _ _ e, update_ne _ _ e]; exact h.got u q' hq'
      · simp only [Fleet.reads, update_ne _ _ (Ne.symm hj)]; exact h.got u q' hq'
    · cases hs
  | act j a =>
    simp only [Fleet.step] at hs
    cases hst : Build.step (b j) a (F.state j) with
    | none => rw [hst] at hs; cases hs
    | some s =>
      rw [hst] at hs
      have hst' := hst
      rcases step_cases hst with ⟨a', sched', rfl, hal, hss, hse⟩ | ⟨k, t, rfl, hk, hd, hse⟩ | ⟨k, t, p, rfl, hk, hd, hp, hse⟩ | ⟨p, rfl, hkp, hse⟩ | ⟨rfl, hse⟩
      · obtain rfl := Option.some.inj hs
        refine ⟨G.put j s, by simp only [FAct.unpiece, Fleet.step, h.state, hst'], ⟨rfl, rfl, by simp only [Fleet.put, h.part], h.content, h.got, fun q hq => ?_⟩⟩
        obtain ⟨u, hu, hqu, hf⟩ := h.open_ q hq
        refine ⟨u, hu, hqu, fun hfin => ?_⟩
        by_cases hj : j = i
        · subst hj
          rw [part_put, hse] at hfin
          rcases TaskList.step_success hss hfin with h' | ⟨k, rfl, hk⟩
          · exact hf h'
          · exact hend k u rfl hk q hqu hq
        · rw [part_put_ne _ _ (Ne.symm hj)] at hfin; exact hf hfin
      · have hk' : (F.part j).sched.running[k]? = some (t, TaskList.Stage.body) := hk
        simp only [hk'] at hs
        obtain rfl := Option.some.inj hs
        refine ⟨(G.put j s).reads j t G.content, by simp only [FAct.unpiece, Fleet.step, h.state, hst', h.part, hk'], ⟨rfl, rfl, by simp only [Fleet.reads, Fleet.put, h.part], h.content, fun u q hq => ?_, fun q hq => ?_⟩⟩
        · by_cases hj : j = i
          · subst hj
            simp only [Fleet.reads, update_self]
            by_cases e : u = t
            · subst e
              rw [update_self, update_self]; exact input_complete hb hkind hin (hr j) h hk' hq
            · rw [update_ne _ _ e, update_ne _ _ e]; exact h.got u q hq
          · simp only [Fleet.reads, update_ne _ _ (Ne.symm hj)]; exact h.got u q hq
        · show ∃ t ∈ _, _ ∧ _ ∉ ((F.put j s).part i).sched.hist
          by_cases hj : i = j
          · subst hj; rw [part_put, hse]; exact h.open_ q hq
          · rw [part_put_ne _ _ hj]; exact h.open_ q hq
      · have hk' : (F.part j).sched.running[k]? = some (t, TaskList.Stage.body) := hk
        simp only [hk'] at hs
        obtain rfl := Option.some.inj hs
        refine ⟨{ G.put j s with content := update G.content p (r.make (desc j t) (G.got j t) p) }, by simp only [FAct.unpiece, Fleet.step, h.state, hst', h.part, hk'],
          ⟨rfl, rfl, by simp only [Fleet.put, h.part], fun q hw hkq hq => ?_, h.got, fun q hq => ?_⟩⟩
        · show update F.content p _ q = update G.content p _ q
          by_cases e : q = p
          · subst e
            rw [update_self, update_self]
            by_cases hj : j = i
            · subst hj; exact r.pure _ _ _ _ fun q' hq' => h.got t q' hq'
            · exact absurd hw (htargets j hj t (TaskList.body_facts (htop j) (hr j) hk').2.2 _ hp)
          · rw [update_ne _ _ e, update_ne _ _ e]
            refine h.content q hw hkq fun hl => hq ?_
            simp only [begun]
            split
            · exact List.mem_filter.mpr ⟨hl, decide_eq_true e⟩
            · exact hl
        · have hq' : q ∈ l := by
            simp only [begun] at hq
            split at hq
            · exact (List.mem_filter.mp hq).1
            · exact hq
          show ∃ t ∈ _, _ ∧ _ ∉ ((F.put j s).part i).sched.hist
          by_cases hj : i = j
          · subst hj; rw [part_put, hse]; exact h.open_ q hq'
          · rw [part_put_ne _ _ hj]; exact h.open_ q hq'
      · obtain rfl := Option.some.inj hs
        refine ⟨G.put j s, by simp only [FAct.unpiece, Fleet.step, h.state, hst'], ⟨rfl, rfl, by simp only [Fleet.put, h.part], h.content, h.got, fun q hq => ?_⟩⟩
        by_cases hj : i = j
        · subst hj; rw [part_put, hse]; exact h.open_ q hq
        · rw [part_put_ne _ _ hj]; exact h.open_ q hq
      · obtain rfl := Option.some.inj hs
        refine ⟨G.put j s, by simp only [FAct.unpiece, Fleet.step, h.state, hst'], ⟨rfl, rfl, by simp only [Fleet.put, h.part], h.content, h.got, fun q hq => ?_⟩⟩
        by_cases hj : i = j
        · subst hj; rw [part_put, hse]; exact h.open_ q hq
        · rw [part_put_ne _ _ hj]; exact h.open_ q hq

omit [DecidableEq P] in
theorem fleet_reaches [DecidableEq P] {as : List (FAct P V)} {F F' : Fleet P V} (hx : Fleet.exec r b desc as F = some F') (hr : ∀ j, TaskList.Reachable (b j).job (F.part j).sched) :
    ∀ j, TaskList.Reachable (b j).job (F'.part j).sched := by
  induction as generalizing F with
  | nil => cases hx; exact hr
  | cons a as ih =>
    simp only [Fleet.exec] at hx
    cases hs : Fleet.step r b desc a F with
    | none => rw [hs] at hx; cases hx
    | some H => rw [hs] at hx; exact ih hx (fleet_reach hs hr)

theorem blur_exec (hb : (b i).Sane) (hkind : (b i).kind = kind) (htop : ∀ j, (b j).job.Topological)
    (hin : ∀ t ∈ (b i).job.tasks, ∀ q, r.reads (desc i t) q → kind q = false ∧ (q = ((b i).task t).src ∨ ∃ d ∈ ((b i).task t).deps, d.name = q ∧ Db.isExternal d.origin = false))
    (htargets : ∀ j, j ≠ i → ∀ t ∈ (b j).job.tasks, ∀ p ∈ ((b j).task t).targets, ¬ Watches r (b i) (desc i) p) {l : List P} {F F' G : Fleet P V} {as : List (FAct P V)}
    (hr : ∀ j, TaskList.Reachable (b j).job (F.part j).sched) (hx : Fleet.exec r b desc as F = some F') (hend : Completes r b desc i l as F) (h : Blur r kind b desc i l F G) :
    ∃ l' G', Fleet.exec r b desc (as.map (FAct.unpiece i)) G = some G' ∧ Blur r kind b desc i l' F' G' := by
  induction as generalizing F G l with
  | nil => cases hx; exact ⟨l, G, rfl, h⟩
  | cons a as ih =>
    simp only [Fleet.exec] at hx
    cases hs : Fleet.step r b desc a F with
    | none => rw [hs] at hx; cases hx
    | some H =>
      rw [hs] at hx
      obtain ⟨G₁, h1, h2⟩ := blur_step hb hkind htop hin htargets hr hs hend.1 h
      obtain ⟨l', G', h3, h4⟩ := ih (fleet_reach hs hr) hx (hend.2 H hs) h2
      exact ⟨l', G', by simp only [List.map_cons, Fleet.exec, h1, h3], h4⟩

omit [DecidableEq P] in
theorem separate_unpiece {as : List (FAct P V)} (htargets : ∀ j, j ≠ i → ∀ t ∈ (b j).job.tasks, ∀ p ∈ ((b j).task t).targets, ¬ Watches r (b i) (desc i) p)
    (hdirs : ∀ j p, j ≠ i → .act j (.touchDir p) ∈ as → Watches r (b i) (desc i) p → Exists w.fs p) : Separate r b desc w i (as.map (FAct.unpiece i)) := by
  refine ⟨htargets, fun j p hj ha => ?_, fun k p v ha => ?_⟩
  · obtain ⟨a, ha, e⟩ := List.mem_map.mp ha
    cases a with
    | tear j' k' p' v' =>
      simp only [FAct.unpiece] at e
      split at e <;> cases e
    | read => cases e
    | act => cases e; exact hdirs j p hj ha
  · obtain ⟨a, _, e⟩ := List.mem_map.mp ha
    cases a with
    | tear j' k' p' v' =>
      simp only [FAct.unpiece] at e
      split at e
      · cases e
      · rename_i hne; cases e; exact hne rfl
    | read => cases e
    | act => cases e

/-! ## C117 -/

/-- **C117.** All runs may write their targets piece by piece. If run `i` succeeds, its targets exist, each is what its recipe makes of the files it reads, and nothing is left to do. -/
theorem C117_pieces (hpast : SharedPast pr w) (htop : ∀ j, (b j).job.Topological) (hkinds : ∀ j, (b j).kind = kind) {v : P → Option V} (hplan : pr.plan v (b i) (desc i)) (hview : ∀ q, area q = false → v q = w.view kind q)
    (hdry : (b i).dryrun = false) (hsources : ∀ t ∈ (b i).job.tasks, ∀ q, r.reads (desc i t) q → area q = false → Exists w.fs q) {as : List (FAct P V)} {F : Fleet P V}
    (htargets : ∀ j, j ≠ i → ∀ t ∈ (b j).job.tasks, ∀ p ∈ ((b j).task t).targets, ¬ Watches r (b i) (desc i) p)
    (hdirs : ∀ j p, j ≠ i → .act j (.touchDir p) ∈ as → Watches r (b i) (desc i) p → Exists w.fs p)
    (hend : Completes r b desc i [] as (.start b w)) (hx : Fleet.exec r b desc as (.start b w) = some F) (hok : (F.state i).Succeeded) :
    Consistent r (b i) (desc i) F.content ∧ ∀ t ∈ (b i).job.tasks, UpToDate F.fs ((b i).task t) ∧ ∀ p ∈ ((b i).task t).targets, Exists F.fs p := by
  have hb := pr.sane hplan
  have hin := fun t ht q hq => pr.inputs hplan t ht q hq
  obtain ⟨l, G, hG, h⟩ := blur_exec hb (hkinds i) htop hin htargets (fun _ => ⟨[], rfl⟩) hx hend
    (⟨rfl, rfl, rfl, fun _ _ _ _ => rfl, fun _ _ _ => rfl, fun _ hp => by cases hp⟩ : Blur r kind b desc i [] (.start b w) (.start b w))
  have hsep := separate_unpiece htargets hdirs
  obtain ⟨h1, h2⟩ := C117_succeeds hpast htop hkinds hplan hview hdry hsources hsep hG (h.state i ▸ hok)
  have hreach : TaskList.Reachable (b i).job (F.part i).sched := fleet_reaches hx (fun _ => ⟨[], rfl⟩) i
  have hnone : l = [] := by
    cases l with
    | nil => rfl
    | cons p l =>
      obtain ⟨t, ht, _, hf⟩ := h.open_ p List.mem_cons_self
      obtain ⟨n, hn⟩ := hok
      exact absurd ((TaskList.C20_returns_complete hb.topological hreach hn).2 t ht).2 hf
  subst hnone
  rw [h.fs] at h2
  refine ⟨fun t ht p hp hkp => ?_, h2⟩
  rw [h.content p ⟨t, ht, .inr (.inl hp)⟩ (by rw [← hkinds i]; exact hkp) (by simp), h1 t ht p hp hkp]
  exact r.pure _ _ _ _ fun q hq => (h.content q ⟨t, ht, .inr (.inr (.inr hq))⟩ (hin t ht q hq).1 (by simp)).symm

/-- **C117.** In any case, run `i` does what it could have done alone: tasks are started and end in the same order, the same tasks are executed, and the files that matter get the same time stamps. -/
theorem C117_pieces_alone (hpast : SharedPast pr w) (htop : ∀ j, (b j).job.Topological) (hkinds : ∀ j, (b j).kind = kind) {v : P → Option V} (hplan : pr.plan v (b i) (desc i)) {as : List (FAct P V)} {F : Fleet P V}
    (htargets : ∀ j, j ≠ i → ∀ t ∈ (b j).job.tasks, ∀ p ∈ ((b j).task t).targets, ¬ Watches r (b i) (desc i) p)
    (hdirs : ∀ j p, j ≠ i → .act j (.touchDir p) ∈ as → Watches r (b i) (desc i) p → Exists w.fs p)
    (hend : Completes r b desc i [] as (.start b w)) (hx : Fleet.exec r b desc as (.start b w) = some F) :
    ∃ G, ByItself r (b i) (desc i) w i G ∧ (G.part i).sched = (F.part i).sched ∧ (G.part i).decision = (F.part i).decision ∧ (G.part i).written = (F.part i).written ∧
      ∀ p, Watches r (b i) (desc i) p → (Exists F.fs p ↔ Exists G.fs p) ∧ (kind p = false → F.fs p = G.fs p) := by
  obtain ⟨l, H, hH, h⟩ := blur_exec (pr.sane hplan) (hkinds i) htop (fun t ht q hq => pr.inputs hplan t ht q hq) htargets (fun _ => ⟨[], rfl⟩) hx hend
    (⟨rfl, rfl, rfl, fun _ _ _ _ => rfl, fun _ _ _ => rfl, fun _ hp => by cases hp⟩ : Blur r kind b desc i [] (.start b w) (.start b w))
  obtain ⟨G, h1, h2, h3, h4, h5⟩ := C117_alone (pr.sane hplan) htop hkinds (shared_kept hpast).kinds (separate_unpiece htargets hdirs) hH
  rw [h.part] at h2 h3 h4
  refine ⟨G, h1, h2, h3, h4, fun p hp => ?_⟩
  rw [← h.fs]
  exact (h5 p hp).2

/-- **C117.** A run that is started next, with the same targets, executes nothing but what is executed every time. -/
theorem C117_pieces_idle (hpast : SharedPast pr w) (htop : ∀ j, (b j).job.Topological) (hkinds : ∀ j, (b j).kind = kind) {v : P → Option V} (hplan : pr.plan v (b i) (desc i)) (hview : ∀ q, area q = false → v q = w.view kind q)
    (hdry : (b i).dryrun = false) (hsources : ∀ t ∈ (b i).job.tasks, ∀ q, r.reads (desc i t) q → area q = false → Exists w.fs q) {as : List (FAct P V)} {F : Fleet P V}
    (htargets : ∀ j, j ≠ i → ∀ t ∈ (b j).job.tasks, ∀ p ∈ ((b j).task t).targets, ¬ Watches r (b i) (desc i) p)
    (hdirs : ∀ j p, j ≠ i → .act j (.touchDir p) ∈ as → Watches r (b i) (desc i) p → Exists w.fs p)
    (hend : Completes r b desc i [] as (.start b w)) (hx : Fleet.exec r b desc as (.start b w) = some F) (hok : (F.state i).Succeeded) {later : Nat} {as' : List (Act P)} {s : State P}
    (hx' : exec { b i with force := false } as' (init { b i with force := false } F.fs later) = some s) {t : Nat} (ht : t ∈ (b i).job.tasks) (hex : s.Executed t) : AlwaysRebuilt (b i) t := by
  obtain ⟨l, H, hH, h⟩ := blur_exec (pr.sane hplan) (hkinds i) htop (fun t ht q hq => pr.inputs hplan t ht q hq) htargets (fun _ => ⟨[], rfl⟩) hx hend
    (⟨rfl, rfl, rfl, fun _ _ _ _ => rfl, fun _ _ _ => rfl, fun _ hp => by cases hp⟩ : Blur r kind b desc i [] (.start b w) (.start b w))
  rw [← h.fs] at hx'
  exact C117_idle hpast htop hkinds hplan hview hdry hsources (separate_unpiece htargets hdirs) hH (h.state i ▸ hok) hx' ht hex

end

end Maike.Build
