import Verif.Tree.Scanner

/-!
# Theorems about the directory scanner

C49 (the result does not depend on the schedule) and C50 (errors are not lost). The words used in the statements (`Passes`, `Enters`,
`Reached`, `Says`, `Height`) are defined in the specification section of Verif/Tree/Scanner.lean, without reference to the scanner.
-/

namespace Maike.Tree

open Fs Paths
open Maike.Db.Map (insertNew Sorted)

variable {I : Type} {w : World I}

/-! ## Lemmas -/

theorem all_done {s : Scan I} (h : Inv w s) (hc : s.shared.counter = 0) : ∀ t ∈ s.tasks, t.2 = .done := by
  intro t ht
  have h1 := h.counter
  rw [hc] at h1
  have h2 : t.2.live = 0 := by
    have : ∀ l : List (Path × Phase), (l.map fun t => t.2.live).sum = 0 → ∀ t ∈ l, t.2.live = 0 := by
      intro l
      induction l with
      | nil => intro _ t ht; simp at ht
      | cons x l ih =>
        intro h t ht
        simp only [List.map_cons, List.sum_cons] at h
        rcases List.mem_cons.mp ht with e | ht
        · rw [e]; omega
        · exact ih (by omega) t ht
    exact this _ h1.symm t ht
  cases hp : t.2 <;> rw [hp] at h2 <;> first | rfl | cases h2

theorem done_complete {s : Scan I} (h : Inv w s) (hc : s.shared.counter = 0) {p : Path} (hp : w.Reached p) :
    (p, Phase.done) ∈ s.tasks := by
  have hd := all_done h hc
  have up : ∀ q, q ∈ s.tasks.map (·.1) → (q, Phase.done) ∈ s.tasks := by
    intro q hq
    obtain ⟨t, ht, e⟩ := List.mem_map.mp hq
    have h1 := hd t ht
    rw [show (q, Phase.done) = t from by rw [← e, ← h1]]
    exact ht
  induction hp with
  | root => exact up _ h.hasRoot
  | entry _ he hn ih => exact up _ (h.loc _ ih he _ hn)

theorem takeResult_counter {s : Scan I} {r} (h : takeResult s = some r) : s.shared.counter = 0 := by
  unfold takeResult at h
  split at h
  · cases h
  · rename_i hc; simpa using hc

theorem sorted_ext {P V : Type} [Db.PathType P] [DecidableEq P] {a b : List (P × V)} (ha : Sorted a) (hb : Sorted b)
    (h : ∀ x, x ∈ a ↔ x ∈ b) : a = b := by
  induction a generalizing b with
  | nil =>
    cases b with
    | nil => rfl
    | cons y b => exact absurd ((h y).mpr (by simp)) (by simp)
  | cons x a ih =>
    cases b with
    | nil => exact absurd ((h x).mp (by simp)) (by simp)
    | cons y b =>
      obtain ⟨ha1, ha2⟩ := ha
      obtain ⟨hb1, hb2⟩ := hb
      have e : x = y := by
        rcases List.mem_cons.mp ((h x).mp (by simp)) with e | h1
        · exact e
        · rcases List.mem_cons.mp ((h y).mpr (by simp)) with e | h2
          · exact e.symm
          · have g1 := hb1 x h1
            have g2 := ha1 y h2
            rw [Db.Map.lt_asymm g1] at g2
            cases g2
      subst e
      congr 1
      apply ih ha2 hb2
      intro z
      constructor
      · intro hz
        rcases List.mem_cons.mp ((h z).mp (List.mem_cons_of_mem _ hz)) with e | hz'
        · exact absurd (congrArg Prod.fst e).symm (Db.Map.lt_ne (ha1 z hz))
        · exact hz'
      · intro hz
        rcases List.mem_cons.mp ((h z).mpr (List.mem_cons_of_mem _ hz)) with e | hz'
        · exact absurd (congrArg Prod.fst e).symm (Db.Map.lt_ne (hb1 z hz))
        · exact hz'

theorem perm_lift {α β : Type} (f : α → β) {l : List β} {m : List β} (h : l.Perm m) :
    ∀ L : List α, L.map f = m → ∃ L' : List α, L'.Perm L ∧ L'.map f = l := by
  induction h with
  | nil => intro L hL; exact ⟨L, .refl _, hL⟩
  | @cons x l m _ ih =>
    intro L hL
    cases L with
    | nil => cases hL
    | cons a L =>
      simp only [List.map_cons, List.cons.injEq] at hL
      obtain ⟨L', h1, h2⟩ := ih L hL.2
      exact ⟨a :: L', h1.cons a, by rw [List.map_cons, hL.1, h2]⟩
  | swap x y l =>
    intro L hL
    match L, hL with
    | [], hL => cases hL
    | [_], hL => cases hL
    | a :: b :: L, hL =>
      simp only [List.map_cons, List.cons.injEq] at hL
      exact ⟨b :: a :: L, .swap _ _ _, by simp [hL]⟩
  | trans _ _ ih1 ih2 =>
    intro L hL
    obtain ⟨L1, h1, h2⟩ := ih2 L hL
    obtain ⟨L2, h3, h4⟩ := ih1 L1 h2
    exact ⟨L2, h3.trans h1, h4⟩

theorem filterMap_done {l : List (Path × Phase)} (h : ∀ t ∈ l, t.2 = .done) :
    l.filterMap (errOf w) = (l.filterMap fun t => (w.message t.1).map fun m => (t.1, m)).map (·.2) := by
  induction l with
  | nil => rfl
  | cons x l ih =>
    have h1 := h x (by simp)
    have h2 := ih fun t ht => h t (by simp [ht])
    simp only [List.filterMap_cons]
    have : errOf w x = w.message x.1 := by unfold errOf; rw [h1]
    rw [this]
    cases hm : w.message x.1 with
    | none => simpa using h2
    | some m => simp [h2]

/-- The messages at the end. -/
theorem errlog_done (hw : w.Ok) {n : Nat} {s : Scan I} (h : Steps w n (Scan.init w) s) (hc : s.shared.counter = 0) :
    ∃ l : List (Path × Str), l.Nodup ∧ (∀ p m, (p, m) ∈ l ↔ w.Reached p ∧ w.Says p m) ∧ l.map (·.2) = s.shared.errlog := by
  have hi := steps_inv hw h
  have hd := all_done hi hc
  have h1 := hi.errlog
  rw [filterMap_done hd] at h1
  obtain ⟨l, h2, h3⟩ := perm_lift _ h1 _ rfl
  refine ⟨l, ?_, ?_, h3⟩
  · rw [h2.nodup_iff]
    have hnd := hi.nodup
    clear hd h1 h2 h3 hi h
    generalize s.tasks = t at *
    induction t with
    | nil => simp
    | cons x t ih =>
      simp only [List.map_cons, List.nodup_cons] at hnd
      simp only [List.filterMap_cons]
      cases hm : w.message x.1 with
      | none => simpa [hm] using ih hnd.2
      | some m =>
        simp only [Option.map_some, List.nodup_cons]
        refine ⟨?_, ih hnd.2⟩
        intro hx
        obtain ⟨y, hy, e⟩ := List.mem_filterMap.mp hx
        obtain ⟨m', _, e⟩ := Option.map_eq_some_iff.mp e
        injection e with e1 e2
        exact hnd.1 (List.mem_map.mpr ⟨y, hy, e1⟩)
  · intro p m
    rw [h2.mem_iff, List.mem_filterMap, says_iff]
    constructor
    · rintro ⟨t, ht, e⟩
      obtain ⟨m', e1, e2⟩ := Option.map_eq_some_iff.mp e
      injection e2 with e2 e3
      rw [← e2, ← e3]
      exact ⟨hi.reached t ht, e1⟩
    · rintro ⟨hp, hm⟩
      exact ⟨_, done_complete hi hc hp, by rw [hm]; rfl⟩

/-! ## C49: the result -/

/-- C49: A scan that ends without errors has found the paths that are reached from the start directory through directories that pass the
filters. Each of these that passes the filters itself is in the result, under its normal form, with what the loader returned for it, and
nothing else is. -/
theorem C49_result (hw : w.Ok) {n : Nat} {s : Scan I} (h : Steps w n (Scan.init w) s) {files : List (Path × I)}
    (hr : takeResult s = some (.ok files)) (k : Path) (i : I) :
    (k, i) ∈ files ↔ ∃ p, w.Reached p ∧ w.Passes p ∧ w.load p = .ok i ∧ k = p.normal := by
  have hi := steps_inv hw h
  have hc := takeResult_counter hr
  have hf : files = s.shared.files := by
    unfold takeResult at hr
    split at hr
    · cases hr
    · split at hr
      · cases hr
      · injection hr with hr; injection hr with hr; exact hr.symm
  rw [hf, hi.files]
  constructor
  · rintro ⟨t, ht, h1, h2, h3, h4⟩
    exact ⟨t.1, hi.reached t ht, h2, h3, h4⟩
  · rintro ⟨p, h1, h2, h3, h4⟩
    exact ⟨_, done_complete hi hc h1, ⟨by simp, by simp⟩, h2, h3, h4⟩

/-- C49: When a scan has ended, with or without errors, the loader has been called once for each path that was reached and passes the
filters, and for no other path. -/
theorem C49_once (hw : w.Ok) {n : Nat} {s : Scan I} (h : Steps w n (Scan.init w) s) (hr : takeResult s ≠ none) :
    s.shared.loads.Nodup ∧ ∀ p, p ∈ s.shared.loads ↔ w.Reached p ∧ w.Passes p := by
  have hi := steps_inv hw h
  obtain ⟨r, hr⟩ := Option.ne_none_iff_exists'.mp hr
  have hc := takeResult_counter hr
  refine ⟨hi.loadsNodup, fun p => ?_⟩
  rw [hi.loads]
  constructor
  · rintro ⟨t, ht, h1, _, h3⟩
    exact ⟨h1 ▸ hi.reached t ht, h3⟩
  · rintro ⟨h1, h2⟩
    exact ⟨_, done_complete hi hc h1, rfl, ⟨by simp, by simp⟩, h2⟩

/-- C49: At no time has the loader been called twice for the same path, or for two paths that are the same file. -/
theorem C49_never_twice (hw : w.Ok) {n : Nat} {s : Scan I} (h : Steps w n (Scan.init w) s) : (s.shared.loads.map Path.normal).Nodup := by
  have hi := steps_inv hw h
  have hre : ∀ p ∈ s.shared.loads, w.Reached p := by
    intro p hp
    obtain ⟨t, ht, h1, _⟩ := (hi.loads p).mp hp
    exact h1 ▸ hi.reached t ht
  have hnd := hi.loadsNodup
  generalize s.shared.loads = l at *
  induction l with
  | nil => simp
  | cons x l ih =>
    simp only [List.nodup_cons] at hnd
    simp only [List.map_cons, List.nodup_cons]
    refine ⟨?_, ih (fun p hp => hre p (by simp [hp])) hnd.2⟩
    intro hx
    obtain ⟨y, hy, e⟩ := List.mem_map.mp hx
    have := reached_injective hw (hre x (by simp)) (hre y (by simp [hy])) (by rw [e])
    exact hnd.1 (this ▸ hy)

/-- C49: Two scans of the same tree that have ended give the same result, whatever the order in which their tasks were run. -/
theorem C49_schedule (hw : w.Ok) {n m : Nat} {s t : Scan I} (hs : Steps w n (Scan.init w) s) (ht : Steps w m (Scan.init w) t)
    {files : List (Path × I)} (h1 : takeResult s = some (.ok files)) (h2 : takeResult t ≠ none) : takeResult t = some (.ok files) := by
  have hc1 := takeResult_counter h1
  obtain ⟨r, h2⟩ := Option.ne_none_iff_exists'.mp h2
  have hc2 := takeResult_counter h2
  obtain ⟨l1, _, g1, e1⟩ := errlog_done hw hs hc1
  obtain ⟨l2, _, g2, e2⟩ := errlog_done hw ht hc2
  have he1 : s.shared.errlog = [] := by
    unfold takeResult at h1
    split at h1
    · cases h1
    · split at h1
      · cases h1
      · rename_i hh; simpa using hh
  have hl1 : l1 = [] := by rw [he1] at e1; simpa using e1
  have hl2 : l2 = [] := by
    rw [List.eq_nil_iff_forall_not_mem]
    rintro ⟨p, m⟩ hx
    have := (g1 p m).mpr ((g2 p m).mp hx)
    rw [hl1] at this
    simp at this
  have he2 : t.shared.errlog = [] := by rw [← e2, hl2]; rfl
  have hr : takeResult t = some (.ok t.shared.files) := by
    unfold takeResult
    simp [hc2, he2]
  have hr1 : takeResult s = some (.ok s.shared.files) := by
    unfold takeResult
    simp [hc1, he1]
  rw [hr]
  rw [hr1] at h1
  injection h1 with h1
  injection h1 with h1
  rw [← h1]
  congr 2
  apply sorted_ext (steps_inv hw ht).sorted (steps_inv hw hs).sorted
  rintro ⟨k, i⟩
  rw [C49_result hw ht hr, C49_result hw hs hr1]

/-! ## C49: the scan ends -/

theorem height_mono {h : Nat} {p : Path} (hh : w.Height h p) : w.Height (h + 1) p := by
  induction h generalizing p with
  | zero => exact hh.elim
  | succ h ih =>
    intro he n hn
    exact ih (hh he n hn)

theorem height_le {h h' : Nat} (hl : h ≤ h') {p : Path} (hh : w.Height h p) : w.Height h' p := by
  induction hl with
  | refl => exact hh
  | step _ ih => exact height_mono ih

open Classical in
/-- Upper bound for the number of steps of a path and everything below. -/
noncomputable def World.size (w : World I) : Nat → Path → Nat
  | 0, _ => 0
  | h + 1, p => 5 + if w.Enters p then ((w.names p.normal).1.map fun n => 1 + w.size h (p.normal / ⟨false, [n], false⟩)).sum else 0

theorem size_succ {h : Nat} {p : Path} (hh : w.Height h p) : w.size (h + 1) p = w.size h p := by
  induction h generalizing p with
  | zero => exact hh.elim
  | succ h ih =>
    rw [World.size]
    conv => rhs; rw [World.size]
    split
    · rename_i he
      congr 2
      apply List.map_congr_left
      intro n hn
      rw [ih (hh he n hn)]
    · rfl

theorem size_le {h h' : Nat} (hl : h ≤ h') {p : Path} (hh : w.Height h p) : w.size h' p = w.size h p := by
  induction hl with
  | refl => rfl
  | step hl ih => rw [size_succ (height_le hl hh), ih]

open Classical in
noncomputable def World.cost (w : World I) (p : Path) : Nat :=
  if h : ∃ n, w.Height n p then w.size h.choose p else 0

theorem cost_eq {h : Nat} {p : Path} (hh : w.Height h p) : w.cost p = w.size h p := by
  have he : ∃ n, w.Height n p := ⟨h, hh⟩
  unfold World.cost
  rw [dif_pos he]
  have hc := he.choose_spec
  rcases Nat.le_total h he.choose with hl | hl
  · exact size_le hl hh
  · exact (size_le hl hc).symm

theorem reached_height {h : Nat} (hh : w.Height h w.root) {p : Path} (hp : w.Reached p) : ∃ n, w.Height (n + 1) p := by
  induction hp with
  | root =>
    cases h with
    | zero => exact hh.elim
    | succ h => exact ⟨h, hh⟩
  | entry _ he hn ih =>
    obtain ⟨n, hk⟩ := ih
    have := hk he _ hn
    cases n with
    | zero => exact this.elim
    | succ n => exact ⟨n, this⟩

/-- The cost of what is left of a task. -/
noncomputable def World.left (w : World I) (t : Path × Phase) : Nat :=
  match t.2 with
  | .pending => w.cost t.1
  | .checked => w.cost t.1 - 1
  | .spawning rest _ => 3 + (rest.map fun n => 1 + w.cost (t.1.normal / ⟨false, [n], false⟩)).sum
  | .failing _ => 2
  | .ending => 1
  | .done => 0

theorem cost_ge {h : Nat} (hh : w.Height h w.root) {p : Path} (hp : w.Reached p) : 5 ≤ w.cost p := by
  obtain ⟨n, hn⟩ := reached_height hh hp
  rw [cost_eq hn, World.size]
  omega

theorem cost_enters {h : Nat} (hh : w.Height h w.root) {p : Path} (hp : w.Reached p) (he : w.Enters p) :
    w.cost p = 5 + ((w.names p.normal).1.map fun n => 1 + w.cost (p.normal / ⟨false, [n], false⟩)).sum := by
  obtain ⟨k, hk⟩ := reached_height hh hp
  rw [cost_eq hk, World.size, if_pos he]
  congr 2
  apply List.map_congr_left
  intro n hn
  rw [cost_eq (hk he n hn)]

theorem step_left {h : Nat} (hh : w.Height h w.root) {s t : Scan I} (hi : Inv w s) (hs : Step w s t) :
    (t.tasks.map w.left).sum + 1 ≤ (s.tasks.map w.left).sum := by
  cases hs with
  | @mk pre post p ph ph' s s' new ha =>
    have mem0 : (p, ph) ∈ pre ++ (p, ph) :: post := by simp
    have hre : w.Reached p := hi.reached _ mem0
    suffices hmain : w.left (p, ph') + (new.map w.cost).sum + 1 ≤ w.left (p, ph) by
      simp only [List.map_append, List.map_cons, List.sum_append, List.sum_cons, List.map_map]
      have : (w.left ∘ fun x => (x, Phase.pending)) = w.cost := by funext x; rfl
      rw [this]
      omega
    have hge := cost_ge hh hre
    cases ph with
    | pending =>
      simp only [advance] at ha
      cases hlo : w.leftOut p with
      | error msg =>
        simp only [hlo, Option.some.injEq, Prod.mk.injEq] at ha
        obtain ⟨rfl, rfl, rfl⟩ := ha
        simp [World.left]; omega
      | ok b =>
        cases b with
        | true =>
          simp only [hlo, Option.some.injEq, Prod.mk.injEq] at ha
          obtain ⟨rfl, rfl, rfl⟩ := ha
          simp [World.left]; omega
        | false =>
          simp only [hlo] at ha
          split at ha
          · simp only [Option.some.injEq, Prod.mk.injEq] at ha
            obtain ⟨rfl, rfl, rfl⟩ := ha
            simp [World.left]; omega
          · simp only [Option.some.injEq, Prod.mk.injEq] at ha
            obtain ⟨rfl, rfl, rfl⟩ := ha
            simp [World.left]; omega
    | checked =>
      have hp : w.Passes p := hi.loc _ mem0
      simp only [advance] at ha
      cases hld : w.load p with
      | error msg =>
        simp only [hld, Option.some.injEq, Prod.mk.injEq] at ha
        obtain ⟨rfl, rfl, rfl⟩ := ha
        simp [World.left]; omega
      | ok info =>
        simp only [hld] at ha
        split at ha
        · simp only [Option.some.injEq, Prod.mk.injEq] at ha
          obtain ⟨rfl, rfl, rfl⟩ := ha
          simp [World.left]; omega
        · cases hdir : w.isDir p.normal with
          | error msg =>
            simp only [hdir, Option.some.injEq, Prod.mk.injEq] at ha
            obtain ⟨rfl, rfl, rfl⟩ := ha
            simp [World.left]; omega
          | ok b =>
            cases b with
            | false =>
              simp only [hdir, Option.some.injEq, Prod.mk.injEq] at ha
              obtain ⟨rfl, rfl, rfl⟩ := ha
              simp [World.left]; omega
            | true =>
              simp only [hdir, Option.some.injEq, Prod.mk.injEq] at ha
              obtain ⟨rfl, rfl, rfl⟩ := ha
              have := cost_enters hh hre ⟨hp, ⟨info, hld⟩, hdir⟩
              simp [World.left]; omega
    | spawning rest err =>
      cases rest with
      | cons n rest =>
        simp only [advance, Option.some.injEq, Prod.mk.injEq] at ha
        obtain ⟨rfl, rfl, rfl⟩ := ha
        simp [World.left]; omega
      | nil =>
        cases err with
        | none =>
          simp only [advance, Option.some.injEq, Prod.mk.injEq] at ha
          obtain ⟨rfl, rfl, rfl⟩ := ha
          simp [World.left]
        | some msg =>
          simp only [advance, Option.some.injEq, Prod.mk.injEq] at ha
          obtain ⟨rfl, rfl, rfl⟩ := ha
          simp [World.left]
    | failing msg =>
      simp only [advance, Option.some.injEq, Prod.mk.injEq] at ha
      obtain ⟨rfl, rfl, rfl⟩ := ha
      simp [World.left]
    | ending =>
      simp only [advance, Option.some.injEq, Prod.mk.injEq] at ha
      obtain ⟨rfl, rfl, rfl⟩ := ha
      simp [World.left]
    | done => simp [advance] at ha

/-- C49: The scan of a tree of finite height ends: there is a number of steps, the same for all schedules, that cannot be exceeded. -/
theorem C49_terminates (hw : w.Ok) {h : Nat} (hh : w.Height h w.root) :
    ∃ N, ∀ n s, Steps w n (Scan.init w) s → n ≤ N := by
  refine ⟨w.cost w.root, fun n s hs => ?_⟩
  suffices hmain : n + (s.tasks.map w.left).sum ≤ w.cost w.root by omega
  generalize hi : Scan.init w = s0 at hs
  induction hs with
  | refl => rw [← hi]; simp [Scan.init, World.left]
  | tail hst hs ih =>
    have h1 := ih hi
    have h2 := step_left hh (steps_inv hw (hi ▸ hst)) hs
    omega

/-- C49: No task waits for another one: as long as the scan has not ended, every task that has not ended can go on, and there is at least
one such task. -/
theorem C49_progress (hw : w.Ok) {n : Nat} {s : Scan I} (hs : Steps w n (Scan.init w) s) (hr : takeResult s = none) :
    (∃ t ∈ s.tasks, t.2 ≠ .done) ∧
    ∀ pre p ph post, s.tasks = pre ++ (p, ph) :: post → ph ≠ .done →
      ∃ (ph' : Phase) (new : List Path) (sh : Shared I), Step w s ⟨pre ++ (p, ph') :: post ++ new.map (·, .pending), sh⟩ := by
  constructor
  · have hi := steps_inv hw hs
    have hc : s.shared.counter ≠ 0 := by
      intro h
      unfold takeResult at hr
      simp only [h, ne_eq, not_true_eq_false, if_false] at hr
      split at hr <;> cases hr
    have := hi.counter
    refine Classical.byContradiction fun hn => hc ?_
    rw [this]
    have hall : ∀ t ∈ s.tasks, t.2 = .done := fun t ht => Classical.byContradiction fun h => hn ⟨t, ht, h⟩
    generalize s.tasks = l at hall
    clear this
    induction l with
    | nil => rfl
    | cons x l ih =>
      rw [List.map_cons, List.sum_cons, ih fun t ht => hall t (by simp [ht]), hall x (by simp)]
      rfl
  · intro pre p ph post he hne
    have hadv : (advance w s.shared p ph).isSome := by
      cases ph with
      | pending => simp only [advance]; repeat' (first | rfl | split)
      | checked => simp only [advance]; repeat' (first | rfl | split)
      | spawning rest err => cases rest <;> cases err <;> rfl
      | failing m => rfl
      | ending => rfl
      | done => exact absurd rfl hne
    obtain ⟨⟨sh, ph', new⟩, ha⟩ := Option.isSome_iff_exists.mp hadv
    refine ⟨ph', new, sh, ?_⟩
    obtain ⟨tasks, shared⟩ := s
    simp only at he
    subst he
    exact .mk ha

theorem Steps.head {m : Nat} {s t u : Scan I} (h : Steps w m t u) (h1 : Step w s t) : Steps w (m + 1) s u := by
  induction h with
  | refl => exact .tail .refl h1
  | tail _ hx ih => exact .tail (ih h1) hx

/-- C49: Every execution in a tree of finite height can be completed, so that the hypotheses of the theorems about scans that have ended are
met from wherever the scan is. -/
theorem C49_ends (hw : w.Ok) {h : Nat} (hh : w.Height h w.root) {n : Nat} {s : Scan I} (hs : Steps w n (Scan.init w) s) :
    ∃ m t, Steps w m s t ∧ takeResult t ≠ none := by
  generalize hk : (s.tasks.map w.left).sum = k
  induction k using Nat.strongRecOn generalizing n s with
  | ind k ih =>
    by_cases hr : takeResult s = none
    · obtain ⟨⟨⟨p, ph⟩, ht, hne⟩, hp⟩ := C49_progress hw hs hr
      obtain ⟨pre, post, e⟩ := List.append_of_mem ht
      obtain ⟨ph', new, sh, h1⟩ := hp pre p ph post e hne
      have h2 := step_left hh (steps_inv hw hs) h1
      obtain ⟨m, t, h3, h4⟩ := ih _ (by omega) (hs.tail h1) rfl
      exact ⟨m + 1, t, h3.head h1, h4⟩
    · exact ⟨0, s, .refl, hr⟩

/-- C49: The caller of `takeResult` is not told the result while a task has yet to do something. -/
theorem C49_waits (hw : w.Ok) {n : Nat} {s : Scan I} (hs : Steps w n (Scan.init w) s) (hr : takeResult s ≠ none) :
    ∀ t, ¬ Step w s t := by
  obtain ⟨r, hr⟩ := Option.ne_none_iff_exists'.mp hr
  have hd := all_done (steps_inv hw hs) (takeResult_counter hr)
  intro t ht
  cases ht with
  | @mk pre post p ph ph' s s' new ha =>
    have h1 := hd (p, ph) (by simp)
    simp only at h1
    rw [h1] at ha
    simp [advance] at ha

/-! ## C49: places in the source tree -/

theorem normal_trailing {r : Bool} {ns : List Str} {n : Str} (hn : IsName n) : (Path.normal ⟨r, ns ++ [n], false⟩).trailing = false := by
  unfold Path.normal
  rw [if_neg (by simp [Path.empty])]
  simp only [Path.elems, Bool.false_eq_true, if_false, List.append_nil, List.foldl_append, List.foldl_cons, List.foldl_nil]
  generalize List.foldl (normStep r) ⟨[], false⟩ ns = st
  have : (normStep r st n).trailing = false := by simp [normStep, hn.1, hn.2.1, hn.2.2]
  split
  · split <;> rfl
  · simp [this]

/-- C49: Every path other than the start directory that is reached is an entry of a directory that is in the result, and the dependency on
that directory, which C64 is about, is found under the name it has in the result. -/
theorem C49_parents (hw : w.Ok) (hn : IsNormal w.root) (ht : w.root.trailing = false) {n : Nat} {s : Scan I} (h : Steps w n (Scan.init w) s) {files : List (Path × I)}
    (hr : takeResult s = some (.ok files)) (targetDir p : Path) (hp : w.Reached p) (hne : p ≠ w.root) :
    ∃ sub entry, Found ⟨p, w.root, targetDir⟩ sub entry ∧ ∃ i, (inside w.root sub, i) ∈ files := by
  cases hp with
  | root => exact absurd rfl hne
  | @entry q n hq he hm =>
    obtain ⟨sub, hl⟩ := located hw hq
    have hi := hw.isName _ _ hm
    have hnormal : q.normal = inside w.root sub := by
      have h1 := hl.normalNames
      rw [normal_eq_self hn] at h1
      have h2 := hl.normalRoot
      have h3 : q.normal.trailing = false := by
        rcases List.eq_nil_or_concat sub with e | ⟨l, x, e⟩
        · rw [hl.isRoot e, normal_eq_self hn, ht]
        · rw [List.concat_eq_append] at e
          rw [hl.isEntry _ _ e]
          exact normal_trailing (hl.names x (by rw [e]; simp))
      calc q.normal = ⟨q.normal.root, q.normal.names, q.normal.trailing⟩ := rfl
        _ = _ := by rw [h1, h2, h3]; rfl
    refine ⟨sub, n, ⟨hn, hw.root, hl.names, hi, ?_⟩, ?_⟩
    · simp only
      obtain ⟨e1, e2⟩ := normal_inside w.root hn hw.root sub hl.names
      rw [entry_eq _ _ hi, entry_eq _ _ hi, hnormal, e1, e2]
      rfl
    · obtain ⟨g1, ⟨i, g2⟩, g3⟩ := he
      exact ⟨i, (C49_result hw h hr _ _).mpr ⟨q, hq, g1, g2, hnormal.symm⟩⟩

/-! ## C50 -/

/-- C50: When a scan has ended, `takeResult` throws exactly if there is a path that was reached and could not be handled. -/
theorem C50_throws (hw : w.Ok) {n : Nat} {s : Scan I} (h : Steps w n (Scan.init w) s) {r : Except Str (List (Path × I))}
    (hr : takeResult s = some r) : (∃ text, r = .error text) ↔ ∃ p m, w.Reached p ∧ w.Says p m := by
  have hc := takeResult_counter hr
  obtain ⟨l, _, h2, h3⟩ := errlog_done hw h hc
  unfold takeResult at hr
  simp only [hc, ne_eq, not_true_eq_false, if_false] at hr
  split at hr
  · rename_i hne
    injection hr with hr
    refine ⟨fun _ => ?_, fun _ => ⟨_, hr.symm⟩⟩
    cases l with
    | nil => exact absurd h3.symm (by simpa using hne)
    | cons x l => exact ⟨x.1, x.2, (h2 _ _).mp (by simp)⟩
  · rename_i hne
    injection hr with hr
    constructor
    · rintro ⟨text, e⟩
      rw [← hr] at e; cases e
    · rintro ⟨p, m, hh⟩
      have := (h2 p m).mpr hh
      have : m ∈ s.shared.errlog := by rw [← h3]; exact List.mem_map.mpr ⟨_, this, rfl⟩
      exact absurd (List.ne_nil_of_mem this) (by simpa using hne)

/-- C50: The error that is thrown lists the messages for all paths that could not be handled, each once, one per line. -/
theorem C50_text (hw : w.Ok) {n : Nat} {s : Scan I} (h : Steps w n (Scan.init w) s) {text : Str}
    (hr : takeResult s = some (.error text)) :
    ∃ l : List (Path × Str), l.Nodup ∧ (∀ p m, (p, m) ∈ l ↔ w.Reached p ∧ w.Says p m) ∧ text = (l.map fun x => x.2 ++ ['\n']).flatten := by
  have hc := takeResult_counter hr
  obtain ⟨l, h1, h2, h3⟩ := errlog_done hw h hc
  refine ⟨l, h1, h2, ?_⟩
  unfold takeResult at hr
  simp only [hc, ne_eq, not_true_eq_false, if_false] at hr
  split at hr
  · injection hr with hr
    injection hr with hr
    rw [← hr]
    unfold scanException
    rw [← h3, List.flatMap_map, List.flatMap]
  · injection hr with hr
    cases hr

/-! ## Examples -/

section Examples

/-- `src` with the file `a.cpp`, which is loaded, and the directories `lib`, with the file `b.cpp` the loader fails for, and `.git`, which is
left out. -/
def exampleWorld : World Nat where
  root := ⟨false, ["src".toList], false⟩
  recursive := true
  nameFilter n := n = ".git".toList
  dirFilter _ := false
  isDir p := .ok (decide (p.names = ["src".toList] ∨ p.names.getLast? = some "lib".toList ∨ p.names.getLast? = some ".git".toList))
  names p :=
    if p.names = ["src".toList] then (["a.cpp".toList, "lib".toList, ".git".toList], none)
    else if p.names = ["src".toList, "lib".toList] then (["b.cpp".toList], none)
    else ([], none)
  load p := if p.names.getLast? = some "b.cpp".toList then .error "bad tags".toList else .ok p.names.length

theorem exampleWorld_ok : exampleWorld.Ok := by
  refine ⟨by decide, fun d => ?_, fun d n hn => ?_⟩
  · simp only [exampleWorld]
    split
    · decide
    · split <;> decide
  · simp only [exampleWorld] at hn
    split at hn
    · simp only [List.mem_cons, List.not_mem_nil, or_false] at hn
      rcases hn with e | e | e <;> rw [e] <;> unfold IsName <;> decide
    · split at hn
      · simp only [List.mem_cons, List.not_mem_nil, or_false] at hn
        rw [hn]; unfold IsName; decide
      · simp at hn

theorem example_b : exampleWorld.Reached ⟨false, ["src".toList, "lib".toList, "b.cpp".toList], false⟩ := by
  have h1 : exampleWorld.Enters exampleWorld.root := ⟨.inl rfl, ⟨1, rfl⟩, rfl⟩
  have h2 := World.Reached.entry .root h1 (n := "lib".toList) (by decide +kernel)
  have h3 : exampleWorld.Enters (exampleWorld.root.normal / ⟨false, ["lib".toList], false⟩) :=
    ⟨.inr ⟨.inl rfl, by decide +kernel, rfl⟩, ⟨2, rfl⟩, rfl⟩
  have h4 := World.Reached.entry h2 h3 (n := "b.cpp".toList) (by decide +kernel)
  have e : (exampleWorld.root.normal / ⟨false, ["lib".toList], false⟩).normal / ⟨false, ["b.cpp".toList], false⟩ =
      ⟨false, ["src".toList, "lib".toList, "b.cpp".toList], false⟩ := by decide +kernel
  rw [e] at h4
  exact h4

/-- The tree is finite, so that all scans end. -/
theorem exampleWorld_height : exampleWorld.Height 3 exampleWorld.root := by
  have notDir : ∀ (p : Path) h, exampleWorld.isDir p.normal = .ok false → exampleWorld.Height (h + 1) p := by
    rintro p h hd ⟨_, _, he⟩
    rw [hd] at he; cases he
  intro _ n hn
  have e : (exampleWorld.names exampleWorld.root.normal).1 = ["a.cpp".toList, "lib".toList, ".git".toList] := by decide +kernel
  rw [e] at hn
  simp only [List.mem_cons, List.not_mem_nil, or_false] at hn
  rcases hn with e | e | e <;> rw [e]
  · exact notDir _ _ rfl
  · intro _ m hm
    have e : (exampleWorld.names (exampleWorld.root.normal / ⟨false, ["lib".toList], false⟩).normal).1 = ["b.cpp".toList] := by decide +kernel
    rw [e] at hm
    simp only [List.mem_cons, List.not_mem_nil, or_false] at hm
    rw [hm]
    exact notDir _ _ rfl
  · rintro ⟨h | h, _⟩
    · exact absurd h (by decide +kernel)
    · exact absurd h.2.1 (by decide +kernel)

/-- There is a failing path in the example, so C50 has something to say about it. -/
example : ∃ p m, exampleWorld.Reached p ∧ exampleWorld.Says p m :=
  ⟨_, "bad tags".toList, example_b, .load (.inr ⟨.inl rfl, by decide +kernel, rfl⟩) rfl⟩

end Examples

end Maike.Tree
