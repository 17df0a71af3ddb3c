import Verif.Tree.ScanTheorems

/-!
# A scan of a tree that changes (C116)

core/source_tree_loader/directory_scanner.cpp:37-94, while somebody else, such as another run of maike, writes files in the same tree. Every step of the scan may see another version of the tree. In
`Scanner.lean`, the tree is the same all the time.

The step that loads a file asks the file system several times. The versions that are allowed here are described path by path and question by question, so that a mixture of them is one of them as
well (`Like.mix`). Iteration over a directory while names are added or removed may yield any of these names or not; this is also one of the versions.
-/

namespace Maike.Tree

open Fs Paths
open Maike.Db.Map (insertNew Sorted)

variable {I : Type}

/-! ## Specification -/

/-- The path is left out because of its name. -/
def World.Hides (w : World I) (p : Path) : Prop :=
  p ≠ w.root ∧ (w.nameFilter p.filename = true ∨ w.dirFilter (p.relativeTo w.root).str = true)

/-- The versions of the tree that differ from `w₀` in what is left out because of its name, at most, and in the order of names. -/
structure Like (w₀ w : World I) : Prop where
  ok : w.Ok
  root : w.root = w₀.root
  recursive : w.recursive = w₀.recursive
  nameFilter : w.nameFilter = w₀.nameFilter
  dirFilter : w.dirFilter = w₀.dirFilter
  /-- `is_directory` does not fail for what is left out -/
  hidden : ∀ p, w₀.Hides p → ∃ b, w.isDir p = .ok b
  isDir : ∀ p, w₀.Reached p → ¬ w₀.Hides p → w.isDir p = w₀.isDir p ∧ w.isDir p.normal = w₀.isDir p.normal
  load : ∀ p, w₀.Reached p → ¬ w₀.Hides p → w.load p = w₀.load p
  /-- nothing else is listed -/
  sub : ∀ p n, w₀.Reached p → w₀.Enters p → n ∈ (w.names p.normal).1 → ¬ w₀.Hides (p.normal / ⟨false, [n], false⟩) → n ∈ (w₀.names p.normal).1
  /-- and nothing else is missing, if the directory can be listed completely -/
  sup : ∀ p n, w₀.Reached p → w₀.Enters p → n ∈ (w₀.names p.normal).1 → ¬ w₀.Hides (p.normal / ⟨false, [n], false⟩) → (w.names p.normal).2 = none →
    n ∈ (w.names p.normal).1

/-- Executions in which every step sees one of the versions `V` of the tree. -/
inductive Moving (V : World I → Prop) : Nat → Scan I → Scan I → Prop
  | refl {s} : Moving V 0 s s
  | tail {n s t u w} : Moving V n s t → V w → Step w t u → Moving V (n + 1) s u

/-! ## Proof -/

theorem Moving.mono {V V' : World I → Prop} (hv : ∀ w, V w → V' w) {n : Nat} {s t : Scan I} (h : Moving V n s t) : Moving V' n s t := by
  induction h with
  | refl => exact .refl
  | tail _ hx hs ih => exact .tail ih (hv _ hx) hs

variable {w₀ w : World I}

/-- Different questions may be answered by different versions. -/
theorem Like.mix {f g h : Path → World I} (hf : ∀ p, Like w₀ (f p)) (hg : ∀ p, Like w₀ (g p)) (hh : ∀ p, Like w₀ (h p)) :
    Like w₀ { w₀ with isDir := fun p => (f p).isDir p, names := fun p => (g p).names p, load := fun p => (h p).load p } where
  ok := ⟨by have := (hf Path.empty).ok.root; rw [(hf Path.empty).root] at this; exact this, fun d => (hg d).ok.nodup d, fun d => (hg d).ok.isName d⟩
  root := rfl
  recursive := rfl
  nameFilter := rfl
  dirFilter := rfl
  hidden p hp := (hf p).hidden p hp
  isDir p hr hn := ⟨((hf p).isDir p hr hn).1, ((hf p.normal).isDir p hr hn).2⟩
  load p hr hn := (hh p).load p hr hn
  sub p n := (hg p.normal).sub p n
  sup p n := (hg p.normal).sup p n

theorem Like.hides (h : Like w₀ w) (p : Path) : w.Hides p ↔ w₀.Hides p := by
  unfold World.Hides
  rw [h.root, h.nameFilter, h.dirFilter]

theorem Passes.not_hides {p : Path} (h : w.Passes p) : ¬ w.Hides p := by
  rintro ⟨h1, h2⟩
  rcases h with h | ⟨_, h3, h4⟩
  · exact h1 h
  · rw [h3, h4] at h2; simp at h2

theorem Like.leftOut_hidden (h : Like w₀ w) {p : Path} (hp : w₀.Hides p) : w.leftOut p = .ok true := by
  obtain ⟨h1, h2⟩ := (h.hides p).mpr hp
  obtain ⟨b, hb⟩ := h.hidden p hp
  unfold World.leftOut
  rw [if_pos h1]
  split
  · rw [hb]
    rcases h2 with h2 | h2 <;> simp [Except.map, h2]
  · rcases h2 with h2 | h2 <;> simp [Except.map, h2]

theorem Like.leftOut (h : Like w₀ w) {p : Path} (hr : w₀.Reached p) (hp : ¬ w₀.Hides p) : w.leftOut p = w₀.leftOut p := by
  unfold World.leftOut
  rw [h.root, h.recursive, h.nameFilter, h.dirFilter, (h.isDir p hr hp).1]

theorem Like.passes (h : Like w₀ w) {p : Path} (hr : w₀.Reached p) (hp : ¬ w₀.Hides p) : w.Passes p ↔ w₀.Passes p := by
  rw [passes_iff, passes_iff, h.leftOut hr hp]

theorem Like.enters (h : Like w₀ w) {p : Path} (hr : w₀.Reached p) (hp : ¬ w₀.Hides p) : w.Enters p ↔ w₀.Enters p := by
  unfold World.Enters
  rw [h.passes hr hp, h.load p hr hp, (h.isDir p hr hp).2]

/-- What is reached is reached in the first version, unless it is left out. -/
theorem Like.back (h : Like w₀ w) {p : Path} (hp : w.Reached p) : w₀.Hides p ∨ w₀.Reached p := by
  induction hp with
  | root => rw [h.root]; exact .inr .root
  | @entry q n hq he hn ih =>
    by_cases hh : w₀.Hides (q.normal / ⟨false, [n], false⟩)
    · exact .inl hh
    · have hv : ¬ w₀.Hides q := fun e => Passes.not_hides he.1 ((h.hides q).mpr e)
      have hr := ih.resolve_left hv
      have he₀ := (h.enters hr hv).mp he
      exact .inr (.entry hr he₀ (h.sub q n hr he₀ hn hh))

theorem Like.forth (h : Like w₀ w) (hc : ∀ p, w.Reached p → w.Enters p → (w.names p.normal).2 = none) {p : Path} (hp : w₀.Reached p) (hv : ¬ w₀.Hides p) : w.Reached p := by
  induction hp with
  | root => rw [← h.root]; exact .root
  | @entry q n hq he hn ih =>
    have hvq := Passes.not_hides he.1
    have h1 := ih hvq
    have h2 := (h.enters hq hvq).mpr he
    exact .entry h1 h2 (h.sup q n hq he hn hv (hc q h1 h2))

/-- A step does not depend on the version, apart from the names that are listed when a directory is entered. -/
theorem advance_like {a b : World I} (ha : Like w₀ a) (hb : Like w₀ b) {s : Shared I} {p : Path} {ph : Phase} (hp : w₀.Hides p ∨ w₀.Reached p)
    (hc : ph = .checked → ¬ w₀.Hides p) (hn : Db.Map.lookup p.normal s.files = none → a.names p.normal = b.names p.normal) :
    advance a s p ph = advance b s p ph := by
  cases ph with
  | pending =>
    have : a.leftOut p = b.leftOut p := by
      by_cases hh : w₀.Hides p
      · rw [ha.leftOut_hidden hh, hb.leftOut_hidden hh]
      · rw [ha.leftOut (hp.resolve_left hh) hh, hb.leftOut (hp.resolve_left hh) hh]
    unfold advance
    rw [this]
  | checked =>
    have hv := hc rfl
    have hr := hp.resolve_left hv
    unfold advance
    rw [ha.load p hr hv, hb.load p hr hv, (ha.isDir p hr hv).2, (hb.isDir p hr hv).2]
    cases w₀.load p with
    | error m => rfl
    | ok i =>
      cases hl : Db.Map.lookup p.normal s.files with
      | some _ => rfl
      | none => simp only [hn hl]
  | spawning rest err =>
    cases rest with
    | nil => cases err <;> rfl
    | cons n rest => rfl
  | failing m => rfl
  | ending => rfl
  | done => rfl

/-- The same world with other names in one directory. -/
def World.relist (w : World I) (d : Path) (l : List Str × Option Str) : World I := { w with names := fun q => if q = d then l else w.names q }

theorem advance_relist {d : Path} {l : List Str × Option Str} {s s' : Shared I} {p : Path} {ph ph' : Phase} {new : List Path}
    (h : advance w s p ph = some (s', ph', new)) (hs : Sorted s.files) (hd : Db.Map.lookup d s'.files = none) :
    Db.Map.lookup d s.files = none ∧ advance (w.relist d l) s p ph = some (s', ph', new) := by
  cases ph with
  | pending =>
    have he : advance (w.relist d l) s p .pending = advance w s p .pending := rfl
    refine ⟨?_, he.trans h⟩
    unfold advance at h
    simp only at h
    split at h
    · cases h; exact hd
    · cases h; exact hd
    · split at h <;> cases h <;> exact hd
  | checked =>
    unfold advance at h ⊢
    simp only [World.relist] at h ⊢
    cases hl : w.load p with
    | error m => rw [hl] at h; simp only at h; cases h; exact ⟨hd, rfl⟩
    | ok i =>
      rw [hl] at h
      simp only at h ⊢
      cases hk : Db.Map.lookup p.normal s.files with
      | some j => rw [hk] at h; simp only at h; cases h; exact ⟨hd, rfl⟩
      | none =>
        rw [hk] at h
        simp only at h ⊢
        have hfiles : s'.files = insertNew p.normal i s.files := by
          split at h <;> cases h <;> rfl
        rw [hfiles, Db.Map.lookup_none] at hd
        have hne : p.normal ≠ d := hd _ (Db.Map.insertNew_mem hs (Db.Map.lookup_none.mp hk))
        refine ⟨Db.Map.lookup_none.mpr fun x hx => hd x (Db.Map.mem_insertNew_of_mem hx), ?_⟩
        rw [if_neg hne]
        exact h
  | spawning rest err =>
    have he : advance (w.relist d l) s p (.spawning rest err) = advance w s p (.spawning rest err) := by
      cases rest with
      | nil => cases err <;> rfl
      | cons n rest => rfl
    refine ⟨?_, he.trans h⟩
    cases rest with
    | nil => cases err <;> (cases h; exact hd)
    | cons n rest => cases h; exact hd
  | failing m => cases h; exact ⟨hd, rfl⟩
  | ending => cases h; exact ⟨hd, rfl⟩
  | done => cases h

/-- The names in a directory that has not been entered do not matter. -/
theorem steps_relist (hw : w.Ok) {d : Path} {l : List Str × Option Str} {n : Nat} {s : Scan I} (h : Steps w n (Scan.init w) s) (hd : Db.Map.lookup d s.shared.files = none) :
    Steps (w.relist d l) n (Scan.init (w.relist d l)) s := by
  generalize hi : Scan.init w = s0 at h
  induction h with
  | refl => rw [← hi]; exact .refl
  | @tail n s t u hst hs ih =>
    have hinv := steps_inv hw (hi ▸ hst)
    cases hs with
    | @mk pre post p ph ph' s s' new ha =>
      obtain ⟨h1, h2⟩ := advance_relist (l := l) ha hinv.sorted hd
      exact .tail (ih h1 hi) (.mk h2)

/-- A scan of a tree that changes is a scan of some tree that does not. -/
theorem moving_steps {V : World I → Prop} (h0 : V w₀) (hV : ∀ w, V w → Like w₀ w) {n : Nat} {s : Scan I} (h : Moving V n (Scan.init w₀) s) :
    ∃ w, Like w₀ w ∧ Steps w n (Scan.init w) s ∧ ∀ d, ∃ v, V v ∧ w.names d = v.names d := by
  generalize hi : Scan.init w₀ = s0 at h
  induction h with
  | refl => rw [← hi]; exact ⟨w₀, hV _ h0, .refl, fun d => ⟨w₀, h0, rfl⟩⟩
  | @tail n s t u a hst hva hs ih =>
    obtain ⟨b, hb, hsteps, hnames⟩ := ih hi
    have ha := hV a hva
    have hinv := steps_inv hb.ok hsteps
    cases hs with
    | @mk pre post p ph ph' s s' new hadv =>
      have hmem : (p, ph) ∈ pre ++ (p, ph) :: post := by simp
      have hp := hb.back (hinv.reached _ hmem)
      have hc : ph = .checked → ¬ w₀.Hides p := by
        rintro rfl hh
        exact Passes.not_hides (hinv.loc _ hmem) ((hb.hides p).mpr hh)
      cases hl : Db.Map.lookup p.normal s.files with
      | some i =>
        refine ⟨b, hb, .tail hsteps (.mk ?_), hnames⟩
        rw [← hadv]
        exact (advance_like ha hb hp hc (by rw [hl]; simp)).symm
      | none =>
        have hb' : Like w₀ (b.relist p.normal (a.names p.normal)) := by
          refine ⟨⟨hb.ok.root, fun d => ?_, fun d => ?_⟩, hb.root, hb.recursive, hb.nameFilter, hb.dirFilter, hb.hidden, hb.isDir, hb.load, fun q n => ?_, fun q n => ?_⟩
          · simp only [World.relist]; split
            · exact ha.ok.nodup _
            · exact hb.ok.nodup _
          · simp only [World.relist]; split
            · exact ha.ok.isName _
            · exact hb.ok.isName _
          · simp only [World.relist]; split
            · rename_i e; rw [← e]; exact ha.sub q n
            · exact hb.sub q n
          · simp only [World.relist]; split
            · rename_i e; rw [← e]; exact ha.sup q n
            · exact hb.sup q n
        refine ⟨_, hb', .tail (steps_relist hb.ok hsteps hl) (.mk ?_), fun d => ?_⟩
        · rw [← hadv]
          exact (advance_like ha hb' hp hc fun _ => by simp [World.relist]).symm
        · by_cases e : d = p.normal
          · exact ⟨a, hva, by simp [World.relist, e]⟩
          · obtain ⟨v, hv, he⟩ := hnames d
            exact ⟨v, hv, by simp [World.relist, e, he]⟩

theorem names_of_ok (hw : w.Ok) {n : Nat} {s : Scan I} (h : Steps w n (Scan.init w) s) {files : List (Path × I)} (hr : takeResult s = some (.ok files)) :
    ∀ p, w.Reached p → w.Enters p → (w.names p.normal).2 = none := by
  intro p h1 h2
  cases hn : (w.names p.normal).2 with
  | none => rfl
  | some m =>
    obtain ⟨_, ht⟩ := (C50_throws hw h hr).mpr ⟨p, m, h1, .names h2 hn⟩
    cases ht

theorem takeResult_files {s : Scan I} {files : List (Path × I)} (hr : takeResult s = some (.ok files)) : files = s.shared.files := by
  unfold takeResult at hr
  split at hr
  · cases hr
  · split at hr
    · cases hr
    · injection hr with hr; injection hr with hr; exact hr.symm

/-- Messages about what is not left out, apart from those about directories that cannot be listed. -/
theorem Like.says (h : Like w₀ w) (hc : ∀ p, w₀.Reached p → w₀.Enters p → (w₀.names p.normal).2 = none) (hc' : ∀ p, w.Reached p → w.Enters p → (w.names p.normal).2 = none)
    {p : Path} {m : Str} : w.Reached p ∧ w.Says p m ↔ w₀.Reached p ∧ w₀.Says p m ∧ ¬ w₀.Hides p := by
  constructor
  · rintro ⟨h1, h2⟩
    have hv : ¬ w₀.Hides p := by
      intro hh
      rw [says_iff] at h2
      simp [World.message, h.leftOut_hidden hh] at h2
    have hr := (h.back h1).resolve_left hv
    refine ⟨hr, ?_, hv⟩
    cases h2 with
    | filter g1 g2 g3 => exact .filter (h.root ▸ g1) (h.recursive ▸ g2) ((h.isDir p hr hv).1 ▸ g3)
    | load g1 g2 => exact .load ((h.passes hr hv).mp g1) (h.load p hr hv ▸ g2)
    | isDir g1 g2 g3 => exact .isDir ((h.passes hr hv).mp g1) (h.load p hr hv ▸ g2) ((h.isDir p hr hv).2 ▸ g3)
    | names g1 g2 => rw [hc' p h1 g1] at g2; cases g2
  · rintro ⟨hr, h2, hv⟩
    have h1 := h.forth hc' hr hv
    refine ⟨h1, ?_⟩
    cases h2 with
    | filter g1 g2 g3 => exact .filter (h.root ▸ g1) (h.recursive ▸ g2) ((h.isDir p hr hv).1 ▸ g3)
    | load g1 g2 => exact .load ((h.passes hr hv).mpr g1) (h.load p hr hv ▸ g2)
    | isDir g1 g2 g3 => exact .isDir ((h.passes hr hv).mpr g1) (h.load p hr hv ▸ g2) ((h.isDir p hr hv).2 ▸ g3)
    | names g1 g2 => rw [hc p hr g1] at g2; cases g2

/-! ## C116 -/

variable {V : World I → Prop}

/-- **C116.** A scan of a tree in which only things that are left out because of their names change finds exactly the files that are there at the beginning and are not left out: these pass the filters, and
lie in directories that do so. -/
theorem C116_result (h0 : V w₀) (hV : ∀ w, V w → Like w₀ w) {n : Nat} {s : Scan I} (h : Moving V n (Scan.init w₀) s) {files : List (Path × I)}
    (hr : takeResult s = some (.ok files)) (k : Path) (i : I) :
    (k, i) ∈ files ↔ ∃ p, w₀.Reached p ∧ w₀.Passes p ∧ w₀.load p = .ok i ∧ k = p.normal := by
  obtain ⟨w, hw, hs, _⟩ := moving_steps h0 hV h
  rw [C49_result hw.ok hs hr]
  constructor
  · rintro ⟨p, h1, h2, h3, h4⟩
    have hv : ¬ w₀.Hides p := fun hh => Passes.not_hides h2 ((hw.hides p).mpr hh)
    have hrp := (hw.back h1).resolve_left hv
    exact ⟨p, hrp, (hw.passes hrp hv).mp h2, hw.load p hrp hv ▸ h3, h4⟩
  · rintro ⟨p, h1, h2, h3, h4⟩
    have hv := Passes.not_hides h2
    exact ⟨p, hw.forth (names_of_ok hw.ok hs hr) h1 hv, (hw.passes h1 hv).mpr h2, (hw.load p h1 hv).trans h3, h4⟩

/-- **C116.** Two scans that have succeeded have the same result, if one of them took place while the tree changed, and the other one before. -/
theorem C116_same (h0 : V w₀) (hV : ∀ w, V w → Like w₀ w) {n m : Nat} {s t : Scan I} (h : Moving V n (Scan.init w₀) s) (ht : Steps w₀ m (Scan.init w₀) t)
    {files files₀ : List (Path × I)} (hr : takeResult s = some (.ok files)) (hr₀ : takeResult t = some (.ok files₀)) : files = files₀ := by
  have hw₀ := (hV _ h0).ok
  obtain ⟨w, hw, hs, _⟩ := moving_steps h0 hV h
  apply sorted_ext
  · rw [takeResult_files hr]; exact (steps_inv hw.ok hs).sorted
  · rw [takeResult_files hr₀]; exact (steps_inv hw₀ ht).sorted
  · rintro ⟨k, i⟩
    rw [C116_result h0 hV h hr, C49_result hw₀ ht hr₀]

/-- **C116.** If directories can always be listed, then the scan that takes place while the tree changes fails if and only if a scan before fails. -/
theorem C116_fails (h0 : V w₀) (hV : ∀ w, V w → Like w₀ w) (hlist : ∀ w, V w → ∀ d, (w.names d).2 = none) {n m : Nat} {s t : Scan I}
    (h : Moving V n (Scan.init w₀) s) (ht : Steps w₀ m (Scan.init w₀) t) {r r₀ : Except Str (List (Path × I))} (hr : takeResult s = some r) (hr₀ : takeResult t = some r₀) :
    (∃ text, r = .error text) ↔ ∃ text, r₀ = .error text := by
  have hw₀ := hV _ h0
  obtain ⟨w, hw, hs, hn⟩ := moving_steps h0 hV h
  have hc : ∀ p, w₀.Reached p → w₀.Enters p → (w₀.names p.normal).2 = none := fun p _ _ => hlist _ h0 _
  have hc' : ∀ p, w.Reached p → w.Enters p → (w.names p.normal).2 = none := by
    intro p _ _
    obtain ⟨v, hv, e⟩ := hn p.normal
    rw [e]
    exact hlist v hv _
  rw [C50_throws hw.ok hs hr, C50_throws hw₀.ok ht hr₀]
  constructor
  · rintro ⟨p, m, hx⟩
    obtain ⟨h1, h2, _⟩ := (hw.says hc hc').mp hx
    exact ⟨p, m, h1, h2⟩
  · rintro ⟨p, m, hx⟩
    obtain ⟨h1, h2, h3⟩ := (hw₀.says hc hc).mp hx
    exact ⟨p, m, (hw.says hc hc').mpr ⟨h1, h2, h3⟩⟩

/-- **C116.** Whatever has changed during the scan, no file is loaded twice. -/
theorem C116_once (h0 : V w₀) (hV : ∀ w, V w → Like w₀ w) {n : Nat} {s : Scan I} (h : Moving V n (Scan.init w₀) s) : (s.shared.loads.map Path.normal).Nodup := by
  obtain ⟨w, hw, hs, _⟩ := moving_steps h0 hV h
  exact C49_never_twice hw.ok hs

/-- **C116.** As long as the scan has not ended, there is a task that can go on, whatever version of the tree it sees. -/
theorem C116_progress (h0 : V w₀) (hV : ∀ w, V w → Like w₀ w) {n : Nat} {s : Scan I} (h : Moving V n (Scan.init w₀) s) (hr : takeResult s = none) {v : World I} (hv : V v) :
    ∃ t, Moving V (n + 1) (Scan.init w₀) t ∧ Step v s t := by
  obtain ⟨w, hw, hs, _⟩ := moving_steps h0 hV h
  obtain ⟨⟨⟨p, ph⟩, hm, hne⟩, _⟩ := C49_progress hw.ok hs hr
  obtain ⟨pre, post, e⟩ := List.append_of_mem hm
  have : ∃ x, advance v s.shared p ph = some x := by
    cases ph with
    | pending =>
      unfold advance
      simp only
      split
      · exact ⟨_, rfl⟩
      · exact ⟨_, rfl⟩
      · split <;> exact ⟨_, rfl⟩
    | checked =>
      unfold advance
      simp only
      split
      · exact ⟨_, rfl⟩
      · split
        · exact ⟨_, rfl⟩
        · split <;> exact ⟨_, rfl⟩
    | spawning rest err =>
      cases rest with
      | nil => cases err <;> exact ⟨_, rfl⟩
      | cons n rest => exact ⟨_, rfl⟩
    | failing m => exact ⟨_, rfl⟩
    | ending => exact ⟨_, rfl⟩
    | done => exact absurd rfl hne
  obtain ⟨⟨s', ph', new⟩, ha⟩ := this
  have hst : Step v s ⟨pre ++ (p, ph') :: post ++ new.map (·, .pending), s'⟩ := by
    have hs' : s = ⟨pre ++ (p, ph) :: post, s.shared⟩ := by rw [← e]
    rw [hs']
    exact .mk ha
  exact ⟨_, .tail h hv hst, hst⟩

/-- **C116.** What a scan finds while the tree changes is what some scan before finds, if directories can be listed at the beginning, and the tree is finite. -/
theorem C116_before (h0 : V w₀) (hV : ∀ w, V w → Like w₀ w) (hlist : ∀ d, (w₀.names d).2 = none) {h : Nat} (hh : w₀.Height h w₀.root) {n : Nat} {s : Scan I}
    (hs : Moving V n (Scan.init w₀) s) {files : List (Path × I)} (hr : takeResult s = some (.ok files)) :
    ∃ m t, Steps w₀ m (Scan.init w₀) t ∧ takeResult t = some (.ok files) := by
  have hw₀ := hV _ h0
  obtain ⟨m, t, ht, hne⟩ := C49_ends hw₀.ok hh .refl
  obtain ⟨r₀, hr₀⟩ := Option.ne_none_iff_exists'.mp hne
  obtain ⟨w, hw, hsw, _⟩ := moving_steps h0 hV hs
  refine ⟨m, t, ht, ?_⟩
  cases r₀ with
  | error text =>
    exfalso
    obtain ⟨p, msg, hx⟩ := (C50_throws hw₀.ok ht hr₀).mp ⟨text, rfl⟩
    have hc : ∀ p, w₀.Reached p → w₀.Enters p → (w₀.names p.normal).2 = none := fun p _ _ => hlist _
    obtain ⟨_, he⟩ := (C50_throws hw.ok hsw hr).mpr ⟨p, msg, (hw.says hc (names_of_ok hw.ok hsw hr)).mpr ((hw₀.says hc hc).mp hx)⟩
    cases he
  | ok files₀ => rw [hr₀, C116_same h0 hV hs ht hr hr₀]

/-! ### Termination -/

/-- Below what is left out, nothing is entered. -/
theorem Like.height (hw : Like w₀ w) {h : Nat} {p : Path} (hr : w₀.Reached p) (hh : w₀.Height h p) : w.Height (h + 1) p := by
  induction h generalizing p with
  | zero => exact hh.elim
  | succ h ih =>
    intro he n hn
    have hv : ¬ w₀.Hides p := fun e => Passes.not_hides he.1 ((hw.hides p).mpr e)
    have he₀ := (hw.enters hr hv).mp he
    by_cases hx : w₀.Hides (p.normal / ⟨false, [n], false⟩)
    · exact fun he' => absurd ((hw.hides _).mpr hx) (Passes.not_hides he'.1)
    · have hm := hw.sub p n hr he₀ hn hx
      exact ih (.entry hr he₀ hm) (hh he₀ n hm)

/-- The number of steps in a tree of a given height whose directories have at most `k` entries. -/
def stepBound (k : Nat) : Nat → Nat
  | 0 => 0
  | h + 1 => 5 + k * (1 + stepBound k h)

theorem size_bound {k : Nat} (hk : ∀ d, (w.names d).1.length ≤ k) (h : Nat) (p : Path) : w.size h p ≤ stepBound k h := by
  induction h generalizing p with
  | zero => exact Nat.le_refl _
  | succ h ih =>
    rw [World.size, stepBound]
    split
    · have : ∀ l : List Str, (l.map fun n => 1 + w.size h (p.normal / ⟨false, [n], false⟩)).sum ≤ l.length * (1 + stepBound k h) := by
        intro l
        induction l with
        | nil => simp
        | cons n l ihl =>
          have := ih (p.normal / ⟨false, [n], false⟩)
          simp only [List.map_cons, List.sum_cons, List.length_cons, Nat.succ_mul]
          omega
      have h1 := this (w.names p.normal).1
      have h2 := Nat.mul_le_mul_right (1 + stepBound k h) (hk p.normal)
      omega
    · omega

/-- **C116.** The scan ends, whatever the others do: the number of its steps is limited by the height of the tree and by the number of entries of a directory. -/
theorem C116_terminates (h0 : V w₀) (hV : ∀ w, V w → Like w₀ w) {h k : Nat} (hh : w₀.Height h w₀.root) (hk : ∀ w, V w → ∀ d, (w.names d).1.length ≤ k)
    {n : Nat} {s : Scan I} (hs : Moving V n (Scan.init w₀) s) : n ≤ stepBound k (h + 1) := by
  obtain ⟨w, hw, hsw, hn⟩ := moving_steps h0 hV hs
  have hroot : w.Height (h + 1) w.root := by rw [hw.root]; exact hw.height .root hh
  have hb : ∀ d, (w.names d).1.length ≤ k := by
    intro d
    obtain ⟨v, hv, e⟩ := hn d
    rw [e]; exact hk v hv d
  have hsize := size_bound hb (h + 1) w.root
  rw [← cost_eq hroot] at hsize
  suffices hmain : n + (s.tasks.map w.left).sum ≤ w.cost w.root by omega
  generalize hi : Scan.init w = s0 at hsw
  clear hs
  induction hsw with
  | refl => rw [← hi]; simp [Scan.init, World.left]
  | tail hst hs ih =>
    have h1 := ih hi
    have h2 := step_left hroot (steps_inv hw.ok (hi ▸ hst)) hs
    omega

end Maike.Tree
