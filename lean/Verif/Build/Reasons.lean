import Verif.Build.Accept

/-!
# Why a project is not accepted (C103)

The errors that stop the loading of a project name a reason.
-/

set_option linter.unusedSectionVars false

namespace Maike.Build

open Maike.Db

variable {P : Type} [PathType P] [DecidableEq P] [Inhabited P]

/-- A target that has been declared twice, and where it has been declared before. -/
def DeclaredTwice (files : SrcList P) (name src : P) : Prop :=
  ∃ before x after y, declared files = before ++ x :: after ∧ x.1 = name ∧ y ∈ before ∧ y.1 = name ∧ y.2.sourceFilename = src

theorem collectTargetsFile_twice {src : P} {ts : List (TargetInfo P)} {m : TargetList P} {e : P × P} (hs : Map.Sorted m) (h : collectTargetsFile src ts m = .error e) :
    ∃ before x after y, declaredBy src ts = before ++ x :: after ∧ x.1 = e.1 ∧ (y ∈ m ∨ y ∈ before) ∧ y.1 = e.1 ∧ y.2.sourceFilename = e.2 := by
  induction ts generalizing m with
  | nil => simp [collectTargetsFile] at h
  | cons t ts ih =>
    simp only [collectTargetsFile] at h
    split at h
    · rename_i hne
      have hd : declaredBy src (t :: ts) = (PathType.norm t.name, ⟨src, t⟩) :: declaredBy src ts := by simp [declaredBy, hne]
      split at h
      · rename_i e1 h1
        injection h with h
        subst h
        obtain ⟨h2, y, hy, h3, h4⟩ := insertUnique_error h1
        exact ⟨[], _, _, y, by rw [hd]; rfl, h2.symm, .inl hy, h3.trans h2.symm, h4⟩
      · rename_i m1 h1
        obtain ⟨s1, _, e1⟩ := insertUnique_ok hs h1
        obtain ⟨b, x, a, y, g1, g2, g3, g4, g5⟩ := ih s1 h
        refine ⟨_ :: b, x, a, y, by rw [hd, g1]; rfl, g2, ?_, g4, g5⟩
        rcases g3 with g3 | g3
        · rcases (e1 y).mp g3 with g3 | rfl
          · exact .inl g3
          · exact .inr List.mem_cons_self
        · exact .inr (List.mem_cons_of_mem _ g3)
    · rename_i hne
      have hd : declaredBy src (t :: ts) = declaredBy src ts := by
        simp only [declaredBy, ne_eq, Classical.not_not] at hne ⊢
        simp [hne]
      rw [hd]
      exact ih hs h

theorem collectTargets_twice {files : SrcList P} {m : TargetList P} {e : P × P} (hs : Map.Sorted m) (h : collectTargets files m = .error e) :
    ∃ before x after y, declared files = before ++ x :: after ∧ x.1 = e.1 ∧ (y ∈ m ∨ y ∈ before) ∧ y.1 = e.1 ∧ y.2.sourceFilename = e.2 := by
  induction files generalizing m with
  | nil => simp [collectTargets] at h
  | cons a files ih =>
    obtain ⟨src, info⟩ := a
    have hd : declared ((src, info) :: files) = declaredBy src info.targets ++ declared files := rfl
    simp only [collectTargets] at h
    split at h
    · rename_i e1 h1
      injection h with h
      subst h
      obtain ⟨b, x, a, y, g1, g2, g3, g4, g5⟩ := collectTargetsFile_twice hs h1
      exact ⟨b, x, a ++ declared files, y, by rw [hd, g1]; simp, g2, g3, g4, g5⟩
    · rename_i m1 h1
      obtain ⟨s1, _, _, e1⟩ := collectTargetsFile_ok hs h1
      obtain ⟨b, x, a, y, g1, g2, g3, g4, g5⟩ := ih s1 h
      refine ⟨declaredBy src info.targets ++ b, x, a, y, by rw [hd, g1]; simp, g2, ?_, g4, g5⟩
      rcases g3 with g3 | g3
      · rcases (e1 y).mp g3 with g3 | g3
        · exact .inl g3
        · exact .inr (List.mem_append_left _ g3)
      · exact .inr (List.mem_append_right _ g3)

theorem info_error {files : SrcList P} {kind : P → Bool} (hl : Loadable files kind) {p : P} {i : SrcInfo P} (hi : (p, i) ∈ files) {a : P} {t : TargetInfo P} {e : LoadError P}
    (h : makeSourceFileInfo (linked files) a ⟨p, t⟩ = .error e) : e = .cyclic := by
  obtain ⟨h1, h2⟩ := C07_getNode files hl.sorted (makeGraph_ignore files) p
  cases hn : getNode (linked files) p with
  | none => exact absurd ⟨i, hi⟩ (h2.mp hn)
  | some root =>
    obtain ⟨ri, hri⟩ := (h1 root).mp hn
    obtain ⟨h3, _, _⟩ := Graph.C03_cycle_detection_from (linked files).toGraph (linked_wellFormed hl) root (List.getElem?_eq_some_iff.mp hri).1
    simp only [makeSourceFileInfo, hn] at h
    split at h
    · cases h
    · injection h with h; exact h.symm
    · rename_i o r hne1 hne2 heq
      rw [heq] at h3
      rcases h3 with h3 | h3
      · exact absurd h3 hne1
      · exact absurd h3 hne2

/-- What an error says about a project. -/
def Reason (files : SrcList P) : LoadError P → Prop
  | .unresolved a b => (∃ e, Refers files a e ∧ e.name = b) ∧ ¬ Available files b
  | .duplicateTarget name src => DeclaredTwice files name src
  | .cyclic => ∃ x ∈ files, ∃ t ∈ x.2.targets, t.name ≠ x.1 ∧ ∃ q, Uses files x.1 q ∧ InCircle files q
  | .invalidNode => False

/-- An error that stops the loading of a project is true. -/
theorem load_error {files : SrcList P} {kind : P → Bool} (hl : Loadable files kind)
    (hmade : ∀ x ∈ files, x.2.useTargetDeps = true → ∀ t ∈ x.2.targets, ¬ HasFile files t.name) {e : LoadError P} (h : load files = .error e) : Reason files e := by
  unfold load at h
  split at h
  · rename_i e1 h1
    injection h with h
    subst h
    obtain ⟨b, x, a, y, g1, g2, g3, g4, g5⟩ := collectTargets_twice (by trivial) h1
    exact ⟨b, x, a, y, g1, g2, by simpa using g3, g4, g5⟩
  · rename_i targets hc
    split at h
    · rename_i e1 h1
      injection h with h
      subst h
      have hloop : ∀ (ts : TargetList P) (m : SrcList P), makeSourceFileInfosLoop (linked files) ts m = .error e1 →
          ∃ x ∈ ts, makeSourceFileInfo (linked files) x.1 x.2 = .error e1 := by
        intro ts
        induction ts with
        | nil => intro m h; cases h
        | cons x ts ih =>
          intro m h
          simp only [makeSourceFileInfosLoop] at h
          split at h
          · rename_i e2 h2
            injection h with h
            subst h
            exact ⟨x, List.mem_cons_self, h2⟩
          · obtain ⟨y, hy, h⟩ := ih _ h
            exact ⟨y, List.mem_cons_of_mem _ hy, h⟩
      simp only [makeSourceFileInfos, makeGraph_ignore] at h1
      obtain ⟨⟨a, t⟩, ht, he⟩ := hloop _ _ h1
      obtain ⟨i, hi, hti, hne, _⟩ := (((C08_one_owner files).2 _ hc).2 a t).mp ht
      have hcyc : e1 = .cyclic := info_error hl hi he
      subst hcyc
      refine ⟨_, hi, _, hti, hne, ?_⟩
      refine Classical.byContradiction fun hno => ?_
      obtain ⟨k, hk⟩ := (info_ok_iff hl hi a t.target).mpr fun q hq hcq => hno ⟨q, hq, hcq⟩
      rw [show (⟨t.sourceFilename, t.target⟩ : Target P) = t from rfl] at hk
      rw [hk] at he
      cases he
    · rename_i files1 hm1
      simp only at h
      split at h
      · rename_i e1 hg
        injection h with h
        subst h
        have s3 := (load_cases files hl.sorted hc hm1).1
        obtain ⟨i, h1, ⟨d, hd, hn⟩, h2⟩ := C06_error_is_true _ s3 (requiredBy := e1.1) (name := e1.2) hg
        exact ⟨⟨d, (records_exact hl hc hm1 hmade h1 d).mp hd, hn⟩, fun ha => h2 ((available_iff hl hc hm1 hmade _).mpr ha)⟩
      · cases h

theorem mem_declared {files : SrcList P} {x : P × Target P} (h : x ∈ declared files) :
    ∃ i, (x.2.sourceFilename, i) ∈ files ∧ x ∈ declaredBy x.2.sourceFilename i.targets ∧ x.2.target ∈ i.targets ∧ x.2.target.name ≠ x.2.sourceFilename ∧
      x.1 = PathType.norm x.2.target.name := by
  obtain ⟨y, hy, hx⟩ := List.mem_flatMap.mp h
  have hx' := hx
  simp only [declaredBy, List.mem_map, List.mem_filter, decide_eq_true_eq] at hx
  obtain ⟨t, ⟨ht, hne⟩, rfl⟩ := hx
  exact ⟨y.2, hy, hx', ht, fun e => hne e.symm, rfl⟩

theorem declared_filter {files : SrcList P} (hs : Map.Sorted files) {p : P} {i : SrcInfo P} (hi : (p, i) ∈ files) :
    (declared files).filter (fun x => x.2.sourceFilename = p) = declaredBy p i.targets := by
  have hall : ∀ q (ts : List (TargetInfo P)), (declaredBy q ts).filter (fun x => x.2.sourceFilename = p) = if q = p then declaredBy q ts else [] := by
    intro q ts
    split
    · rename_i e
      rw [List.filter_eq_self]
      intro x hx
      simp only [declaredBy, List.mem_map] at hx
      obtain ⟨t, _, rfl⟩ := hx
      simpa using e
    · rename_i e
      rw [List.filter_eq_nil_iff]
      intro x hx
      simp only [declaredBy, List.mem_map] at hx
      obtain ⟨t, _, rfl⟩ := hx
      simpa using e
  induction files with
  | nil => cases hi
  | cons a files ih =>
    have hd : declared (a :: files) = declaredBy a.1 a.2.targets ++ declared files := rfl
    rw [hd, List.filter_append, hall]
    rcases List.mem_cons.mp hi with rfl | hi
    · have hrest : (declared files).filter (fun x => x.2.sourceFilename = p) = [] := by
        rw [List.filter_eq_nil_iff]
        intro x hx
        obtain ⟨k, hk, _⟩ := mem_declared hx
        have := hs.1 _ hk
        intro e
        have e : x.2.sourceFilename = p := by simpa using e
        rw [e, PathType.irrefl] at this
        cases this
      simp [hrest]
    · have hne : a.1 ≠ p := by
        intro e
        have := hs.1 _ hi
        rw [e, PathType.irrefl] at this
        cases this
      rw [if_neg hne, List.nil_append]
      exact ih hs.2 hi

/-- What it means that a target has been declared twice: by two files, or in two places of the same file. -/
theorem declaredTwice_spec {files : SrcList P} {kind : P → Bool} (hl : Loadable files kind) {name src : P} (h : DeclaredTwice files name src) :
    ∃ i x t t', (src, i) ∈ files ∧ x ∈ files ∧ t ∈ i.targets ∧ t' ∈ x.2.targets ∧ t.name = name ∧ t'.name = name ∧ name ≠ src ∧ name ≠ x.1 ∧
      (x.1 = src → ¬ (i.targets.map TargetInfo.name).Nodup) := by
  obtain ⟨b, x, a, y, h1, h2, h3, h4, h5⟩ := h
  have hx : x ∈ declared files := by rw [h1]; simp
  have hy : y ∈ declared files := by rw [h1]; simp [h3]
  obtain ⟨i, hi, _, hit, hin, hie⟩ := mem_declared hy
  obtain ⟨k, hk, _, hkt, hkn, hke⟩ := mem_declared hx
  rw [hl.normal _ hi _ hit, h4] at hie
  rw [hl.normal _ hk _ hkt, h2] at hke
  rw [h5] at hi hin
  refine ⟨i, _, y.2.target, x.2.target, hi, hk, hit, hkt, hie.symm, hke.symm, by rw [hie]; exact hin, by rw [hke]; exact hkn, ?_⟩
  intro e hnd
  simp only at e
  have hf := declared_filter hl.sorted hi
  rw [h1, List.filter_append, List.filter_cons_of_pos (by simpa using e)] at hf
  have hyb : y ∈ b.filter (fun x => x.2.sourceFilename = src) := by simp [h3, h5]
  have hnames : ((declaredBy src i.targets).map Prod.fst).Nodup := by
    have : (declaredBy src i.targets).map Prod.fst = (i.targets.map TargetInfo.name).filter fun n => src ≠ n := by
      have hn := hl.normal _ hi
      simp only at hn
      clear hf hit hnd
      generalize i.targets = ts at hn ⊢
      induction ts with
      | nil => rfl
      | cons t ts ih =>
        have ih := ih fun t' h => hn t' (List.mem_cons_of_mem _ h)
        simp only [declaredBy] at ih ⊢
        by_cases e : src = t.name
        · simpa [e] using ih
        · simpa [e, hn t List.mem_cons_self] using ih
    rw [this]
    exact hnd.filter _
  rw [← hf, List.map_append, List.nodup_append] at hnames
  exact hnames.2.2 y.1 (List.mem_map.mpr ⟨y, hyb, rfl⟩) x.1 (by simp) (h4.trans h2.symm)

end Maike.Build
