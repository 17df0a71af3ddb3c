import Verif.Db.Spec
import Verif.Graph.Theorems

/-! # Lemmas about the database -/

set_option linter.unusedSectionVars false

namespace Maike.Db

variable {P : Type} [PathType P] [DecidableEq P]

/-! ## Binary search -/

theorem lowerBound_spec {V : Type} {l : List (P × V)} (hs : Map.Sorted l) (x : P) (fuel first len : Nat)
    (hfuel : len ≤ fuel) (hlen : first + len ≤ l.length)
    (hlo : ∀ (i : Nat) (kv : P × V), i < first → l[i]? = some kv → PathType.lt kv.1 x = true)
    (hhi : ∀ (i : Nat) (kv : P × V), first + len ≤ i → l[i]? = some kv → PathType.lt kv.1 x = false) :
    lowerBound l x fuel first len ≤ l.length ∧
    (∀ (i : Nat) (kv : P × V), i < lowerBound l x fuel first len → l[i]? = some kv → PathType.lt kv.1 x = true) ∧
    (∀ (i : Nat) (kv : P × V), lowerBound l x fuel first len ≤ i → l[i]? = some kv → PathType.lt kv.1 x = false) := by
  induction fuel generalizing first len with
  | zero =>
    have : len = 0 := by omega
    subst this
    exact ⟨by simp only [lowerBound]; omega, hlo, by simpa [lowerBound] using hhi⟩
  | succ fuel ih =>
    rw [lowerBound]
    split
    · rename_i h
      subst h
      exact ⟨by omega, hlo, by simpa using hhi⟩
    · rename_i h
      have hmid : first + len / 2 < l.length := by omega
      have hget : l[first + len / 2]? = some l[first + len / 2] := List.getElem?_eq_getElem hmid
      simp only [hget]
      split
      · rename_i hlt
        apply ih (first + len / 2 + 1) (len - len / 2 - 1) (by omega) (by omega)
        · intro i kv hi hkv
          by_cases he : i = first + len / 2
          · subst he; rw [hget] at hkv; simp at hkv; subst hkv; exact hlt
          · have := hs.get_lt hkv hget (by omega)
            exact PathType.trans _ _ _ this hlt
        · intro i kv hi hkv
          exact hhi i kv (by omega) hkv
      · rename_i hlt
        apply ih first (len / 2) (by omega) (by omega) hlo
        intro i kv hi hkv
        by_cases he : i = first + len / 2
        · subst he; rw [hget] at hkv; simp at hkv; subst hkv; simpa using hlt
        · have h1 := hs.get_lt hget hkv (by omega)
          cases hc : PathType.lt kv.1 x
          · rfl
          · exact absurd (PathType.trans _ _ _ h1 hc) hlt

/-- `find` finds exactly the entry with the given key. -/
theorem find_eq_some {V : Type} {l : List (P × V)} (hs : Map.Sorted l) {x : P} {i : Nat} :
    find l x = some i ↔ ∃ v, l[i]? = some (x, v) := by
  obtain ⟨h1, h2, h3⟩ := lowerBound_spec hs x l.length 0 l.length (by omega) (by omega) (by omega) (by
    intro i kv hi hkv
    rw [List.getElem?_eq_none (by omega)] at hkv; cases hkv)
  unfold find
  dsimp only
  constructor
  · intro h
    split at h
    · cases h
    · rename_i kv hkv
      split at h
      · cases h
      · rename_i hlt
        simp at h
        have := PathType.tri kv.1 x (h3 _ _ (Nat.le_refl _) hkv) (by simpa using hlt)
        refine ⟨kv.2, ?_⟩
        rw [← h, hkv, ← this]
  · rintro ⟨v, hv⟩
    have hle : lowerBound l x l.length 0 l.length ≤ i := by
      apply Nat.le_of_not_lt
      intro hlt
      have := h2 i _ hlt hv
      rw [PathType.irrefl] at this; cases this
    have hil : i < l.length := (List.getElem?_eq_some_iff.mp hv).1
    have heq : lowerBound l x l.length 0 l.length = i := by
      by_cases heq : lowerBound l x l.length 0 l.length = i
      · exact heq
      · have hlt : lowerBound l x l.length 0 l.length < i := by omega
        have hg := List.getElem?_eq_getElem (l := l) (i := lowerBound l x l.length 0 l.length) (by omega)
        have hA := h3 _ _ (Nat.le_refl _) hg
        have hB := hs.get_lt hg hv hlt
        simp only at hB
        rw [hB] at hA; cases hA
    rw [heq, hv]
    simp [PathType.irrefl]

theorem find_eq_none {V : Type} {l : List (P × V)} (hs : Map.Sorted l) {x : P} :
    find l x = none ↔ ∀ kv ∈ l, kv.1 ≠ x := by
  constructor
  · intro h kv hkv e
    obtain ⟨i, hi⟩ := List.getElem?_of_mem hkv
    have := (find_eq_some hs (x := x) (i := i)).mpr ⟨kv.2, by rw [hi, ← e]⟩
    rw [h] at this; cases this
  · intro h
    cases hf : find l x with
    | none => rfl
    | some i =>
      obtain ⟨v, hv⟩ := (find_eq_some hs).mp hf
      exact absurd rfl (h _ (List.mem_of_getElem? hv))

/-! ## Construction of the graph -/

/-- A dependency with its reference filled in. -/
def link (nodes : SrcList P) (d : Dep P) : Dep P :=
  match find nodes d.name with
  | none => d
  | some i => { d with ref := some i }

def linkInfo (nodes : SrcList P) (info : SrcInfo P) : SrcInfo P :=
  { info with useDeps := info.useDeps.map (link nodes), buildDeps := info.buildDeps.map (link nodes) }

@[simp] theorem link_name (nodes : SrcList P) (d : Dep P) : (link nodes d).name = d.name := by
  unfold link; split <;> rfl

@[simp] theorem link_origin (nodes : SrcList P) (d : Dep P) : (link nodes d).origin = d.origin := by
  unfold link; split <;> rfl

@[simp] theorem link_props (nodes : SrcList P) (d : Dep P) : (link nodes d).props = d.props := by
  unfold link; split <;> rfl

theorem resolve_ok {nodes : SrcList P} {ign : Bool} {p : P} {d d' : Dep P}
    (h : resolve nodes ign p d = .ok d') :
    d' = link nodes d ∧ (ign = false → find nodes d.name ≠ none) := by
  unfold resolve at h
  split at h
  · rename_i hf
    split at h
    · rename_i hi
      simp at h; subst h
      exact ⟨by simp [link, hf], by simp [hi]⟩
    · cases h
  · rename_i i hf
    simp at h; subst h
    exact ⟨by simp [link, hf], by simp [hf]⟩

theorem resolve_error {nodes : SrcList P} {ign : Bool} {p : P} {d : Dep P} {e : P × P}
    (h : resolve nodes ign p d = .error e) :
    ign = false ∧ find nodes d.name = none ∧ e = (p, d.name) := by
  unfold resolve at h
  split at h
  · rename_i hf
    split at h
    · cases h
    · rename_i hi
      simp at h
      exact ⟨by simpa using hi, hf, h.symm⟩
  · cases h

theorem resolveDeps_ok {nodes : SrcList P} {ign : Bool} {p : P} {ds ds' : List (Dep P)}
    (h : resolveDeps nodes ign p ds = .ok ds') :
    ds' = ds.map (link nodes) ∧ (ign = false → ∀ d ∈ ds, find nodes d.name ≠ none) := by
  induction ds generalizing ds' with
  | nil => simp [resolveDeps] at h; subst h; simp
  | cons d ds ih =>
    simp only [resolveDeps] at h
    split at h
    · cases h
    · rename_i d1 h1
      split at h
      · cases h
      · rename_i ds1 h2
        simp at h; subst h
        obtain ⟨rfl, ha⟩ := resolve_ok h1
        obtain ⟨rfl, hb⟩ := ih h2
        refine ⟨rfl, fun hi x hx => ?_⟩
        simp only [List.mem_cons] at hx
        rcases hx with rfl | hx
        · exact ha hi
        · exact hb hi x hx

theorem resolveDeps_error {nodes : SrcList P} {ign : Bool} {p : P} {ds : List (Dep P)} {e : P × P}
    (h : resolveDeps nodes ign p ds = .error e) :
    ign = false ∧ ∃ d ∈ ds, find nodes d.name = none ∧ e = (p, d.name) := by
  induction ds with
  | nil => simp [resolveDeps] at h
  | cons d ds ih =>
    simp only [resolveDeps] at h
    split at h
    · rename_i e1 h1
      simp at h; subst h
      obtain ⟨a, b, c⟩ := resolve_error h1
      exact ⟨a, d, by simp, b, c⟩
    · split at h
      · rename_i e1 h2
        simp at h; subst h
        obtain ⟨a, x, hx, b⟩ := ih h2
        exact ⟨a, x, by simp [hx], b⟩
      · cases h

theorem resolveFiles_ok {nodes : SrcList P} {ign : Bool} {fs fs' : SrcList P}
    (h : resolveFiles nodes ign fs = .ok fs') :
    fs' = fs.map (fun x => (x.1, linkInfo nodes x.2)) ∧
    (ign = false → ∀ x ∈ fs, ∀ d ∈ x.2.useDeps ++ x.2.buildDeps, find nodes d.name ≠ none) := by
  induction fs generalizing fs' with
  | nil => simp [resolveFiles] at h; subst h; simp
  | cons a fs ih =>
    obtain ⟨p, info⟩ := a
    simp only [resolveFiles] at h
    split at h
    · cases h
    · rename_i use h1
      split at h
      · cases h
      · rename_i build h2
        split at h
        · cases h
        · rename_i rest h3
          simp at h; subst h
          obtain ⟨rfl, ha⟩ := resolveDeps_ok h1
          obtain ⟨rfl, hb⟩ := resolveDeps_ok h2
          obtain ⟨rfl, hc⟩ := ih h3
          refine ⟨rfl, fun hi x hx => ?_⟩
          simp only [List.mem_cons] at hx
          rcases hx with rfl | hx
          · intro d hd
            rcases List.mem_append.mp hd with hd | hd
            · exact ha hi d hd
            · exact hb hi d hd
          · exact hc hi x hx

theorem resolveFiles_error {nodes : SrcList P} {ign : Bool} {fs : SrcList P} {e : P × P}
    (h : resolveFiles nodes ign fs = .error e) :
    ign = false ∧ ∃ x ∈ fs, ∃ d ∈ x.2.useDeps ++ x.2.buildDeps,
      find nodes d.name = none ∧ e = (x.1, d.name) := by
  induction fs with
  | nil => simp [resolveFiles] at h
  | cons a fs ih =>
    obtain ⟨p, info⟩ := a
    simp only [resolveFiles] at h
    split at h
    · rename_i e1 h1
      simp at h; subst h
      obtain ⟨a, d, hd, b⟩ := resolveDeps_error h1
      exact ⟨a, (p, info), by simp, d, List.mem_append_left _ hd, b⟩
    · split at h
      · rename_i e1 h1
        simp at h; subst h
        obtain ⟨a, d, hd, b⟩ := resolveDeps_error h1
        exact ⟨a, (p, info), by simp, d, List.mem_append_right _ hd, b⟩
      · split at h
        · rename_i e1 h1
          simp at h; subst h
          obtain ⟨a, x, hx, b⟩ := ih h1
          exact ⟨a, x, by simp [hx], b⟩
        · cases h

/-- The graph made from a list of files. -/
def linked (files : SrcList P) : DepGraph P := ⟨files.map fun x => (x.1, linkInfo files x.2)⟩

theorem makeGraph_ok {files : SrcList P} {ign : Bool} {g : DepGraph P}
    (h : makeGraph files ign = .ok g) :
    g = linked files ∧
    (ign = false → ∀ x ∈ files, ∀ d ∈ x.2.useDeps ++ x.2.buildDeps, find files d.name ≠ none) := by
  unfold makeGraph at h
  split at h
  · cases h
  · rename_i fs h1
    simp at h; subst h
    obtain ⟨rfl, ha⟩ := resolveFiles_ok h1
    exact ⟨rfl, ha⟩

theorem makeGraph_error {files : SrcList P} {ign : Bool} {e : P × P}
    (h : makeGraph files ign = .error e) :
    ign = false ∧ ∃ x ∈ files, ∃ d ∈ x.2.useDeps ++ x.2.buildDeps,
      find files d.name = none ∧ e = (x.1, d.name) := by
  unfold makeGraph at h
  split at h
  · rename_i e1 h1
    simp at h; subst h
    exact resolveFiles_error h1
  · cases h

theorem makeGraph_ignore (files : SrcList P) : makeGraph files true = .ok (linked files) := by
  cases h : makeGraph files true with
  | error e => have := (makeGraph_error h).1; cases this
  | ok g => rw [(makeGraph_ok h).1]

theorem linked_sorted {files : SrcList P} (hs : Map.Sorted files) : Map.Sorted (linked files).files :=
  hs.map_val fun x => linkInfo files x.2

theorem linked_get {files : SrcList P} (k : Nat) :
    (linked files).files[k]? = (files[k]?).map fun x => (x.1, linkInfo files x.2) := by
  simp [linked]

theorem mem_linked {files : SrcList P} {x : P × SrcInfo P} :
    x ∈ (linked files).files ↔ ∃ info, (x.1, info) ∈ files ∧ x.2 = linkInfo files info := by
  simp only [linked, List.mem_map]
  constructor
  · rintro ⟨y, hy, rfl⟩; exact ⟨y.2, hy, rfl⟩
  · rintro ⟨info, h, e⟩; exact ⟨_, h, by rw [← e]⟩

/-! ## References -/

/-- Every reference in the graph is the number of the file with the name of the dependency. -/
def RefsMatch (g : DepGraph P) : Prop :=
  ∀ x ∈ g.files, ∀ d ∈ x.2.useDeps ++ x.2.buildDeps, ∀ i, d.ref = some i →
    ∃ info, g.files[i]? = some (d.name, info)

theorem linked_refsMatch {files : SrcList P} (hs : Map.Sorted files) (hu : Unresolved files) :
    RefsMatch (linked files) := by
  intro x hx d hd i hi
  obtain ⟨info, hinfo, hx2⟩ := mem_linked.mp hx
  rw [hx2] at hd
  simp only [linkInfo, ← List.map_append, List.mem_map] at hd
  obtain ⟨d0, hd0, rfl⟩ := hd
  rw [link_name]
  have hu0 := hu _ hinfo d0 hd0
  unfold link at hi
  split at hi
  · rw [hu0] at hi; cases hi
  · rename_i j hj
    simp at hi; subst hi
    obtain ⟨v, hv⟩ := (find_eq_some hs).mp hj
    exact ⟨linkInfo files v, by rw [linked_get, hv]; rfl⟩

theorem RefsMatch.wellFormed {g : DepGraph P} (h : RefsMatch g) : Graph.WellFormed g.toGraph := by
  rintro u v ⟨e, he, hv⟩
  simp only [DepGraph.toGraph] at he hv ⊢
  split at he
  · cases he
  · rename_i p info hu
    obtain ⟨i, hi⟩ := h (p, info) (List.mem_of_getElem? hu) e he v hv
    exact (List.getElem?_eq_some_iff.mp hi).1

/-! ## Target lists -/

theorem insertUnique_ok {t : TargetInfo P} {src : P} {m m' : TargetList P} (hs : Map.Sorted m)
    (h : insertUnique t src m = .ok m') :
    Map.Sorted m' ∧ (∀ y ∈ m, y.1 ≠ PathType.norm t.name) ∧
    ∀ x, x ∈ m' ↔ x ∈ m ∨ x = (PathType.norm t.name, ⟨src, t⟩) := by
  unfold insertUnique at h
  split at h
  · cases h
  · rename_i hl
    simp at h; subst h
    have hn := Map.lookup_none.mp hl
    refine ⟨Map.insertNew_sorted hs, hn, fun x => ?_⟩
    rw [Map.mem_insertNew_iff hs]
    constructor
    · rintro (h | ⟨h, _⟩)
      · exact .inl h
      · exact .inr h
    · rintro (h | h)
      · exact .inl h
      · exact .inr ⟨h, hn⟩

theorem insertUnique_error {t : TargetInfo P} {src : P} {m : TargetList P} {e : P × P}
    (h : insertUnique t src m = .error e) :
    e.1 = PathType.norm t.name ∧ ∃ y ∈ m, y.1 = PathType.norm t.name ∧ y.2.sourceFilename = e.2 := by
  unfold insertUnique at h
  split at h
  · rename_i v hl
    simp at h
    subst h
    exact ⟨rfl, _, Map.lookup_mem hl, rfl, rfl⟩
  · cases h

theorem collectTargetsFile_ok {src : P} {ts : List (TargetInfo P)} {m m' : TargetList P}
    (hs : Map.Sorted m) (h : collectTargetsFile src ts m = .ok m') :
    Map.Sorted m' ∧ ((declaredBy src ts).map Prod.fst).Nodup ∧
    (∀ y ∈ m, ∀ z ∈ declaredBy src ts, y.1 ≠ z.1) ∧
    ∀ x, x ∈ m' ↔ x ∈ m ∨ x ∈ declaredBy src ts := by
  induction ts generalizing m with
  | nil => simp [collectTargetsFile] at h; subst h; simp [declaredBy, hs]
  | cons t ts ih =>
    simp only [collectTargetsFile] at h
    split at h
    · rename_i hne
      have hd : declaredBy src (t :: ts) = (PathType.norm t.name, ⟨src, t⟩) :: declaredBy src ts := by
        simp [declaredBy, hne]
      split at h
      · cases h
      · rename_i m1 h1
        obtain ⟨s1, n1, e1⟩ := insertUnique_ok hs h1
        obtain ⟨s2, n2, d2, e2⟩ := ih s1 h
        rw [hd]
        refine ⟨s2, ?_, ?_, ?_⟩
        · simp only [List.map_cons, List.nodup_cons]
          refine ⟨?_, n2⟩
          intro hm
          obtain ⟨z, hz, hze⟩ := List.mem_map.mp hm
          exact d2 _ ((e1 _).mpr (.inr rfl)) z hz hze.symm
        · intro y hy z hz
          simp only [List.mem_cons] at hz
          rcases hz with rfl | hz
          · exact n1 y hy
          · exact d2 y ((e1 y).mpr (.inl hy)) z hz
        · intro x
          rw [e2, e1]
          simp only [List.mem_cons]
          constructor
          · rintro ((h | h) | h)
            · exact .inl h
            · exact .inr (.inl h)
            · exact .inr (.inr h)
          · rintro (h | h | h)
            · exact .inl (.inl h)
            · exact .inl (.inr h)
            · exact .inr h
    · rename_i hne
      have hd : declaredBy src (t :: ts) = declaredBy src ts := by
        simp only [declaredBy, ne_eq, Classical.not_not] at hne ⊢
        simp [hne]
      rw [hd]
      exact ih hs h

theorem collectTargetsFile_error {src : P} {ts : List (TargetInfo P)} {m : TargetList P} {e : P × P}
    (hs : Map.Sorted m) (h : collectTargetsFile src ts m = .error e) :
    ¬ (((declaredBy src ts).map Prod.fst).Nodup ∧ ∀ y ∈ m, ∀ z ∈ declaredBy src ts, y.1 ≠ z.1) := by
  induction ts generalizing m with
  | nil => simp [collectTargetsFile] at h
  | cons t ts ih =>
    simp only [collectTargetsFile] at h
    split at h
    · rename_i hne
      have hd : declaredBy src (t :: ts) = (PathType.norm t.name, ⟨src, t⟩) :: declaredBy src ts := by
        simp [declaredBy, hne]
      rw [hd]
      rintro ⟨hn, hc⟩
      simp only [List.map_cons, List.nodup_cons] at hn
      split at h
      · rename_i e1 h1
        obtain ⟨_, y, hy, hye, _⟩ := insertUnique_error h1
        exact hc y hy (PathType.norm t.name, ⟨src, t⟩) (by simp) hye
      · rename_i m1 h1
        obtain ⟨s1, n1, e1⟩ := insertUnique_ok hs h1
        apply ih s1 h
        refine ⟨hn.2, fun y hy z hz => ?_⟩
        rcases (e1 y).mp hy with hy | rfl
        · exact hc y hy z (by simp [hz])
        · intro he
          exact hn.1 (List.mem_map.mpr ⟨z, hz, he.symm⟩)
    · rename_i hne
      have hd : declaredBy src (t :: ts) = declaredBy src ts := by
        simp only [declaredBy, ne_eq, Classical.not_not] at hne ⊢
        simp [hne]
      rw [hd]
      exact ih hs h

theorem collectTargets_ok {files : SrcList P} {m m' : TargetList P}
    (hs : Map.Sorted m) (h : collectTargets files m = .ok m') :
    Map.Sorted m' ∧ ((declared files).map Prod.fst).Nodup ∧
    (∀ y ∈ m, ∀ z ∈ declared files, y.1 ≠ z.1) ∧
    ∀ x, x ∈ m' ↔ x ∈ m ∨ x ∈ declared files := by
  induction files generalizing m with
  | nil => simp [collectTargets] at h; subst h; simp [declared, hs]
  | cons a files ih =>
    obtain ⟨src, info⟩ := a
    have hd : declared ((src, info) :: files) = declaredBy src info.targets ++ declared files := rfl
    simp only [collectTargets] at h
    split at h
    · cases h
    · rename_i m1 h1
      obtain ⟨s1, n1, d1, e1⟩ := collectTargetsFile_ok hs h1
      obtain ⟨s2, n2, d2, e2⟩ := ih s1 h
      rw [hd]
      refine ⟨s2, ?_, ?_, ?_⟩
      · rw [List.map_append, List.nodup_append]
        refine ⟨n1, n2, ?_⟩
        intro a ha b hb
        obtain ⟨y, hy, rfl⟩ := List.mem_map.mp ha
        obtain ⟨z, hz, rfl⟩ := List.mem_map.mp hb
        exact d2 y ((e1 y).mpr (.inr hy)) z hz
      · intro y hy z hz
        rcases List.mem_append.mp hz with hz | hz
        · exact d1 y hy z hz
        · exact d2 y ((e1 y).mpr (.inl hy)) z hz
      · intro x
        rw [e2, e1, List.mem_append, or_assoc]

theorem collectTargets_error {files : SrcList P} {m : TargetList P} {e : P × P}
    (hs : Map.Sorted m) (h : collectTargets files m = .error e) :
    ¬ (((declared files).map Prod.fst).Nodup ∧ ∀ y ∈ m, ∀ z ∈ declared files, y.1 ≠ z.1) := by
  induction files generalizing m with
  | nil => simp [collectTargets] at h
  | cons a files ih =>
    obtain ⟨src, info⟩ := a
    have hd : declared ((src, info) :: files) = declaredBy src info.targets ++ declared files := rfl
    rw [hd, List.map_append, List.nodup_append]
    rintro ⟨⟨hn1, hn2, hn3⟩, hc⟩
    simp only [collectTargets] at h
    split at h
    · rename_i e1 h1
      exact collectTargetsFile_error hs h1 ⟨hn1, fun y hy z hz => hc y hy z (List.mem_append_left _ hz)⟩
    · rename_i m1 h1
      obtain ⟨s1, n1, d1, e1⟩ := collectTargetsFile_ok hs h1
      apply ih s1 h
      refine ⟨hn2, fun y hy z hz => ?_⟩
      rcases (e1 y).mp hy with hy | hy
      · exact hc y hy z (List.mem_append_right _ hz)
      · exact hn3 y.1 (List.mem_map.mpr ⟨y, hy, rfl⟩) z.1 (List.mem_map.mpr ⟨z, hz, rfl⟩)

/-! ## Placeholders -/

theorem insertPlaceholder_sorted {d : Dep P} {m : SrcList P} (hs : Map.Sorted m) :
    Map.Sorted (insertPlaceholder d m) := by
  unfold insertPlaceholder; split
  · exact Map.insertNew_sorted hs
  · exact hs

/-- `m'` extends `m` by placeholders for external dependencies among `ds`, and has an entry for each of
them. -/
structure Covers (ds : List (Dep P)) (m m' : SrcList P) : Prop where
  sorted : Map.Sorted m'
  keep : ∀ x ∈ m, x ∈ m'
  new : ∀ x ∈ m', x ∈ m ∨ ∃ d ∈ ds, isExternal d.origin = true ∧ x = (d.name, { origin := d.origin })
  cover : ∀ d ∈ ds, isExternal d.origin = true → ∃ info, (d.name, info) ∈ m'

theorem Covers.nil' {m : SrcList P} (hs : Map.Sorted m) : Covers [] m m :=
  ⟨hs, fun _ h => h, fun _ h => .inl h, by simp⟩

theorem Covers.trans {a b : List (Dep P)} {m m1 m2 : SrcList P} (h1 : Covers a m m1)
    (h2 : Covers b m1 m2) : Covers (a ++ b) m m2 := by
  refine ⟨h2.sorted, fun x hx => h2.keep x (h1.keep x hx), fun x hx => ?_, fun d hd he => ?_⟩
  · rcases h2.new x hx with h | ⟨d, hd, h⟩
    · rcases h1.new x h with h | ⟨d, hd, h⟩
      · exact .inl h
      · exact .inr ⟨d, List.mem_append_left _ hd, h⟩
    · exact .inr ⟨d, List.mem_append_right _ hd, h⟩
  · rcases List.mem_append.mp hd with hd | hd
    · obtain ⟨i, hi⟩ := h1.cover d hd he
      exact ⟨i, h2.keep _ hi⟩
    · exact h2.cover d hd he

theorem insertPlaceholder_covers {d : Dep P} {m : SrcList P} (hs : Map.Sorted m) :
    Covers [d] m (insertPlaceholder d m) := by
  refine ⟨insertPlaceholder_sorted hs, fun x hx => ?_, fun x hx => ?_, fun d' hd' he => ?_⟩
  · unfold insertPlaceholder; split
    · exact Map.mem_insertNew_of_mem hx
    · exact hx
  · unfold insertPlaceholder at hx
    split at hx
    · rename_i he
      rcases Map.mem_insertNew hx with h | h
      · exact .inr ⟨d, by simp, he, h⟩
      · exact .inl h
    · exact .inl hx
  · simp at hd'; subst hd'
    unfold insertPlaceholder
    rw [if_pos he]
    by_cases hp : ∃ y ∈ m, y.1 = d'.name
    · obtain ⟨y, hy, hye⟩ := hp
      refine ⟨y.2, Map.mem_insertNew_of_mem ?_⟩
      rw [← hye]; exact hy
    · exact ⟨_, Map.insertNew_mem hs fun y hy e => hp ⟨y, hy, e⟩⟩

theorem insertPlaceholders_covers {ds : List (Dep P)} {m : SrcList P} (hs : Map.Sorted m) :
    Covers ds m (insertPlaceholders ds m) := by
  induction ds generalizing m with
  | nil => exact Covers.nil' hs
  | cons d ds ih =>
    have h1 := insertPlaceholder_covers (d := d) hs
    exact Covers.trans h1 (ih h1.sorted)

theorem insertPlaceholdersTargets_covers {ts : List (TargetInfo P)} {m : SrcList P} (hs : Map.Sorted m) :
    Covers (ts.flatMap fun t => t.useDeps) m (insertPlaceholdersTargets ts m) := by
  induction ts generalizing m with
  | nil => exact Covers.nil' hs
  | cons t ts ih =>
    have h1 := insertPlaceholders_covers (ds := t.useDeps) hs
    exact Covers.trans h1 (ih h1.sorted)

theorem insertPlaceholdersFile_covers {info : SrcInfo P} {m : SrcList P} (hs : Map.Sorted m) :
    Covers (extDeps info) m (insertPlaceholdersFile info m) := by
  have h1 := insertPlaceholdersTargets_covers (ts := info.targets) hs
  exact Covers.trans h1 (insertPlaceholders_covers h1.sorted)

theorem createPlaceholders_covers {files : SrcList P} {m : SrcList P} (hs : Map.Sorted m) :
    Covers (files.flatMap fun x => extDeps x.2) m (createPlaceholders files m) := by
  induction files generalizing m with
  | nil => exact Covers.nil' hs
  | cons a files ih =>
    obtain ⟨p, info⟩ := a
    have h1 := insertPlaceholdersFile_covers (info := info) hs
    exact Covers.trans h1 (ih h1.sorted)

end Maike.Db
