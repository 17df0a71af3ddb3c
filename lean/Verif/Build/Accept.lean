import Verif.Build.Edges

/-!
# Which projects are accepted (C102)

A source tree can be loaded and its tasks can be put into order if, and only if, no target has two sources, everything that is needed is there, and no file depends on itself.
-/

set_option linter.unusedSectionVars false

namespace Maike.Build

open Maike.Db

variable {P : Type} [PathType P] [DecidableEq P] [Inhabited P]

/-! ## Specification -/

/-- There is something of that name: a file, a target of some file, or something from outside of the project that is depended on under that name. -/
inductive Available (files : SrcList P) : P → Prop
  | file {b : P} : HasFile files b → Available files b
  | target {x : P × SrcInfo P} {t : TargetInfo P} : x ∈ files → t ∈ x.2.targets → Available files t.name
  | outside {a : P} {e : Dep P} : Refers files a e → isExternal e.origin = true → Available files e.name
  | outsideTarget {x : P × SrcInfo P} {t : TargetInfo P} {e : Dep P} : x ∈ files → t ∈ x.2.targets → e ∈ t.useDeps → isExternal e.origin = true → Available files e.name

/-- No name is the name of two targets. A target with the name of its source is not taken into account. -/
def OneSource (files : SrcList P) : Prop :=
  (∀ x ∈ files, ((x.2.targets.map TargetInfo.name).filter fun n => x.1 ≠ n).Nodup) ∧
  ∀ x ∈ files, ∀ y ∈ files, ∀ t ∈ x.2.targets, ∀ t' ∈ y.2.targets, t.name = t'.name → t.name ≠ x.1 → t'.name ≠ y.1 → x.1 = y.1

/-- The file uses itself, through other files that have been found. -/
def InCircle (files : SrcList P) (q : P) : Prop := ∃ r i d, Uses files q r ∧ (r, i) ∈ files ∧ d ∈ i.useDeps ∧ d.name = q

/-- What is found out when a project is loaded. -/
structure Loadworthy (files : SrcList P) : Prop where
  oneSource : OneSource files
  known : ∀ a e, Refers files a e → Available files e.name
  noCircle : ∀ x ∈ files, ∀ t ∈ x.2.targets, t.name ≠ x.1 → ∀ q, Uses files x.1 q → ¬ InCircle files q

/-- A project without contradictions. -/
structure Constructible (files : SrcList P) : Prop where
  oneSource : OneSource files
  known : ∀ a e, Refers files a e → Available files e.name
  acyclic : ∀ a, ¬ Chain files a a

/-! ## Proof -/

theorem oneSource_iff {files : SrcList P} {kind : P → Bool} (hl : Loadable files kind) : ((declared files).map Prod.fst).Nodup ↔ OneSource files := by
  have hpart : ∀ x ∈ files, (declaredBy x.1 x.2.targets).map Prod.fst = (x.2.targets.map TargetInfo.name).filter fun n => x.1 ≠ n := by
    intro x hx
    have hn := hl.normal x hx
    revert hn
    generalize x.2.targets = ts
    intro hn
    induction ts with
    | nil => rfl
    | cons t ts ih =>
      have ih := ih fun t' h => hn t' (List.mem_cons_of_mem _ h)
      simp only [declaredBy] at ih ⊢
      by_cases e : x.1 = t.name
      · simpa [e] using ih
      · simpa [e, hn t List.mem_cons_self] using ih
  have hd : ∀ l : SrcList P, (∀ x ∈ l, x ∈ files) → Map.Sorted l → (((declared l).map Prod.fst).Nodup ↔ OneSource l) := by
    intro l
    induction l with
    | nil => intro _ _; simp [declared, OneSource]
    | cons x l ih =>
      intro hin hs
      have ih := ih (fun y hy => hin y (List.mem_cons_of_mem _ hy)) hs.2
      have e : (declared (x :: l)).map Prod.fst = ((x.2.targets.map TargetInfo.name).filter fun n => x.1 ≠ n) ++ (declared l).map Prod.fst := by
        simp only [declared, List.flatMap_cons, List.map_append]
        rw [hpart x (hin x List.mem_cons_self)]
      have hmem : ∀ n, n ∈ (declared l).map Prod.fst ↔ ∃ y ∈ l, ∃ t ∈ y.2.targets, t.name = n ∧ n ≠ y.1 := by
        intro n
        simp only [declared, List.map_flatMap, List.mem_flatMap]
        constructor
        · rintro ⟨y, hy, h⟩
          rw [hpart y (hin y (List.mem_cons_of_mem _ hy))] at h
          simp only [List.mem_filter, List.mem_map, decide_eq_true_eq] at h
          obtain ⟨⟨t, ht, rfl⟩, hne⟩ := h
          exact ⟨y, hy, t, ht, rfl, fun e => hne e.symm⟩
        · rintro ⟨y, hy, t, ht, rfl, hne⟩
          refine ⟨y, hy, ?_⟩
          rw [hpart y (hin y (List.mem_cons_of_mem _ hy))]
          simp only [List.mem_filter, List.mem_map, decide_eq_true_eq]
          exact ⟨⟨t, ht, rfl⟩, fun e => hne e.symm⟩
      have hne : ∀ y ∈ l, x.1 ≠ y.1 := by
        intro y hy e
        have := hs.1 y hy
        rw [e] at this
        rw [PathType.irrefl] at this; cases this
      rw [e, List.nodup_append, ih]
      constructor
      · rintro ⟨h1, ⟨h2, h3⟩, h4⟩
        refine ⟨fun y hy => ?_, fun y hy z hz t ht t' ht' he n1 n2 => ?_⟩
        · rcases List.mem_cons.mp hy with rfl | hy
          · exact h1
          · exact h2 y hy
        · have hhead : ∀ {t t' : TargetInfo P} {z : P × SrcInfo P}, t ∈ x.2.targets → t.name ≠ x.1 → z ∈ l → t' ∈ z.2.targets → t'.name ≠ z.1 → t.name ≠ t'.name := by
            intro t t' z ht n1 hz ht' n2
            exact h4 t.name (by simp only [List.mem_filter, List.mem_map, decide_eq_true_eq]; exact ⟨⟨t, ht, rfl⟩, fun e => n1 e.symm⟩) t'.name
              ((hmem _).mpr ⟨z, hz, t', ht', rfl, n2⟩)
          rcases List.mem_cons.mp hy with rfl | hyl
          · rcases List.mem_cons.mp hz with rfl | hz
            · rfl
            · exact absurd he (hhead ht n1 hz ht' n2)
          · rcases List.mem_cons.mp hz with e | hz
            · subst e; exact absurd he.symm (hhead ht' n2 hyl ht n1)
            · exact h3 y hyl z hz t ht t' ht' he n1 n2
      · rintro ⟨h1, h2⟩
        refine ⟨h1 x List.mem_cons_self, ⟨fun y hy => h1 y (List.mem_cons_of_mem _ hy),
          fun y hy z hz => h2 y (List.mem_cons_of_mem _ hy) z (List.mem_cons_of_mem _ hz)⟩, ?_⟩
        intro n hn m hm e
        subst e
        simp only [List.mem_filter, List.mem_map, decide_eq_true_eq] at hn
        obtain ⟨⟨t, ht, rfl⟩, n1⟩ := hn
        obtain ⟨y, hy, t', ht', he, n2⟩ := (hmem _).mp hm
        exact hne y hy (h2 x List.mem_cons_self y (List.mem_cons_of_mem _ hy) t ht t' ht' he.symm (fun e => n1 e.symm) (by rw [he]; exact n2))
  exact hd files (fun _ => id) hl.sorted

theorem adj_uses {files : SrcList P} (hs : Map.Sorted files) (hu : Unresolved files) (hb : ∀ x ∈ files, x.2.buildDeps = [])
    {v w : Nat} {q : P} {k : SrcInfo P} (hv : files[v]? = some (q, k)) (hadj : Graph.Adj (linked files).toGraph v w) :
    ∃ d ∈ k.useDeps, ∃ k', files[w]? = some (d.name, k') := by
  obtain ⟨e, he, hr⟩ := hadj
  have hq' : (q, k) ∈ files := List.mem_of_getElem? hv
  simp only [DepGraph.toGraph, linked_get, hv, Option.map_some, linkInfo, ← List.map_append] at he hr
  obtain ⟨d, hd, rfl⟩ := List.mem_map.mp he
  have hur := hu _ hq' d hd
  have hb' : k.buildDeps = [] := hb _ hq'
  simp only [hb', List.append_nil] at hd
  unfold link at hr
  split at hr
  · rw [hur] at hr; cases hr
  · rename_i j hj
    simp only [Option.some.injEq] at hr
    subst hr
    obtain ⟨k', hk'⟩ := (find_eq_some hs).mp hj
    exact ⟨d, hd, k', hk'⟩

theorem useChain_chain {files : SrcList P} {p q : P} (h : Uses files p q) : q = p ∨ Chain files p q := by
  induction h with
  | refl => exact .inl rfl
  | step _ h1 h2 _ ih =>
    rcases ih with rfl | ih
    · exact .inr (.single (.use h1 h2))
    · exact .inr (.tail ih (.use h1 h2))

theorem linked_wellFormed {files : SrcList P} {kind : P → Bool} (hl : Loadable files kind) : Graph.WellFormed (linked files).toGraph := by
  intro v w hvw
  have hv : v < files.length := by
    obtain ⟨e, he, _⟩ := hvw
    cases hv : files[v]? with
    | none => simp [DepGraph.toGraph, linked_get, hv] at he
    | some y => exact (List.getElem?_eq_some_iff.mp hv).1
  obtain ⟨⟨q, k⟩, hq⟩ : ∃ y, files[v]? = some y := ⟨_, List.getElem?_eq_some_iff.mpr ⟨hv, rfl⟩⟩
  obtain ⟨_, _, k', hk'⟩ := adj_uses hl.sorted hl.unresolved hl.noBuildDeps hq hvw
  have := (List.getElem?_eq_some_iff.mp hk').1
  simpa [DepGraph.toGraph, linked] using this

/-- A record can be made for a target if its source leads to no circle. -/
theorem info_ok_iff {files : SrcList P} {kind : P → Bool} (hl : Loadable files kind) {p : P} {i : SrcInfo P} (hi : (p, i) ∈ files) (a : P) (t : TargetInfo P) :
    (∃ k, makeSourceFileInfo (linked files) a ⟨p, t⟩ = .ok k) ↔ ∀ q, Uses files p q → ¬ InCircle files q := by
  have hg := makeGraph_ignore files
  have hf : HasFile files p := ⟨i, hi⟩
  obtain ⟨h1, h2⟩ := C07_getNode files hl.sorted hg p
  cases hn : getNode (linked files) p with
  | none => exact absurd hf (h2.mp hn)
  | some root =>
    obtain ⟨ri, hri⟩ := (h1 root).mp hn
    have hlt : root < (linked files).toGraph.size := (List.getElem?_eq_some_iff.mp hri).1
    rw [linked_get] at hri
    obtain ⟨x, hx, hx'⟩ := Option.map_eq_some_iff.mp hri
    simp only [Prod.mk.injEq] at hx'
    have hroot : files[root]? = some (p, x.2) := by rw [hx, ← hx'.1]
    obtain ⟨h3, h4, _⟩ := Graph.C03_cycle_detection_from (linked files).toGraph (linked_wellFormed hl) root hlt
    have hcirc : (Graph.processGraphNodeRecursive (linked files).toGraph root).1 = .cyclic ↔ ∃ q, Uses files p q ∧ InCircle files q := by
      rw [h4]
      constructor
      · rintro ⟨c, hrc, w, hcw, hwc⟩
        obtain ⟨q, k, hq, hpq⟩ := reach_uses hl.sorted hl.unresolved hl.noBuildDeps hroot hrc
        obtain ⟨q', k', hq', huse⟩ := reach_uses hl.sorted hl.unresolved hl.noBuildDeps hq hcw
        obtain ⟨e, he, k'', hk''⟩ := adj_uses hl.sorted hl.unresolved hl.noBuildDeps hq' hwc
        rw [hq] at hk''
        injection hk'' with hk''
        injection hk'' with hk'' _
        exact ⟨q, hpq, q', k', e, huse, List.mem_of_getElem? hq', he, hk''.symm⟩
      · rintro ⟨q, hpq, r, k', e, huse, hr, he, rfl⟩
        obtain ⟨c, k, hc, hrc⟩ := uses_reach hl.sorted hroot hpq
        obtain ⟨w, kw, hw, hcw⟩ := uses_reach hl.sorted hc huse
        have := hl.sorted.unique hr (List.mem_of_getElem? hw)
        subst this
        refine ⟨c, hrc, w, hcw, link files e, ?_, ?_⟩
        · simp only [DepGraph.toGraph, linked_get, hw, Option.map_some, linkInfo, ← List.map_append]
          exact List.mem_map.mpr ⟨e, List.mem_append_left _ he, rfl⟩
        · have : find files e.name = some c := (find_eq_some hl.sorted).mpr ⟨k, hc⟩
          simp [DepGraph.toGraph, link, this]
    simp only [makeSourceFileInfo, hn]
    generalize hr : Graph.processGraphNodeRecursive (linked files).toGraph root = r at h3 hcirc
    obtain ⟨r1, r2⟩ := r
    simp only at h3 hcirc
    rcases h3 with rfl | rfl
    · simp only [reduceCtorEq, false_iff, not_exists, not_and] at hcirc
      exact ⟨fun _ => hcirc, fun _ => ⟨_, rfl⟩⟩
    · obtain ⟨q, hq1, hq2⟩ := hcirc.mp rfl
      exact ⟨fun ⟨_, h⟩ => (by cases h), fun h => absurd hq2 (h q hq1)⟩

/-- Without circles, records can be made for all targets. -/
theorem infos_ok_iff {files : SrcList P} {kind : P → Bool} (hl : Loadable files kind) {targets : TargetList P} (hc : collectTargets files [] = .ok targets) :
    (∃ files1, makeSourceFileInfos targets files = .ok files1) ↔
      ∀ x ∈ files, ∀ t ∈ x.2.targets, t.name ≠ x.1 → ∀ q, Uses files x.1 q → ¬ InCircle files q := by
  have hg := makeGraph_ignore files
  have hloop : ∀ (ts : TargetList P) (m : SrcList P), (∃ m', makeSourceFileInfosLoop (linked files) ts m = .ok m') ↔
      ∀ x ∈ ts, ∃ k, makeSourceFileInfo (linked files) x.1 x.2 = .ok k := by
    intro ts
    induction ts with
    | nil => intro m; simp [makeSourceFileInfosLoop]
    | cons x ts ih =>
      intro m
      simp only [makeSourceFileInfosLoop]
      cases hk : makeSourceFileInfo (linked files) x.1 x.2 with
      | error e => simp [hk]
      | ok k => simp [hk, ih]
  simp only [makeSourceFileInfos, hg, hloop]
  constructor
  · intro h x hx t ht hne
    have hT := (((C08_one_owner files).2 _ hc).2 t.name ⟨x.1, t⟩).mpr ⟨x.2, hx, ht, hne, (hl.normal _ hx t ht).symm⟩
    exact (info_ok_iff hl hx _ t).mp (h _ hT)
  · rintro h ⟨a, t⟩ ht
    obtain ⟨i, hi, hti, hne, _⟩ := (((C08_one_owner files).2 _ hc).2 a t).mp ht
    exact (info_ok_iff hl hi _ t.target).mpr (h _ hi _ hti hne)

theorem circle_chain {files : SrcList P} {q : P} (h : InCircle files q) : Chain files q q := by
  obtain ⟨r, i, d, h1, h2, h3, rfl⟩ := h
  rcases useChain_chain h1 with e | h1
  · have := Chain.single (Refers.use h2 h3)
    rw [e] at this; exact this
  · exact .tail h1 (.use h2 h3)

/-- What has a record. -/
theorem available_iff {files : SrcList P} {kind : P → Bool} (hl : Loadable files kind) {targets : TargetList P} (hc : collectTargets files [] = .ok targets)
    {files1 : SrcList P} (hm1 : makeSourceFileInfos targets files = .ok files1)
    (hmade : ∀ x ∈ files, x.2.useTargetDeps = true → ∀ t ∈ x.2.targets, ¬ HasFile files t.name) (b : P) :
    HasFile (addTargetDepsToSourceFiles (Map.mergeNew files1 (createPlaceholders files1 []))) b ↔ Available files b := by
  obtain ⟨_, s1, hkeys⟩ := load_cases files hl.sorted hc hm1
  rw [hkeys]
  obtain ⟨g1, hg1, _, hmem1⟩ := C09_generated_entries files hl.sorted (C08_one_owner files |>.2 _ hc |>.1) hm1
  obtain ⟨s2, hkeep, hnew, hcov⟩ := placeholders_merged files1 s1
  have hentry : ∀ {p i t}, (p, i) ∈ files → t ∈ i.targets → ¬ HasFile files t.name →
      ∃ k, (t.name, k) ∈ files1 ∧ ∀ d, d ∈ k.useDeps ↔ LinkDep files p t d := by
    intro p i t hp ht hn
    obtain ⟨hT, k, hk⟩ := target_listed hl hc hm1 hp ht hn
    refine ⟨k, hk, ?_⟩
    rcases (hmem1 _).mp hk with hf | ⟨t', k', ht', hk', hki, _⟩
    · exact absurd ⟨_, hf⟩ hn
    · simp only at ht' hk' hki
      subst hki
      have := (C08_one_owner files |>.2 _ hc |>.1).unique hT ht'
      subst this
      obtain ⟨_, _, _, _, _, _, huse⟩ := generated_deps hl hc hg1 hT hk'
      exact huse
  constructor
  · rintro ⟨i, hi⟩
    rcases hnew b i hi with hb | ⟨_, ⟨c, ic⟩, hx, e, he, hext, rfl, _⟩
    · rcases (hmem1 _).mp hb with hf | ⟨t, k, ht, hk, _⟩
      · exact .file ⟨i, hf⟩
      · simp only at ht hk
        obtain ⟨i0, h0, ht0, hb, _⟩ := generated_deps hl hc hg1 ht hk
        rw [hb]
        exact .target h0 ht0
    · rcases (hmem1 _).mp hx with hf | ⟨t, k, ht, hk, hkc, hnf⟩
      · simp only [extDeps, List.mem_append, List.mem_flatMap] at he
        rcases he with ⟨t, ht, he⟩ | he
        · exact .outsideTarget hf ht he hext
        · exact .outside (.use hf he) hext
      · simp only at ht hk hkc hnf
        subst hkc
        obtain ⟨i0, h0, ht0, hb, _, _, huse⟩ := generated_deps hl hc hg1 ht hk
        have htg : ic.targets = [] := (C09_generated_entry files hl.sorted hl.unresolved hg1 hk).2.1
        simp only [extDeps, htg, List.flatMap_nil, List.nil_append] at he
        exact .outside (.link h0 ht0 (by rw [← hb]; exact hnf) ((huse e).mp he)) hext
  · intro h
    have hfile : ∀ {b : P}, HasFile files b → HasFile (Map.mergeNew files1 (createPlaceholders files1 [])) b := by
      rintro b ⟨i, hi⟩
      exact ⟨i, hkeep _ ((hmem1 _).mpr (.inl hi))⟩
    cases h with
    | file h => exact hfile h
    | @target x t hx ht =>
      by_cases hn : HasFile files t.name
      · exact hfile hn
      · obtain ⟨k, hk, _⟩ := hentry hx ht hn
        exact ⟨k, hkeep _ hk⟩
    | @outside a e hr hext =>
      cases hr with
      | use h1 h2 => exact hcov _ ((hmem1 _).mpr (.inl h1)) e (by simp [extDeps, h2]) hext
      | source h1 h2 h3 => simp [isExternal] at hext
      | link h1 h2 h3 h4 =>
        obtain ⟨k, hk, huse⟩ := hentry h1 h2 h3
        exact hcov _ hk e (by simp [extDeps, (huse e).mpr h4]) hext
      | ofTarget h1 h2 h3 h4 =>
        obtain ⟨k, hk, huse⟩ := hentry h1 h3 (hmade _ h1 h2 _ h3)
        exact hcov _ hk e (by simp [extDeps, (huse e).mpr h4]) hext
    | @outsideTarget x t e hx ht he hext =>
      exact hcov _ ((hmem1 _).mpr (.inl hx)) e (by simp only [extDeps, List.mem_append, List.mem_flatMap]; exact .inl ⟨t, ht, he⟩) hext

/-- What has something that it depends on has a record. -/
theorem available_source {files : SrcList P} {a : P} {e : Dep P} (he : Refers files a e) : Available files a := by
  cases he with
  | use h1 _ => exact .file ⟨_, h1⟩
  | source h1 h2 _ => exact .target h1 h2
  | link h1 h2 _ _ => exact .target h1 h2
  | ofTarget h1 _ _ _ => exact .file ⟨_, h1⟩

/-- A project can be loaded if, and only if, no target has two sources, everything that is needed is there, and no file that leads to a target leads to a
circle of files. -/
theorem loads_iff {files : SrcList P} {kind : P → Bool} (hl : Loadable files kind)
    (hmade : ∀ x ∈ files, x.2.useTargetDeps = true → ∀ t ∈ x.2.targets, ¬ HasFile files t.name) :
    (∃ tree, load files = .ok tree) ↔ Loadworthy files := by
  constructor
  · rintro ⟨tree, h⟩
    obtain ⟨files1, files3, hc, hm1, h3, hg, s3⟩ := load_ok hl.sorted h
    subst h3
    refine ⟨(oneSource_iff hl).mp ((C08_one_owner files).1.mp ⟨_, hc⟩), ?_, (infos_ok_iff hl hc).mp ⟨_, hm1⟩⟩
    intro a e he
    obtain ⟨i3, hi3⟩ := (available_iff hl hc hm1 hmade a).mpr (available_source he)
    exact (available_iff hl hc hm1 hmade _).mp ((C06_fails_iff_broken _ s3).mp ⟨_, hg⟩ _ hi3 e ((records_exact hl hc hm1 hmade hi3 e).mpr he))
  · rintro ⟨h1, h2, h3⟩
    obtain ⟨targets, hc⟩ := (C08_one_owner files).1.mpr ((oneSource_iff hl).mpr h1)
    obtain ⟨files1, hm1⟩ := (infos_ok_iff hl hc).mpr h3
    have s3 := (load_cases files hl.sorted hc hm1).1
    obtain ⟨g, hg⟩ := (C06_fails_iff_broken _ s3).mpr fun x hx e he =>
      (available_iff hl hc hm1 hmade _).mpr (h2 x.1 e ((records_exact hl hc hm1 hmade hx e).mp he))
    exact ⟨⟨targets, g⟩, by simp only [load, hc, hm1, hg]⟩

/-- What is known has a node. -/
theorem available_node {files : SrcList P} {kind : P → Bool} (hl : Loadable files kind)
    (hmade : ∀ x ∈ files, x.2.useTargetDeps = true → ∀ t ∈ x.2.targets, ¬ HasFile files t.name) {tree : SourceTree P} (h : load files = .ok tree) {a : P}
    (ha : Available files a) : ∃ u, tree.graph.PathOf u a := by
  obtain ⟨files1, files3, hc, hm1, h3, hg, s3⟩ := load_ok hl.sorted h
  subst h3
  have hf := (available_iff hl hc hm1 hmade a).mpr ha
  obtain ⟨h1, h2⟩ := C07_getNode _ s3 hg a
  cases hn : getNode tree.graph a with
  | none => exact absurd hf (h2.mp hn)
  | some u => exact ⟨u, (h1 u).mp hn⟩

theorem chain_start {files : SrcList P} {a b : P} (h : Chain files a b) : ∃ e, Refers files a e := by
  induction h with
  | single h => exact ⟨_, h⟩
  | tail _ _ ih => exact ih

/-- Circles in the graph are circles of dependencies. -/
theorem onCycle_iff {files : SrcList P} {kind : P → Bool} (hl : Loadable files kind)
    (hmade : ∀ x ∈ files, x.2.useTargetDeps = true → ∀ t ∈ x.2.targets, ¬ HasFile files t.name) {tree : SourceTree P} (h : load files = .ok tree) {u : Nat} {a : P}
    (hu : tree.graph.PathOf u a) : Graph.OnCycle tree.graph.toGraph u ↔ Chain files a a := by
  obtain ⟨files1, files3, hc, hm1, h3, hg, s3⟩ := load_ok hl.sorted h
  constructor
  · intro hcyc
    obtain ⟨b, hb, hpb⟩ := (chain_exact hl h hmade hu).1 u hcyc
    obtain ⟨i, hi⟩ := hu
    obtain ⟨i', hi'⟩ := hpb
    rw [hi] at hi'
    injection hi' with hi'
    injection hi' with hi' _
    subst hi'
    exact hb
  · intro ha
    obtain ⟨v, hv, hpv⟩ := (chain_exact hl h hmade hu).2 a ha
    have := path_unique (sorted_of_keys (C06_resolved _ s3 hg).1 s3) hpv hu
    subst this
    exact hv

/-- Tasks for everything can be made if, and only if, no file depends on itself. -/
theorem tasks_iff {files : SrcList P} {kind : P → Bool} (hl : Loadable files kind)
    (hmade : ∀ x ∈ files, x.2.useTargetDeps = true → ∀ t ∈ x.2.targets, ¬ HasFile files t.name) {tree : SourceTree P} (h : load files = .ok tree) :
    (taskListAll tree.graph).1 = .ok ↔ ∀ a, ¬ Chain files a a := by
  obtain ⟨files1, files3, hc, hm1, h3, hg, s3⟩ := load_ok hl.sorted h
  rw [(C21_all_tasks _ s3 hg).1]
  constructor
  · intro hnc a ha
    obtain ⟨e, he⟩ := chain_start ha
    obtain ⟨u, hu⟩ := available_node hl hmade h (available_source he)
    exact hnc ⟨u, by obtain ⟨i, hi⟩ := hu; exact (List.getElem?_eq_some_iff.mp hi).1, (onCycle_iff hl hmade h hu).mpr ha⟩
  · rintro hac ⟨c, hcs, hcyc⟩
    obtain ⟨p, hp, _⟩ := (C07_ids _ s3 hg).2.1 c hcs
    exact hac p ((onCycle_iff hl hmade h hp).mp hcyc)

/-- Tasks for what is made from one file can be made if, and only if, it leads to no file that depends on itself. -/
theorem tasksFor_iff {files : SrcList P} {kind : P → Bool} (hl : Loadable files kind)
    (hmade : ∀ x ∈ files, x.2.useTargetDeps = true → ∀ t ∈ x.2.targets, ¬ HasFile files t.name) {tree : SourceTree P} (h : load files = .ok tree) {p : P} (hp : HasFile files p) :
    (taskListFor tree.graph p).1 = .ok ↔ ∀ a, a = p ∨ Chain files p a → ¬ Chain files a a := by
  obtain ⟨files1, files3, hc, hm1, h3, hg, s3⟩ := load_ok hl.sorted h
  obtain ⟨u, hu⟩ := available_node hl hmade h (.file hp)
  rw [(C21_single_target _ s3 hg hu).1]
  constructor
  · rintro hnc a (rfl | ha) hcyc
    · exact hnc ⟨u, .refl u, (onCycle_iff hl hmade h hu).mpr hcyc⟩
    · obtain ⟨v, hv, hpv⟩ := (chain_exact hl h hmade hu).2 a ha
      exact hnc ⟨v, hv.toReach, (onCycle_iff hl hmade h hpv).mpr hcyc⟩
  · rintro hac ⟨c, hr, hcyc⟩
    cases hr with
    | refl => exact hac p (.inl rfl) ((onCycle_iff hl hmade h hu).mp hcyc)
    | tail h1 h2 =>
      obtain ⟨b, hb, hpb⟩ := (chain_exact hl h hmade hu).1 c ⟨_, h1, h2⟩
      exact hac b (.inr hb) ((onCycle_iff hl hmade h hpb).mp hcyc)

/-- Tasks for everything can be made if, and only if, the project is free of contradictions. -/
theorem accepted_iff {files : SrcList P} {kind : P → Bool} (hl : Loadable files kind)
    (hmade : ∀ x ∈ files, x.2.useTargetDeps = true → ∀ t ∈ x.2.targets, ¬ HasFile files t.name) :
    (∃ tree, load files = .ok tree ∧ (taskListAll tree.graph).1 = .ok) ↔ Constructible files := by
  constructor
  · rintro ⟨tree, h, hok⟩
    obtain ⟨h1, h2, _⟩ := (loads_iff hl hmade).mp ⟨tree, h⟩
    exact ⟨h1, h2, (tasks_iff hl hmade h).mp hok⟩
  · rintro ⟨h1, h2, h3⟩
    obtain ⟨tree, h⟩ := (loads_iff hl hmade).mpr ⟨h1, h2, fun _ _ _ _ _ q _ hc => h3 q (circle_chain hc)⟩
    exact ⟨tree, h, (tasks_iff hl hmade h).mpr h3⟩

end Maike.Build
