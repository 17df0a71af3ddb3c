import Verif.Build.Origin

/-!
# Exactly which dependencies the graph of a loaded source tree has (C79)
-/

set_option linter.unusedSectionVars false

namespace Maike.Build

open Maike.Db

variable {P : Type} [PathType P] [DecidableEq P] [Inhabited P]

/-! ## Specification -/

/-- `q` can be reached from `p` by the use dependencies that files of the project declare, within the files of the project. -/
inductive Uses (files : SrcList P) : P → P → Prop
  | refl (p : P) : Uses files p p
  | step {p q : P} {i : SrcInfo P} {d : Dep P} : Uses files p q → (q, i) ∈ files → d ∈ i.useDeps → HasFile files d.name → Uses files p d.name

/-- The use dependencies of a target that is made from the file `p`: those that are declared for it, and what
files used by `p` declare for everything that is made from something that uses them, except the target itself. -/
inductive LinkDep (files : SrcList P) (p : P) (t : TargetInfo P) : Dep P → Prop
  | own {d : Dep P} : d ∈ t.useDeps → LinkDep files p t d
  | child {q : P} {k : SrcInfo P} {d : Dep P} : Uses files p q → (q, k) ∈ files → d ∈ k.childTargetsUseDeps → d.name ≠ t.name → LinkDep files p t d

/-- `Refers files a d`: in a project with the given files, `a` depends on `d.name` directly. -/
inductive Refers (files : SrcList P) : P → Dep P → Prop
  /-- a file has what it declares -/
  | use {p : P} {i : SrcInfo P} {d : Dep P} : (p, i) ∈ files → d ∈ i.useDeps → Refers files p d
  /-- a file that is made depends on what it is made from -/
  | source {p : P} {i : SrcInfo P} {t : TargetInfo P} : (p, i) ∈ files → t ∈ i.targets → ¬ HasFile files t.name →
      Refers files t.name { name := p, origin := .project }
  | link {p : P} {i : SrcInfo P} {t : TargetInfo P} {d : Dep P} : (p, i) ∈ files → t ∈ i.targets → ¬ HasFile files t.name →
      LinkDep files p t d → Refers files t.name d
  /-- a file that uses the dependencies of its targets (such as a file that describes a library) -/
  | ofTarget {p : P} {i : SrcInfo P} {t : TargetInfo P} {d : Dep P} : (p, i) ∈ files → i.useTargetDeps = true → t ∈ i.targets →
      LinkDep files p t d → Refers files p d

/-- `a` depends on `b`, directly or through other files. -/
inductive Chain (files : SrcList P) : P → P → Prop
  | single {a : P} {d : Dep P} : Refers files a d → Chain files a d.name
  | tail {a b : P} {d : Dep P} : Chain files a b → Refers files b d → Chain files a d.name

/-- A dependency apart from its reference. -/
def bare (d : Dep P) : Dep P := { d with ref := none }

/-! ## Proof -/

theorem reach_uses {files : SrcList P} (hs : Map.Sorted files) (hu : Unresolved files) (hb : ∀ x ∈ files, x.2.buildDeps = [])
    {u v : Nat} {p : P} {i : SrcInfo P} (hp : files[u]? = some (p, i)) (h : Graph.Reach (linked files).toGraph u v) :
    ∃ q k, files[v]? = some (q, k) ∧ Uses files p q := by
  induction h with
  | refl => exact ⟨p, i, hp, .refl p⟩
  | @tail v w _ hadj ih =>
    obtain ⟨q, k, hv, hq⟩ := ih
    obtain ⟨e, he, hr⟩ := hadj
    have hq' : (q, k) ∈ files := List.mem_of_getElem? hv
    simp only [DepGraph.toGraph, linked_get, hv, Option.map_some, linkInfo, ← List.map_append] at he hr
    obtain ⟨d, hd, rfl⟩ := List.mem_map.mp he
    have hur := hu _ hq' d hd
    have hb' : k.buildDeps = [] := hb _ hq'
    simp only [hb', List.append_nil] at hd
    unfold link at hr
    split at hr
    · rw [hur] at hr; cases hr
    · rename_i j hj
      simp only [Option.some.injEq] at hr
      subst hr
      obtain ⟨k', hk'⟩ := (find_eq_some hs).mp hj
      exact ⟨d.name, k', hk', .step hq hq' hd ⟨_, List.mem_of_getElem? hk'⟩⟩

theorem uses_reach {files : SrcList P} (hs : Map.Sorted files)
    {u : Nat} {p q : P} {i : SrcInfo P} (hp : files[u]? = some (p, i)) (h : Uses files p q) :
    ∃ v k, files[v]? = some (q, k) ∧ Graph.Reach (linked files).toGraph u v := by
  induction h with
  | refl => exact ⟨u, i, hp, .refl u⟩
  | @step q k d _ hk hd hf ih =>
    obtain ⟨v, k', hv, hr⟩ := ih
    have := hs.unique hk (List.mem_of_getElem? hv)
    subst this
    obtain ⟨j, hj⟩ := hf
    obtain ⟨w, hw⟩ := List.getElem?_of_mem hj
    refine ⟨w, j, hw, hr.tail ⟨link files d, ?_, ?_⟩⟩
    · simp only [DepGraph.toGraph, linked_get, hv, Option.map_some, linkInfo, ← List.map_append]
      exact List.mem_map.mpr ⟨d, List.mem_append_left _ hd, rfl⟩
    · have : find files d.name = some w := (find_eq_some hs).mpr ⟨j, hw⟩
      simp [DepGraph.toGraph, link, this]

/-- What is generated for a target. -/
theorem generated_deps {files : SrcList P} {kind : P → Bool} (hl : Loadable files kind) {targets : TargetList P}
    (hc : collectTargets files [] = .ok targets) {g : DepGraph P} (hg : makeGraph files true = .ok g)
    {a : P} {t : Target P} (ht : (a, t) ∈ targets) {k : SrcInfo P} (hk : makeSourceFileInfo g a t = .ok k) :
    ∃ i, (t.sourceFilename, i) ∈ files ∧ t.target ∈ i.targets ∧ a = t.target.name ∧ k.useTargetDeps = false ∧
      k.buildDeps = [{ name := t.sourceFilename, origin := .project }] ∧ ∀ d, d ∈ k.useDeps ↔ LinkDep files t.sourceFilename t.target d := by
  obtain ⟨i, hi, hti, _, ha⟩ := ((C08_one_owner files).2 _ hc).2 a t |>.mp ht
  rw [hl.normal _ hi _ hti] at ha
  obtain ⟨_, _, _, hbuild, root, hroot, hdeps⟩ := C09_generated_entry files hl.sorted hl.unresolved hg hk
  refine ⟨i, hi, hti, ha, ?_, hbuild, fun d => ?_⟩
  · unfold makeSourceFileInfo at hk
    split at hk
    · cases hk
    · split at hk
      · simp only [Except.ok.injEq] at hk; subst hk; rfl
      · cases hk
      · cases hk
  · obtain ⟨rfl, _⟩ := makeGraph_ok hg
    obtain ⟨ri, hri⟩ := hroot
    rw [linked_get] at hri
    obtain ⟨x, hx, hx'⟩ := Option.map_eq_some_iff.mp hri
    simp only [Prod.mk.injEq] at hx'
    obtain ⟨hx1, _⟩ := hx'
    have hroot : files[root]? = some (t.sourceFilename, x.2) := by rw [hx, ← hx1]
    rw [hdeps]
    constructor
    · rintro (h | ⟨u, p, ui, hr, hu, hd, hn⟩)
      · exact .own h
      · obtain ⟨q, kq, hq, huse⟩ := reach_uses hl.sorted hl.unresolved hl.noBuildDeps hroot hr
        rw [linked_get, hq] at hu
        simp only [Option.map_some, Option.some.injEq, Prod.mk.injEq] at hu
        obtain ⟨_, rfl⟩ := hu
        exact .child huse (List.mem_of_getElem? hq) hd (by rw [← ha]; exact hn)
    · rintro (h | ⟨huse, hq, hd, hn⟩)
      · exact .inl h
      · rename_i q kq
        obtain ⟨v, k', hv, hr⟩ := uses_reach hl.sorted hroot huse
        have := hl.sorted.unique hq (List.mem_of_getElem? hv)
        subst this
        exact .inr ⟨v, q, linkInfo files kq, hr, by rw [linked_get, hv]; rfl, hd, by rw [ha]; exact hn⟩

/-- A target with a name of its own has an entry. -/
theorem target_listed {files : SrcList P} {kind : P → Bool} (hl : Loadable files kind) {targets : TargetList P}
    (hc : collectTargets files [] = .ok targets) {files1 : SrcList P} (h1 : makeSourceFileInfos targets files = .ok files1)
    {p : P} {i : SrcInfo P} {t : TargetInfo P} (hp : (p, i) ∈ files) (ht : t ∈ i.targets) (hn : ¬ HasFile files t.name) :
    (t.name, (⟨p, t⟩ : Target P)) ∈ targets ∧ HasFile files1 t.name := by
  obtain ⟨g1, hg1, s1, hmem1⟩ := C09_generated_entries files hl.sorted (C08_one_owner files |>.2 _ hc |>.1) h1
  have hT : (t.name, (⟨p, t⟩ : Target P)) ∈ targets := by
    refine (((C08_one_owner files).2 _ hc).2 _ _).mpr ⟨i, hp, ht, ?_, (hl.normal _ hp t ht).symm⟩
    intro e
    simp only at e
    exact hn ⟨i, by rw [e]; exact hp⟩
  refine ⟨hT, ?_⟩
  have hall : ∀ (ts : TargetList P) (m m' : SrcList P),
      makeSourceFileInfosLoop g1 ts m = .ok m' → ∀ a ∈ ts, ∃ i, makeSourceFileInfo g1 a.1 a.2 = .ok i := by
    intro ts
    induction ts with
    | nil => intro m m' _ a ha; cases ha
    | cons b ts ih =>
      intro m m' hm a ha
      obtain ⟨bn, bt⟩ := b
      simp only [makeSourceFileInfosLoop] at hm
      split at hm
      · cases hm
      · rename_i i hi
        rcases List.mem_cons.mp ha with rfl | ha
        · exact ⟨i, hi⟩
        · exact ih _ _ hm a ha
  have h1' := h1
  unfold makeSourceFileInfos at h1'
  rw [hg1] at h1'
  obtain ⟨k, hk⟩ := hall _ _ _ h1' _ hT
  exact ⟨k, (hmem1 _).mpr (.inr ⟨_, k, hT, hk, rfl, hn⟩)⟩

/-- The records of a project, before references are resolved, have exactly the dependencies that the files of the project say. -/
theorem records_exact {files : SrcList P} {kind : P → Bool} (hl : Loadable files kind) {targets : TargetList P} (hc : collectTargets files [] = .ok targets)
    {files1 : SrcList P} (hm1 : makeSourceFileInfos targets files = .ok files1)
    (hmade : ∀ x ∈ files, x.2.useTargetDeps = true → ∀ t ∈ x.2.targets, ¬ HasFile files t.name) {a : P} {i3 : SrcInfo P}
    (hi3 : (a, i3) ∈ addTargetDepsToSourceFiles (Map.mergeNew files1 (createPlaceholders files1 []))) :
    ∀ e, e ∈ i3.deps ↔ Refers files a e := by
  have s3 := (load_cases files hl.sorted hc hm1).1
  obtain ⟨g1, hg1, s1, hmem1⟩ := C09_generated_entries files hl.sorted (C08_one_owner files |>.2 _ hc |>.1) hm1
  obtain ⟨s2, hkeep, hnew, hcov⟩ := placeholders_merged files1 s1
  -- entries of the merged list
  have hkinds : ∀ b i, (b, i) ∈ Map.mergeNew files1 (createPlaceholders files1 []) →
      (b, i) ∈ files ∨
      (¬ HasFile files b ∧ i.useTargetDeps = false ∧ ∃ p i0 t, (p, i0) ∈ files ∧ t ∈ i0.targets ∧ b = t.name ∧
        (b, (⟨p, t⟩ : Target P)) ∈ targets ∧
        i.buildDeps = [{ name := p, origin := .project }] ∧ ∀ d, d ∈ i.useDeps ↔ LinkDep files p t d) ∨
      (¬ HasFile files1 b ∧ i.useTargetDeps = false ∧ i.useDeps = [] ∧ i.buildDeps = []) := by
    intro b i hbi
    rcases hnew b i hbi with hb1 | ⟨hno, _, _, _, _, _, _, rfl⟩
    · rcases (hmem1 _).mp hb1 with hb0 | ⟨t, k, ht, hk, hki, hnf⟩
      · exact .inl hb0
      · simp only at ht hk hki hnf
        subst hki
        obtain ⟨i0, h0, ht0, hb, hutd, hbuild, huse⟩ := generated_deps hl hc hg1 ht hk
        exact .inr (.inl ⟨hnf, hutd, t.sourceFilename, i0, t.target, h0, ht0, hb, ht, hbuild, huse⟩)
    · exact .inr (.inr ⟨hno, rfl, rfl, rfl⟩)
  have hfile : ∀ x ∈ files, x ∈ files1 := fun x hx => (hmem1 x).mpr (.inl hx)
  -- a target of a file, and what is generated for it
  have hentry : ∀ {p i t}, (p, i) ∈ files → t ∈ i.targets → ¬ HasFile files t.name →
      ∃ k, (t.name, k) ∈ Map.mergeNew files1 (createPlaceholders files1 []) ∧ k.useTargetDeps = false ∧
        k.buildDeps = [{ name := p, origin := .project }] ∧ ∀ d, d ∈ k.useDeps ↔ LinkDep files p t d := by
    intro p i t hp ht hn
    obtain ⟨hT, k, hk⟩ := target_listed hl hc hm1 hp ht hn
    refine ⟨k, hkeep _ hk, ?_⟩
    rcases hkinds _ _ (hkeep _ hk) with hf | ⟨_, hutd, p', i', t', _, _, _, hT', hbuild, huse⟩ | ⟨hno, _⟩
    · exact absurd ⟨_, hf⟩ hn
    · have := (C08_one_owner files |>.2 _ hc |>.1).unique hT hT'
      simp only [Target.mk.injEq] at this
      obtain ⟨rfl, rfl⟩ := this
      exact ⟨hutd, hbuild, huse⟩
    · exact absurd ⟨k, hk⟩ hno
  have hleaf : ∀ x ∈ Map.mergeNew files1 (createPlaceholders files1 []), x.2.useTargetDeps = true → ∀ t ∈ x.2.targets, ∀ i,
      (t.name, i) ∈ Map.mergeNew files1 (createPlaceholders files1 []) → i.useTargetDeps = false := by
    rintro ⟨b, i⟩ hx hutd t ht j hj
    rcases hkinds b i hx with hf | ⟨_, hu', _⟩ | ⟨_, hu', _⟩
    · have hn := hmade _ hf hutd t ht
      rcases hkinds _ _ hj with hf' | ⟨_, hu', _⟩ | ⟨_, hu', _⟩
      · exact absurd ⟨_, hf'⟩ hn
      · exact hu'
      · exact hu'
    · simp only at hutd; rw [hutd] at hu'; cases hu'
    · simp only at hutd; rw [hutd] at hu'; cases hu'
  obtain ⟨hkeys, hadd⟩ := C09_use_target_deps _ s2 hleaf
  have ha3 : a ∈ (Map.mergeNew files1 (createPlaceholders files1 [])).map Prod.fst := by
    rw [← hkeys]; exact List.mem_map.mpr ⟨_, hi3, rfl⟩
  obtain ⟨⟨a', i2⟩, hi2, rfl⟩ := List.mem_map.mp ha3
  obtain ⟨i3', hi3', hsame, hbuild, _, _, _, hutd⟩ := hadd a' i2 hi2
  have := s3.unique hi3' hi3
  subst this
  intro e
  simp only [SrcInfo.deps, List.mem_append, hbuild]
  rcases hkinds a' i2 hi2 with hf | ⟨hnf, hu2, p, i0, t, hp, ht, hat, hT, hb, huse⟩ | ⟨hno, hu2, hu0, hb0⟩
  · -- a file of the project
    have hb := hl.noBuildDeps _ hf
    simp only at hb
    rw [hb]
    cases hx : i2.useTargetDeps with
    | false =>
      rw [hsame hx]
      constructor
      · rintro (h | h)
        · exact .use hf h
        · cases h
      · intro h
        generalize ha : a' = b at h
        cases h with
        | use h1 h2 => subst ha; exact .inl (by rw [hl.sorted.unique hf h1]; exact h2)
        | source h1 h2 h3 => subst ha; exact absurd ⟨_, hf⟩ h3
        | link h1 h2 h3 => subst ha; exact absurd ⟨_, hf⟩ h3
        | ofTarget h1 h2 => subst ha; rw [hl.sorted.unique h1 hf, hx] at h2; cases h2
    | true =>
      rw [hutd hx]
      constructor
      · rintro ((h | ⟨t, ht, j, hj, hej⟩) | h)
        · exact .use hf h
        · obtain ⟨k, hk, _, _, hku⟩ := hentry hf ht (hmade _ hf hx t ht)
          have := s2.unique hk hj
          subst this
          exact .ofTarget hf hx ht ((hku e).mp hej)
        · cases h
      · intro h
        generalize ha : a' = b at h
        cases h with
        | use h1 h2 => subst ha; exact .inl (.inl (by rw [hl.sorted.unique hf h1]; exact h2))
        | source h1 h2 h3 => subst ha; exact absurd ⟨_, hf⟩ h3
        | link h1 h2 h3 => subst ha; exact absurd ⟨_, hf⟩ h3
        | @ofTarget _ i' t _ h1 h2 h3 h4 =>
          subst ha
          have := hl.sorted.unique h1 hf
          subst this
          obtain ⟨k, hk, _, _, hku⟩ := hentry hf h3 (hmade _ hf hx _ h3)
          exact .inl (.inr ⟨_, h3, k, hk, (hku e).mpr h4⟩)
  · -- a file that is made
    rw [hsame hu2, hb]
    subst hat
    constructor
    · rintro (h | h)
      · exact .link hp ht hnf ((huse e).mp h)
      · simp only [List.mem_singleton] at h; subst h
        exact .source hp ht hnf
    · intro h
      generalize ha : t.name = b at h
      have huniq : ∀ {p' i' t'}, (p', i') ∈ files → t' ∈ i'.targets → t.name = t'.name → p' = p ∧ t' = t := by
        intro p' i' t' h1 h2 h3
        have hT' := (target_listed hl hc hm1 h1 h2 (by rw [← h3]; exact hnf)).1
        rw [← h3] at hT'
        have := (C08_one_owner files |>.2 _ hc |>.1).unique hT' hT
        simpa using this
      cases h with
      | use h1 h2 => subst ha; exact absurd ⟨_, h1⟩ hnf
      | source h1 h2 h3 => obtain ⟨rfl, rfl⟩ := huniq h1 h2 ha; right; simp
      | link h1 h2 h3 h4 => obtain ⟨rfl, rfl⟩ := huniq h1 h2 ha; exact .inl ((huse e).mpr h4)
      | ofTarget h1 h2 => subst ha; exact absurd ⟨_, h1⟩ hnf
  · -- a placeholder
    rw [hsame hu2, hu0, hb0]
    constructor
    · rintro (h | h) <;> cases h
    · intro h
      exfalso
      cases h with
      | use h1 h2 => exact hno ⟨_, hfile _ h1⟩
      | source h1 h2 h3 => exact hno (target_listed hl hc hm1 h1 h2 h3).2
      | link h1 h2 h3 => exact hno (target_listed hl hc hm1 h1 h2 h3).2
      | ofTarget h1 h2 => exact hno ⟨_, hfile _ h1⟩

/-- **C79.** The dependencies of a file in the graph are exactly those that the files of the project say, with origins and properties, and each
refers to the file of its name. Targets of files that use the dependencies of their targets are not
themselves files of the project. -/
theorem edges_exact {files : SrcList P} {kind : P → Bool} (hl : Loadable files kind) {tree : SourceTree P} (h : load files = .ok tree)
    (hmade : ∀ x ∈ files, x.2.useTargetDeps = true → ∀ t ∈ x.2.targets, ¬ HasFile files t.name) {u : Nat} {a : P} (hu : tree.graph.PathOf u a)
    (d : Dep P) :
    (∃ e ∈ tree.graph.toGraph.edges u, bare e = bare d) ↔ ∃ e, Refers files a e ∧ bare e = bare d := by
  obtain ⟨files1, files3, hc, hm1, rfl, hg, s3⟩ := load_ok hl.sorted h
  obtain ⟨info, hinfo⟩ := hu
  obtain ⟨i3', hi3, hdeps, _⟩ := (C06_resolved _ s3 hg).2 u a info hinfo
  have hedges : (∃ e ∈ tree.graph.toGraph.edges u, bare e = bare d) ↔ ∃ e ∈ i3'.deps, bare e = bare d := by
    have e1 : tree.graph.toGraph.edges u = info.deps := by simp [DepGraph.toGraph, hinfo, SrcInfo.deps]
    rw [e1]
    have e2 : ∀ l : List (Dep P), (∃ e ∈ l, bare e = bare d) ↔ bare d ∈ l.map bare := fun l => by simp [List.mem_map]
    rw [e2, e2]
    have : info.deps.map bare = i3'.deps.map bare := hdeps
    rw [this]
  rw [hedges]
  have hmain := records_exact hl hc hm1 hmade (List.mem_of_getElem? hi3)
  constructor
  · rintro ⟨e, he, hb⟩; exact ⟨e, (hmain e).mp he, hb⟩
  · rintro ⟨e, he, hb⟩; exact ⟨e, (hmain e).mpr he, hb⟩

/-- Neighbours in the graph. -/
theorem adj_exact {files : SrcList P} {kind : P → Bool} (hl : Loadable files kind) {tree : SourceTree P} (h : load files = .ok tree)
    (hmade : ∀ x ∈ files, x.2.useTargetDeps = true → ∀ t ∈ x.2.targets, ¬ HasFile files t.name) {u : Nat} {a : P} (hu : tree.graph.PathOf u a) :
    (∀ v, Graph.Adj tree.graph.toGraph u v → ∃ e, Refers files a e ∧ tree.graph.PathOf v e.name) ∧
    ∀ e, Refers files a e → ∃ v, Graph.Adj tree.graph.toGraph u v ∧ tree.graph.PathOf v e.name := by
  obtain ⟨files1, files3, hc, hm1, h3, hg, s3⟩ := load_ok hl.sorted h
  have hr := refsMatch_of_ok s3 hg
  have hx := edges_exact hl h hmade hu
  constructor
  · rintro v ⟨e, he, hv⟩
    obtain ⟨e', h1, h2⟩ := (hx e).mp ⟨e, he, rfl⟩
    have hn : e'.name = e.name := (congrArg Dep.name h2 : _)
    refine ⟨e', h1, ?_⟩
    rw [hn]
    exact edge_of_call hr he hv
  · intro e he
    obtain ⟨e', h1, h2⟩ := (hx e).mpr ⟨e, he, rfl⟩
    have hn : e'.name = e.name := (congrArg Dep.name h2 : _)
    obtain ⟨info, hinfo⟩ := hu
    have h1' : e' ∈ info.deps := by simpa [DepGraph.toGraph, hinfo, SrcInfo.deps] using h1
    obtain ⟨_, _, _, _, _, _, hres⟩ := (C06_resolved _ s3 hg).2 u a info hinfo
    obtain ⟨v, hv, hpv⟩ := hres e' h1'
    exact ⟨v, ⟨e', h1, hv⟩, by rw [← hn]; exact hpv⟩

/-- Chains of dependencies are paths in the graph. -/
theorem chain_exact {files : SrcList P} {kind : P → Bool} (hl : Loadable files kind) {tree : SourceTree P} (h : load files = .ok tree)
    (hmade : ∀ x ∈ files, x.2.useTargetDeps = true → ∀ t ∈ x.2.targets, ¬ HasFile files t.name) {u : Nat} {a : P} (hu : tree.graph.PathOf u a) :
    (∀ v, Graph.ReachPlus tree.graph.toGraph u v → ∃ b, Chain files a b ∧ tree.graph.PathOf v b) ∧
    ∀ b, Chain files a b → ∃ v, Graph.ReachPlus tree.graph.toGraph u v ∧ tree.graph.PathOf v b := by
  constructor
  · rintro v ⟨w, hw, hadj⟩
    have key : ∃ b, (b = a ∨ Chain files a b) ∧ tree.graph.PathOf w b := by
      clear hadj
      induction hw with
      | refl => exact ⟨a, .inl rfl, hu⟩
      | tail _ hadj ih =>
        obtain ⟨b, hb, hpb⟩ := ih
        obtain ⟨e, he, hpe⟩ := (adj_exact hl h hmade hpb).1 _ hadj
        rcases hb with rfl | hb
        · exact ⟨_, .inr (.single he), hpe⟩
        · exact ⟨_, .inr (.tail hb he), hpe⟩
    obtain ⟨b, hb, hpb⟩ := key
    obtain ⟨e, he, hpe⟩ := (adj_exact hl h hmade hpb).1 _ hadj
    rcases hb with rfl | hb
    · exact ⟨_, .single he, hpe⟩
    · exact ⟨_, .tail hb he, hpe⟩
  · intro b hb
    induction hb with
    | single he =>
      obtain ⟨v, hv, hpv⟩ := (adj_exact hl h hmade hu).2 _ he
      exact ⟨v, ⟨u, .refl u, hv⟩, hpv⟩
    | tail _ he ih =>
      obtain ⟨w, ⟨x, hx, hxw⟩, hpw⟩ := ih
      obtain ⟨v, hv, hpv⟩ := (adj_exact hl h hmade hpw).2 _ he
      exact ⟨v, ⟨w, hx.tail hxw, hv⟩, hpv⟩

/-- **C79.** The dependencies that are listed for a file are exactly those that it has, directly or through other files,
each once and after those that it depends on itself, and each with the origin and the properties of one
of the declarations that led to it. -/
theorem deps_exact {files : SrcList P} {kind : P → Bool} (hl : Loadable files kind) {tree : SourceTree P} (h : load files = .ok tree)
    (hmade : ∀ x ∈ files, x.2.useTargetDeps = true → ∀ t ∈ x.2.targets, ¬ HasFile files t.name)
    (hne : ∀ u, ¬ tree.graph.PathOf u PathType.empty) (hok : (taskListAll tree.graph).1 = .ok) {u : Nat} {a : P} (hu : tree.graph.PathOf u a) :
    let ds := (getUseDepsRecursive tree.graph u).2
    (ds.map Dep.name).Nodup ∧ (∀ b, b ∈ ds.map Dep.name ↔ Chain files a b) ∧
    (∀ l₁ e l₂, ds = l₁ ++ e :: l₂ → ∀ b, Chain files e.name b → b ∈ l₁.map Dep.name) ∧
    (∀ e ∈ ds, ∃ b, (b = a ∨ Chain files a b) ∧ ∃ d, Refers files b d ∧ bare d = bare e) ∧
    ¬ Chain files a a := by
  intro ds
  obtain ⟨files1, files3, hc, hm1, h3, hg, s3⟩ := load_ok hl.sorted h
  have hr := refsMatch_of_ok s3 hg
  have hgs : Map.Sorted tree.graph.files := sorted_of_keys (C06_resolved _ s3 hg).1 s3
  have hcyc := (C21_all_tasks files3 s3 hg).1.mp hok
  have hnc : ∀ c, ¬ Graph.OnCycle tree.graph.toGraph c := by
    intro c hc
    obtain ⟨w, hw, hadj⟩ := hc
    exact hcyc ⟨c, hr.wellFormed _ _ hadj, w, hw, hadj⟩
  have hac : ¬ ∃ c, Graph.Reach tree.graph.toGraph u c ∧ Graph.OnCycle tree.graph.toGraph c := fun ⟨c, _, hc⟩ => hnc c hc
  have hlt : u < tree.graph.toGraph.size := by
    obtain ⟨i, hi⟩ := hu; exact (List.getElem?_eq_some_iff.mp hi).1
  obtain ⟨_, l, hl1, hl2, hl3, hl4, hl5⟩ := useDeps_listed hr hlt hac
  have hch := fun {u a} (hu : tree.graph.PathOf u a) => chain_exact hl h hmade hu
  -- names of entries and numbers of nodes
  have hentry : ∀ e ∈ ds, ∃ v, v ∈ l ∧ e.ref = some v ∧ tree.graph.PathOf v e.name := by
    intro e he
    have : e.ref ∈ l.map some := by rw [← hl1]; exact List.mem_map.mpr ⟨e, he, rfl⟩
    obtain ⟨v, hv, hve⟩ := List.mem_map.mp this
    obtain ⟨w, _, hew⟩ := hl5 e he
    exact ⟨v, hv, hve.symm, edge_of_call hr hew hve.symm⟩
  have hnum : ∀ v ∈ l, ∃ e ∈ ds, e.ref = some v ∧ tree.graph.PathOf v e.name := by
    intro v hv
    have : some v ∈ ds.map Dep.ref := by
      have : ds.map Dep.ref = l.map some := hl1
      rw [this]; exact List.mem_map.mpr ⟨v, hv, rfl⟩
    obtain ⟨e, he, hev⟩ := List.mem_map.mp this
    obtain ⟨v', _, hv', hp'⟩ := hentry e he
    rw [hev] at hv'; cases hv'
    exact ⟨e, he, hev, hp'⟩
  have hnot : ¬ Chain files a a := by
    intro hc
    obtain ⟨v, hv, hpv⟩ := (hch hu).2 a hc
    have := path_unique hgs hpv hu
    subst this
    exact hnc _ hv
  refine ⟨?_, ?_, ?_, ?_, hnot⟩
  · -- different references have different names
    have hnd : (ds.map Dep.ref).Nodup := by
      have : ds.map Dep.ref = l.map some := hl1
      rw [this]
      exact List.Pairwise.map _ (fun _ _ h => by simpa using h) hl2
    have hd : ds.Pairwise fun e e' => e.ref ≠ e'.ref := List.pairwise_map.mp hnd
    refine List.pairwise_map.mpr (hd.imp_of_mem ?_)
    intro e e' he he' hne' hname
    obtain ⟨v, _, hv, hpv⟩ := hentry e he
    obtain ⟨v', _, hv', hpv'⟩ := hentry e' he'
    rw [← hname] at hpv'
    exact hne' (by rw [hv, hv', path_unique hgs hpv hpv'])
  · intro b
    constructor
    · intro hb
      obtain ⟨e, he, rfl⟩ := List.mem_map.mp hb
      obtain ⟨v, hv, _, hpv⟩ := hentry e he
      obtain ⟨hrv, hvu, _⟩ := (hl3 v).mp hv
      have hplus : Graph.ReachPlus tree.graph.toGraph u v := by
        cases hrv with
        | refl => exact absurd rfl hvu
        | tail h1 h2 => exact ⟨_, h1, h2⟩
      obtain ⟨b, hb, hpb⟩ := (hch hu).1 v hplus
      obtain ⟨i, hi⟩ := hpb
      obtain ⟨i', hi'⟩ := hpv
      rw [hi] at hi'
      injection hi' with hi'
      injection hi' with hi'
      rw [← hi']; exact hb
    · intro hb
      obtain ⟨v, hv, hpv⟩ := (hch hu).2 b hb
      have hvl : v ∈ l := (hl3 v).mpr ⟨hv.toReach, fun e => hnc u (by rw [e] at hv; exact hv), hne v⟩
      obtain ⟨e, he, _, hpe⟩ := hnum v hvl
      obtain ⟨i, hi⟩ := hpe
      obtain ⟨i', hi'⟩ := hpv
      rw [hi] at hi'
      injection hi' with hi'
      injection hi' with hi'
      exact List.mem_map.mpr ⟨e, he, hi'⟩
  · intro l₁ e l₂ hds b hb
    have he : e ∈ ds := by rw [hds]; simp
    obtain ⟨v, hv, hev, hpv⟩ := hentry e he
    obtain ⟨w, hw, hpw⟩ := (hch hpv).2 b hb
    have hl1' : ds.map Dep.ref = l.map some := hl1
    rw [hds, List.map_append, List.map_cons] at hl1'
    obtain ⟨m₁, m₂, hm, hm1', hm2⟩ := List.map_eq_append_iff.mp hl1'.symm
    obtain ⟨v', m₃, rfl, hv', _⟩ := List.map_eq_cons_iff.mp hm2
    rw [hev] at hv'
    injection hv' with hv'
    subst hv'
    have hwm := hl4 m₁ _ m₃ hm w hw (hne w)
    have : some w ∈ l₁.map Dep.ref := by rw [← hm1']; exact List.mem_map.mpr ⟨w, hwm, rfl⟩
    obtain ⟨e', he', hew⟩ := List.mem_map.mp this
    obtain ⟨w', _, hw', hpw'⟩ := hentry e' (by rw [hds]; simp [he'])
    rw [hew] at hw'
    injection hw' with hw'
    subst hw'
    obtain ⟨i, hi⟩ := hpw
    obtain ⟨i', hi'⟩ := hpw'
    rw [hi] at hi'
    injection hi' with hi'
    injection hi' with hi'
    exact List.mem_map.mpr ⟨e', he', hi'.symm⟩
  · intro e he
    obtain ⟨w, hrw, hew⟩ := hl5 e he
    have key : ∃ b, (b = a ∨ Chain files a b) ∧ tree.graph.PathOf w b := by
      cases hrw with
      | refl => exact ⟨a, .inl rfl, hu⟩
      | tail h1 h2 =>
        obtain ⟨b, hb, hpb⟩ := (hch hu).1 w ⟨_, h1, h2⟩
        exact ⟨b, .inr hb, hpb⟩
    obtain ⟨b, hb, hpb⟩ := key
    obtain ⟨d, hd, hde⟩ := (edges_exact hl h hmade hpb e).mp ⟨e, hew, rfl⟩
    exact ⟨b, hb, d, hd, hde⟩

end Maike.Build
