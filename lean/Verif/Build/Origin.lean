import Verif.Build.Load

/-!
# What becomes of declarations when a source tree is loaded

Lemmas that relate the graph of a loaded source tree to the files that it has been loaded from, in both directions.
-/

set_option linter.unusedSectionVars false

namespace Maike.Build

open Maike.Db

variable {P : Type} [PathType P] [DecidableEq P] [Inhabited P]

/-- The loop that adds dependencies of targets removes nothing. -/
theorem addLoop_keeps {ps : List P} {m : SrcList P} (hs : Map.Sorted m) {p : P} {i : SrcInfo P} (h : (p, i) ∈ m) :
    ∃ i', (p, i') ∈ addTargetDepsLoop ps m ∧ i'.targets = i.targets ∧ i'.policy = i.policy ∧
      i'.buildDeps = i.buildDeps ∧ ∀ d ∈ i.useDeps, d ∈ i'.useDeps := by
  induction ps generalizing m i with
  | nil => exact ⟨i, h, rfl, rfl, rfl, fun _ => id⟩
  | cons q ps ih =>
    simp only [addTargetDepsLoop]
    split
    · exact ih hs h
    · rename_i j hj
      have keep : ∀ (l : SrcList P) (v : SrcInfo P), q ≠ p → (p, i) ∈ l → (p, i) ∈ assign q v l := by
        intro l v hqp
        induction l with
        | nil => intro hm; cases hm
        | cons a l ihl =>
          obtain ⟨r, k⟩ := a
          intro hm
          simp only [assign]
          split
          · rename_i e
            rcases List.mem_cons.mp hm with e' | hm
            · simp only [Prod.mk.injEq] at e'; exact absurd (e.symm.trans e'.1.symm) hqp
            · exact List.mem_cons_of_mem _ hm
          · rcases List.mem_cons.mp hm with e' | hm
            · rw [e']; exact List.mem_cons_self
            · exact List.mem_cons_of_mem _ (ihl hm)
      have set : ∀ (l : SrcList P) (v : SrcInfo P), (∃ k, (q, k) ∈ l) → (q, v) ∈ assign q v l := by
        intro l v
        induction l with
        | nil => rintro ⟨k, hk⟩; cases hk
        | cons a l ihl =>
          obtain ⟨r, k⟩ := a
          rintro ⟨k', hm⟩
          simp only [assign]
          split
          · rename_i e; subst e; exact List.mem_cons_self
          · rename_i e
            rcases List.mem_cons.mp hm with e' | hm
            · simp only [Prod.mk.injEq] at e'; exact absurd e'.1.symm e
            · exact List.mem_cons_of_mem _ (ihl ⟨k', hm⟩)
      have hs' : Map.Sorted (assign q (addTargetDeps m j) m) := sorted_of_keys assign_keys hs
      by_cases hqp : q = p
      · subst hqp
        have := hs.unique (Map.lookup_mem hj) h
        subst this
        obtain ⟨i', h1, h2, h3, h4, h5⟩ := ih hs' (set m (addTargetDeps m j) ⟨_, h⟩)
        have ht : (addTargetDeps m j).targets = j.targets ∧ (addTargetDeps m j).policy = j.policy ∧
            (addTargetDeps m j).buildDeps = j.buildDeps ∧ ∀ d ∈ j.useDeps, d ∈ (addTargetDeps m j).useDeps := by
          unfold addTargetDeps
          split
          · exact ⟨rfl, rfl, rfl, fun d hd => List.mem_append_left _ hd⟩
          · exact ⟨rfl, rfl, rfl, fun d hd => hd⟩
        exact ⟨i', h1, h2.trans ht.1, h3.trans ht.2.1, h4.trans ht.2.2.1, fun d hd => h5 d (ht.2.2.2 d hd)⟩
      · exact ih hs' (keep m _ hqp h)

/-- What is in the list before dependencies of targets are added is in the graph. -/
theorem graph_keeps {m : SrcList P} (hs : Map.Sorted m) {g : DepGraph P}
    (hg : makeGraph (addTargetDepsToSourceFiles m) false = .ok g) {p : P} {i : SrcInfo P} (h : (p, i) ∈ m) :
    ∃ u info, g.files[u]? = some (p, info) ∧ info.targets = i.targets ∧ info.policy = i.policy ∧
      ∀ d ∈ i.deps, ∃ v, g.PathOf v d.name ∧ Graph.Adj g.toGraph u v := by
  obtain ⟨i', h1, h2, h3, h4, h5⟩ := addLoop_keeps (ps := m.map Prod.fst) hs h
  have s3 : Map.Sorted (addTargetDepsToSourceFiles m) := sorted_of_keys addLoop_keys hs
  obtain ⟨hkeys, hres⟩ := C06_resolved _ s3 hg
  obtain ⟨u, hu⟩ := List.getElem?_of_mem h1
  have hu' : (addTargetDepsToSourceFiles m)[u]? = some (p, i') := hu
  have hlen : u < g.files.length := by
    have := congrArg List.length hkeys
    simp only [List.length_map] at this
    rw [this]
    exact (List.getElem?_eq_some_iff.mp hu').1
  rcases hx : g.files[u] with ⟨q, info⟩
  have hgu : g.files[u]? = some (q, info) := by rw [List.getElem?_eq_getElem hlen, hx]
  obtain ⟨i3, hi3, hdeps, htg, hpol, _, hr⟩ := hres u q info hgu
  rw [hu'] at hi3
  simp only [Option.some.injEq, Prod.mk.injEq] at hi3
  obtain ⟨rfl, rfl⟩ := hi3
  refine ⟨u, info, hgu, htg.trans h2, hpol.trans h3, fun d hd => ?_⟩
  have hmem : (d.name, d.origin) ∈ info.deps.map (fun d => (d.name, d.origin)) := by
    rw [pairs_of_deps hdeps]
    refine List.mem_map.mpr ⟨d, ?_, rfl⟩
    simp only [SrcInfo.deps, List.mem_append] at hd ⊢
    rcases hd with hd | hd
    · exact .inl (h5 d hd)
    · exact .inr (by rw [h4]; exact hd)
  obtain ⟨e, he, hen⟩ := List.mem_map.mp hmem
  simp only [Prod.mk.injEq] at hen
  obtain ⟨v, hv, hpv⟩ := hr e he
  refine ⟨v, by rw [← hen.1]; exact hpv, e, ?_, hv⟩
  simp only [DepGraph.toGraph, hgu]
  exact he

/-- A file of the project has a record, with its targets and edges for its dependencies. -/
theorem file_kept {files : SrcList P} {kind : P → Bool} (hl : Loadable files kind) {tree : SourceTree P}
    (h : load files = .ok tree) {p : P} {i : SrcInfo P} (hp : (p, i) ∈ files) :
    ∃ u info, tree.graph.files[u]? = some (p, info) ∧ info.targets = i.targets ∧ info.policy = i.policy ∧
      ∀ d ∈ i.useDeps, ∃ v, tree.graph.PathOf v d.name ∧ Graph.Adj tree.graph.toGraph u v := by
  obtain ⟨files1, files3, hc, h1, rfl, hg, s3⟩ := load_ok hl.sorted h
  obtain ⟨g1, hg1, s1, hmem1⟩ := C09_generated_entries files hl.sorted (C08_one_owner files |>.2 _ hc |>.1) h1
  obtain ⟨s2, hkeep, _, _⟩ := placeholders_merged files1 s1
  obtain ⟨u, info, h1, h2, h3, h4⟩ := graph_keeps s2 hg (hkeep _ ((hmem1 _).mpr (.inl hp)))
  exact ⟨u, info, h1, h2, h3, fun d hd => h4 d (by simp [SrcInfo.deps, hd])⟩

/-- A target that is not a file of the project has a record, with edges for its dependencies and to its source. -/
theorem target_kept {files : SrcList P} {kind : P → Bool} (hl : Loadable files kind) {tree : SourceTree P}
    (h : load files = .ok tree) {p : P} {i : SrcInfo P} (hp : (p, i) ∈ files) {t : TargetInfo P} (ht : t ∈ i.targets)
    (hnf : ¬ HasFile files t.name) :
    ∃ u, tree.graph.PathOf u t.name ∧ (∃ v, tree.graph.PathOf v p ∧ Graph.Adj tree.graph.toGraph u v) ∧
      ∀ d ∈ t.useDeps, ∃ v, tree.graph.PathOf v d.name ∧ Graph.Adj tree.graph.toGraph u v := by
  obtain ⟨files1, files3, hc, h1, rfl, hg, s3⟩ := load_ok hl.sorted h
  obtain ⟨g1, hg1, s1, hmem1⟩ := C09_generated_entries files hl.sorted (C08_one_owner files |>.2 _ hc |>.1) h1
  obtain ⟨s2, hkeep, _, _⟩ := placeholders_merged files1 s1
  have hT : (t.name, (⟨p, t⟩ : Target P)) ∈ tree.targets := by
    refine (((C08_one_owner files).2 _ hc).2 _ _).mpr ⟨i, hp, ht, ?_, (hl.normal _ hp t ht).symm⟩
    intro e
    simp only at e
    exact hnf ⟨i, by rw [e]; exact hp⟩
  have hall : ∀ (ts : TargetList P) (m m' : SrcList P),
      makeSourceFileInfosLoop g1 ts m = .ok m' → ∀ a ∈ ts, ∃ i, makeSourceFileInfo g1 a.1 a.2 = .ok i := by
    intro ts
    induction ts with
    | nil => intro m m' _ a ha; cases ha
    | cons b ts ih =>
      intro m m' hm a ha
      obtain ⟨bn, bt⟩ := b
      simp only [makeSourceFileInfosLoop] at hm
      split at hm
      · cases hm
      · rename_i i hi
        rcases List.mem_cons.mp ha with rfl | ha
        · exact ⟨i, hi⟩
        · exact ih _ _ hm a ha
  have h1' := h1
  unfold makeSourceFileInfos at h1'
  rw [hg1] at h1'
  obtain ⟨k, hk⟩ := hall _ _ _ h1' _ hT
  have hin : (t.name, k) ∈ files1 := (hmem1 _).mpr (.inr ⟨_, k, hT, hk, rfl, hnf⟩)
  obtain ⟨_, _, _, hbuild, root, _, hdeps⟩ := C09_generated_entry files hl.sorted hl.unresolved hg1 hk
  obtain ⟨u, info, g1, g2, g3, g4⟩ := graph_keeps s2 hg (hkeep _ hin)
  refine ⟨u, ⟨info, g1⟩, ?_, ?_⟩
  · exact g4 ⟨p, .project, none, []⟩ (by simp [SrcInfo.deps, hbuild])
  · intro d hd
    exact g4 d (by simp only [SrcInfo.deps, List.mem_append]; exact .inl ((hdeps d).mpr (.inl hd)))

/-- Where the dependencies in `files1` of `load_ok` come from. -/
theorem listed_deps {files : SrcList P} {kind : P → Bool} (hl : Loadable files kind) {targets : TargetList P}
    (hc : collectTargets files [] = .ok targets) {files1 : SrcList P} (h1 : makeSourceFileInfos targets files = .ok files1) :
    ∀ x ∈ files1, ∀ d, d ∈ x.2.deps ∨ (∃ t ∈ x.2.targets, d ∈ t.useDeps) → (∃ y ∈ files, d ∈ y.2.foundDeps) ∨
      (d.origin = .project ∧ HasFile files d.name) := by
  obtain ⟨g1, hg1, s1, hmem1⟩ := C09_generated_entries files hl.sorted (C08_one_owner files |>.2 _ hc |>.1) h1
  rintro ⟨p, i⟩ hx d hd
  rcases (hmem1 _).mp hx with hp0 | ⟨t, k, ht, hk, hki, _⟩
  · left
    refine ⟨_, hp0, ?_⟩
    have hb : i.buildDeps = [] := hl.noBuildDeps _ hp0
    simp only [SrcInfo.deps, List.mem_append, hb] at hd
    simp only [SrcInfo.foundDeps, List.mem_append, List.mem_flatMap]
    rcases hd with (hd | hd) | hd
    · exact .inl (.inl hd)
    · cases hd
    · exact .inl (.inr hd)
  · simp only at hki ht hk; subst hki
    obtain ⟨_, htn, _, hbuild, root, _, hdeps⟩ := C09_generated_entry files hl.sorted hl.unresolved hg1 hk
    obtain ⟨i', hi', hti', _⟩ := ((C08_one_owner files).2 _ hc).2 p t |>.mp ht
    simp only [SrcInfo.deps, List.mem_append, hbuild, htn, List.mem_singleton] at hd
    rcases hd with (hd | rfl) | ⟨_, hd, _⟩
    · left
      rcases (hdeps d).mp hd with hd' | ⟨u, q, uinfo, _, hu', hd', _⟩
      · refine ⟨_, hi', ?_⟩
        simp only [SrcInfo.foundDeps, List.mem_append, List.mem_flatMap]
        exact .inl (.inr ⟨_, hti', hd'⟩)
      · obtain ⟨rfl, _⟩ := makeGraph_ok hg1
        rw [linked_get] at hu'
        cases hf : files[u]? with
        | none => rw [hf] at hu'; cases hu'
        | some y =>
          rw [hf] at hu'
          simp only [Option.map_some, Option.some.injEq, Prod.mk.injEq] at hu'
          obtain ⟨_, rfl⟩ := hu'
          refine ⟨y, List.mem_of_getElem? hf, ?_⟩
          simp only [SrcInfo.foundDeps, List.mem_append]
          exact .inr hd'
    · exact .inr ⟨rfl, _, hi'⟩
    · cases hd

/-- Each edge of the graph goes back to a dependency that a file declares, or is from a target to its source. -/
theorem edge_declared {files : SrcList P} {kind : P → Bool} (hl : Loadable files kind) {tree : SourceTree P}
    (h : load files = .ok tree) {w : Nat} {d : Dep P} (hd : d ∈ tree.graph.toGraph.edges w) :
    (∃ y ∈ files, ∃ d₀ ∈ y.2.foundDeps, d₀.name = d.name ∧ d₀.origin = d.origin) ∨
      (d.origin = .project ∧ HasFile files d.name) := by
  obtain ⟨files1, files3, hc, h1, rfl, hg, s3⟩ := load_ok hl.sorted h
  obtain ⟨g1, hg1, s1, hmem1⟩ := C09_generated_entries files hl.sorted (C08_one_owner files |>.2 _ hc |>.1) h1
  obtain ⟨s2, hkeep, hnew, _⟩ := placeholders_merged files1 s1
  have hlist := listed_deps hl hc h1
  simp only [DepGraph.toGraph] at hd
  split at hd
  · cases hd
  · rename_i p info hw
    obtain ⟨i3, hi3, hdeps, _⟩ := (C06_resolved _ s3 hg).2 w p info hw
    have : (d.name, d.origin) ∈ i3.deps.map (fun d => (d.name, d.origin)) := by
      rw [← pairs_of_deps hdeps]; exact List.mem_map.mpr ⟨d, hd, rfl⟩
    obtain ⟨e, he, hen⟩ := List.mem_map.mp this
    simp only [Prod.mk.injEq] at hen
    obtain ⟨huse, i2, hi2, hbd, _⟩ := addLoop_deps (m₀ := Map.mergeNew files1 (createPlaceholders files1 []))
      (m := Map.mergeNew files1 (createPlaceholders files1 []))
      (fun p info hp => ⟨fun d hd => ⟨_, hp, hd⟩, info, hp, rfl, rfl, rfl⟩) p i3 (List.mem_of_getElem? hi3)
    -- the dependency is listed before
    have hsrc : ∃ y ∈ files1, e ∈ y.2.deps := by
      simp only [SrcInfo.deps, List.mem_append] at he
      rcases he with he | he
      · obtain ⟨⟨q, k⟩, hq, hk⟩ := huse e he
        rcases hnew q k hq with hq1 | ⟨_, _, _, _, _, _, _, rfl⟩
        · exact ⟨_, hq1, by simp only [SrcInfo.deps, List.mem_append]; exact .inl hk⟩
        · cases hk
      · rw [← hbd] at he
        rcases hnew p i2 hi2 with hq1 | ⟨_, _, _, _, _, _, _, rfl⟩
        · exact ⟨_, hq1, by simp only [SrcInfo.deps, List.mem_append]; exact .inr he⟩
        · cases he
    obtain ⟨y, hy, hey⟩ := hsrc
    rw [← hen.1, ← hen.2]
    rcases hlist y hy e (.inl hey) with ⟨z, hz, hez⟩ | h'
    · exact .inl ⟨z, hz, e, hez, rfl, rfl⟩
    · exact .inr h'

/-- Each record of the graph has the name of a file, of a target, or of a declared external dependency. -/
theorem record_external {files : SrcList P} {kind : P → Bool} (hl : Loadable files kind) {tree : SourceTree P}
    (h : load files = .ok tree) {u : Nat} {p : P} (hu : tree.graph.PathOf u p) :
    HasFile files p ∨ (∃ y ∈ files, ∃ t ∈ y.2.targets, t.name = p) ∨
      ∃ y ∈ files, ∃ d ∈ y.2.foundDeps, d.name = p ∧ isExternal d.origin = true := by
  obtain ⟨files1, files3, hc, h1, rfl, hg, s3⟩ := load_ok hl.sorted h
  obtain ⟨g1, hg1, s1, hmem1⟩ := C09_generated_entries files hl.sorted (C08_one_owner files |>.2 _ hc |>.1) h1
  obtain ⟨s2, hkeep, hnew, _⟩ := placeholders_merged files1 s1
  obtain ⟨info, hu⟩ := hu
  have hp3 : HasFile (addTargetDepsToSourceFiles (Map.mergeNew files1 (createPlaceholders files1 []))) p := by
    obtain ⟨i3, hi3, _⟩ := (C06_resolved _ s3 hg).2 u p info hu
    exact ⟨i3, List.mem_of_getElem? hi3⟩
  have hk : (addTargetDepsToSourceFiles (Map.mergeNew files1 (createPlaceholders files1 []))).map Prod.fst = _ := addLoop_keys
  rw [hasFile_iff_keys, hk, ← hasFile_iff_keys] at hp3
  obtain ⟨i2, hi2⟩ := hp3
  rcases hnew p i2 hi2 with hp1 | ⟨_, x, hx, d, hd, hext, rfl, _⟩
  · rcases (hmem1 _).mp hp1 with hp0 | ⟨t, k, ht, _, _, _⟩
    · exact .inl ⟨_, hp0⟩
    · obtain ⟨i', hi', hti', _, hn⟩ := ((C08_one_owner files).2 _ hc).2 p t |>.mp ht
      exact .inr (.inl ⟨_, hi', _, hti', by rw [hn]; exact (hl.normal _ hi' _ hti').symm⟩)
  · have : d ∈ x.2.deps ∨ ∃ t ∈ x.2.targets, d ∈ t.useDeps := by
      simp only [extDeps, List.mem_append, List.mem_flatMap] at hd
      rcases hd with hd | hd
      · exact .inr hd
      · exact .inl (by simp only [SrcInfo.deps, List.mem_append]; exact .inl hd)
    rcases listed_deps hl hc h1 x hx d this with ⟨z, hz, hez⟩ | h'
    · exact .inr (.inr ⟨z, hz, d, hez, rfl, hext⟩)
    · exact .inl h'.2

/-- Each record of the graph has the name of a file, of a target, or of a declared dependency. -/
theorem record_named {files : SrcList P} {kind : P → Bool} (hl : Loadable files kind) {tree : SourceTree P}
    (h : load files = .ok tree) {u : Nat} {p : P} (hu : tree.graph.PathOf u p) :
    HasFile files p ∨ (∃ y ∈ files, ∃ t ∈ y.2.targets, t.name = p) ∨ ∃ y ∈ files, ∃ d ∈ y.2.foundDeps, d.name = p := by
  rcases record_external hl h hu with h' | h' | ⟨y, hy, d, hd, e, _⟩
  · exact .inl h'
  · exact .inr (.inl h')
  · exact .inr (.inr ⟨y, hy, d, hd, e⟩)

end Maike.Build
