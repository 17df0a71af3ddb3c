import Verif.Db.Lemmas
import Verif.Fs.Path

/-!
# Theorems about the database of source files (C05 – C10, C21)

`P` is any type of paths with a strict total order; `Map.Sorted files` is the invariant of `std::map`.
The examples use `Fs.Path`.
-/

set_option linter.unusedSectionVars false

namespace Maike.Db

variable {P : Type} [PathType P] [DecidableEq P]

/-! ## C06 -/

/-- **C06.** The construction succeeds iff every dependency names a file in the list. -/
theorem C06_fails_iff_broken (files : SrcList P) (hs : Map.Sorted files) :
    (∃ g, makeGraph files false = .ok g) ↔
      ∀ x ∈ files, ∀ d ∈ x.2.deps, HasFile files d.name := by
  constructor
  · rintro ⟨g, hg⟩ x hx d hd
    have := (makeGraph_ok hg).2 rfl x hx d hd
    cases hf : find files d.name with
    | none => exact absurd hf this
    | some i =>
      obtain ⟨v, hv⟩ := (find_eq_some hs).mp hf
      exact ⟨v, List.mem_of_getElem? hv⟩
  · intro h
    cases hg : makeGraph files false with
    | ok g => exact ⟨g, rfl⟩
    | error e =>
      obtain ⟨_, x, hx, d, hd, hf, _⟩ := makeGraph_error hg
      obtain ⟨info, hi⟩ := h x hx d hd
      exact absurd rfl ((find_eq_none hs).mp hf _ hi)

/-- **C06.** The error names a file and a dependency of it that does not exist. -/
theorem C06_error_is_true (files : SrcList P) (hs : Map.Sorted files) {requiredBy name : P} {ign : Bool}
    (h : makeGraph files ign = .error (requiredBy, name)) :
    ∃ info, (requiredBy, info) ∈ files ∧ (∃ d ∈ info.deps, d.name = name) ∧ ¬ HasFile files name := by
  obtain ⟨_, x, hx, d, hd, hf, he⟩ := makeGraph_error h
  simp only [Prod.mk.injEq] at he
  obtain ⟨rfl, rfl⟩ := he
  refine ⟨x.2, hx, ⟨d, hd, rfl⟩, ?_⟩
  rintro ⟨info, hi⟩
  exact absurd rfl ((find_eq_none hs).mp hf _ hi)

/-- **C06.** After a successful construction, the files are the same, each has the same dependencies
as before apart from their references, and each reference is that of
the record whose path is the name of the dependency. -/
theorem C06_resolved (files : SrcList P) (hs : Map.Sorted files) {g : DepGraph P}
    (h : makeGraph files false = .ok g) :
    g.files.map Prod.fst = files.map Prod.fst ∧
    (∀ (k : Nat) (p : P) (info : SrcInfo P), g.files[k]? = some (p, info) → ∃ info₀ : SrcInfo P, files[k]? = some (p, info₀) ∧
      info.deps.map (fun d => { d with ref := none }) = info₀.deps.map (fun d => { d with ref := none }) ∧
      info.targets = info₀.targets ∧ info.policy = info₀.policy ∧
      info.childTargetsUseDeps = info₀.childTargetsUseDeps ∧
      ∀ d ∈ info.deps, ∃ i, d.ref = some i ∧ g.PathOf i d.name) := by
  obtain ⟨rfl, hok⟩ := makeGraph_ok h
  refine ⟨by simp [linked], ?_⟩
  intro k p info hk
  rw [linked_get] at hk
  cases hf : files[k]? with
  | none => rw [hf] at hk; cases hk
  | some x =>
    rw [hf] at hk
    simp only [Option.map_some, Option.some.injEq, Prod.mk.injEq] at hk
    obtain ⟨rfl, rfl⟩ := hk
    refine ⟨x.2, rfl, ?_, rfl, rfl, rfl, ?_⟩
    · simp [SrcInfo.deps, linkInfo, List.map_map, Function.comp_def]
    · intro d hd
      simp only [SrcInfo.deps, linkInfo, ← List.map_append, List.mem_map] at hd
      obtain ⟨d0, hd0, rfl⟩ := hd
      have := hok rfl x (List.mem_of_getElem? hf) d0 hd0
      cases hfi : find files d0.name with
      | none => exact absurd hfi this
      | some i =>
        obtain ⟨v, hv⟩ := (find_eq_some hs).mp hfi
        refine ⟨i, by simp [link, hfi], linkInfo files v, ?_⟩
        rw [linked_get, hv, link_name]; rfl

/-- **C06.** When resolve errors are ignored the construction always succeeds; dependencies that can be
resolved are, the others have no reference. -/
theorem C06_ignore_errors (files : SrcList P) (hs : Map.Sorted files) (hu : Unresolved files) :
    ∃ g, makeGraph files true = .ok g ∧
      ∀ x ∈ g.files, ∀ d ∈ x.2.deps,
        (HasFile files d.name → ∃ i, d.ref = some i ∧ g.PathOf i d.name) ∧
        (¬ HasFile files d.name → d.ref = none) := by
  refine ⟨_, makeGraph_ignore files, ?_⟩
  intro x hx d hd
  obtain ⟨info, hinfo, hx2⟩ := mem_linked.mp hx
  rw [hx2] at hd
  simp only [SrcInfo.deps, linkInfo, ← List.map_append, List.mem_map] at hd
  obtain ⟨d0, hd0, rfl⟩ := hd
  rw [link_name]
  constructor
  · rintro ⟨i0, hi0⟩
    cases hfi : find files d0.name with
    | none => exact absurd rfl ((find_eq_none hs).mp hfi _ hi0)
    | some i =>
      obtain ⟨v, hv⟩ := (find_eq_some hs).mp hfi
      refine ⟨i, by simp [link, hfi], linkInfo files v, ?_⟩
      rw [linked_get, hv]; rfl
  · intro hn
    cases hfi : find files d0.name with
    | none => simp [link, hfi, hu _ hinfo d0 hd0]
    | some i =>
      obtain ⟨v, hv⟩ := (find_eq_some hs).mp hfi
      exact absurd ⟨v, List.mem_of_getElem? hv⟩ hn

/-! ## C07 -/

/-- **C07.** Ids are positions: smaller ids belong to smaller paths, and every id below the size
belongs to a file. -/
theorem C07_ids (files : SrcList P) (hs : Map.Sorted files) {ign : Bool} {g : DepGraph P}
    (h : makeGraph files ign = .ok g) :
    g.toGraph.size = files.length ∧ (∀ u, u < g.toGraph.size → ∃ p, g.PathOf u p ∧ HasFile files p) ∧
    ∀ u v p q, g.PathOf u p → g.PathOf v q → (u < v ↔ PathType.lt p q = true) := by
  obtain ⟨rfl, _⟩ := makeGraph_ok h
  have hs' := linked_sorted hs
  refine ⟨by simp [DepGraph.toGraph, linked], ?_, ?_⟩
  · intro u hu
    simp only [DepGraph.toGraph, linked, List.length_map] at hu
    refine ⟨files[u].1, ⟨linkInfo files files[u].2, ?_⟩, files[u].2, List.getElem_mem _⟩
    rw [linked_get, List.getElem?_eq_getElem hu]; rfl
  · rintro u v p q ⟨i, hi⟩ ⟨k, hk⟩
    constructor
    · intro huv; exact hs'.get_lt hi hk huv
    · intro hlt
      apply Nat.lt_of_not_le
      intro hle
      rcases Nat.lt_or_eq_of_le hle with hvu | rfl
      · have := hs'.get_lt hk hi hvu
        simp only at this
        rw [Map.lt_asymm this] at hlt; cases hlt
      · rw [hi] at hk
        simp only [Option.some.injEq, Prod.mk.injEq] at hk
        rw [hk.1, PathType.irrefl] at hlt; cases hlt

/-- **C07.** Lookup by name finds exactly the file with that path. -/
theorem C07_getNode (files : SrcList P) (hs : Map.Sorted files) {ign : Bool} {g : DepGraph P}
    (h : makeGraph files ign = .ok g) (name : P) :
    (∀ u, getNode g name = some u ↔ g.PathOf u name) ∧
    (getNode g name = none ↔ ¬ HasFile files name) := by
  obtain ⟨rfl, _⟩ := makeGraph_ok h
  have hs' := linked_sorted hs
  refine ⟨fun u => find_eq_some hs', ?_⟩
  unfold getNode
  rw [find_eq_none hs']
  constructor
  · rintro hn ⟨info, hi⟩
    exact hn (name, linkInfo files info) (mem_linked.mpr ⟨info, hi, rfl⟩) rfl
  · intro hn x hx e
    obtain ⟨info, hi, _⟩ := mem_linked.mp hx
    exact hn ⟨info, by rw [← e]; exact hi⟩

/-! ## C05 -/

/-- Where the record of a call is stored. -/
theorem edge_of_call {g : DepGraph P} {u : Nat} {d : Dep P} {w : Nat} (hr : RefsMatch g)
    (he : d ∈ g.toGraph.edges w) (hu : g.toGraph.ref d = some u) : g.PathOf u d.name := by
  simp only [DepGraph.toGraph] at he hu
  split at he
  · cases he
  · rename_i p info hw
    exact hr _ (List.mem_of_getElem? hw) d he u hu

/-- The references listed by `getUseDepsRecursive`. -/
theorem useDeps_refs {g : DepGraph P} (hr : RefsMatch g) {root : Nat} (hroot : root < g.toGraph.size)
    (hac : ¬ ∃ c, Graph.Reach g.toGraph root c ∧ Graph.OnCycle g.toGraph c) :
    ∃ l : List Nat, (getUseDepsRecursive g root).2.map Dep.ref = l.map some ∧
      l.Sublist (Graph.nodesOf (Graph.processGraphNodeRecursive g.toGraph root).2) ∧
      (∀ u, u ∈ l ↔ Graph.Reach g.toGraph root u ∧ u ≠ root ∧ ¬ g.PathOf u PathType.empty) ∧
      (∀ d ∈ (getUseDepsRecursive g root).2, ∃ w, Graph.Reach g.toGraph root w ∧
        d ∈ g.toGraph.edges w ∧ d.name ≠ PathType.empty) := by
  obtain ⟨hok, hnd, hmem, hdf, ⟨pre, hpre⟩, hedge⟩ :=
    Graph.C04_visits_exactly_reachable g.toGraph hr.wellFormed root hroot hac
  -- the calls before the last one
  have hcalls : ∀ c ∈ pre, ∃ d w, c.2 = some d ∧ d ∈ g.toGraph.edges w ∧ d.ref = some c.1 ∧
      Graph.Reach g.toGraph root w := by
    intro c hc
    have hne : c.1 ≠ root := by
      intro e
      rw [hpre] at hnd
      simp only [Graph.nodesOf, List.map_append, List.map_cons, List.map_nil] at hnd
      have := (List.nodup_append.mp hnd).2.2 c.1 (List.mem_map.mpr ⟨c, hc, rfl⟩) root (by simp)
      exact this e
    obtain ⟨d, w, h1, h2, h3, h4⟩ := hedge c.1 c.2 (by rw [hpre]; exact List.mem_append_left _ hc) hne
    exact ⟨d, w, h1, h2, h3, (hmem w).mp h4⟩
  -- filter the calls
  have key : ∀ (cs : List (Nat × Option (Dep P))),
      (∀ c ∈ cs, ∃ d w, c.2 = some d ∧ d ∈ g.toGraph.edges w ∧ d.ref = some c.1 ∧
        Graph.Reach g.toGraph root w) →
      ∃ l : List Nat, (cs.filterMap fun c => match c.2 with
          | none => none
          | some d => if d.name = PathType.empty then none else some d).map Dep.ref = l.map some ∧
        l.Sublist (cs.map Prod.fst) ∧
        (∀ u, u ∈ l ↔ u ∈ cs.map Prod.fst ∧ ¬ g.PathOf u PathType.empty) ∧
        (∀ d ∈ (cs.filterMap fun c => match c.2 with
          | none => none
          | some d => if d.name = PathType.empty then none else some d), ∃ w, Graph.Reach g.toGraph root w ∧
          d ∈ g.toGraph.edges w ∧ d.name ≠ PathType.empty) := by
    intro cs
    induction cs with
    | nil => intro _; exact ⟨[], by simp⟩
    | cons c cs ih =>
      intro h
      obtain ⟨l, h1, h2, h3, h4⟩ := ih (fun c hc => h c (by simp [hc]))
      obtain ⟨d, w, e1, e2, e3, e4⟩ := h c (by simp)
      have hpath := edge_of_call hr e2 e3
      by_cases hempty : d.name = PathType.empty
      · refine ⟨l, ?_, ?_, ?_, ?_⟩
        · simp only [List.filterMap_cons, e1, hempty, if_true]; exact h1
        · rw [List.map_cons]; exact h2.trans (List.sublist_cons_self _ _)
        · intro u
          rw [h3]
          simp only [List.map_cons, List.mem_cons]
          constructor
          · rintro ⟨a, b⟩; exact ⟨.inr a, b⟩
          · rintro ⟨a | a, b⟩
            · subst a; rw [hempty] at hpath; exact absurd hpath b
            · exact ⟨a, b⟩
        · simp only [List.filterMap_cons, e1, hempty, if_true]; exact h4
      · refine ⟨c.1 :: l, ?_, ?_, ?_, ?_⟩
        · simp only [List.filterMap_cons, e1, hempty, if_false, List.map_cons, e3]
          rw [← h1]
        · rw [List.map_cons]; exact List.Sublist.cons_cons _ h2
        · intro u
          simp only [List.map_cons, List.mem_cons, h3]
          constructor
          · rintro (a | ⟨a, b⟩)
            · subst a
              refine ⟨.inl rfl, ?_⟩
              rintro ⟨i, hi⟩
              obtain ⟨i', hi'⟩ := hpath
              rw [hi'] at hi
              simp only [Option.some.injEq, Prod.mk.injEq] at hi
              exact hempty hi.1
            · exact ⟨.inr a, b⟩
          · rintro ⟨a | a, b⟩
            · exact .inl a
            · exact .inr ⟨a, b⟩
        · simp only [List.filterMap_cons, e1, hempty, if_false]
          intro x hx
          simp only [List.mem_cons] at hx
          rcases hx with rfl | hx
          · exact ⟨w, e4, e2, hempty⟩
          · exact h4 x hx
  obtain ⟨l, h1, h2, h3, h4⟩ := key pre hcalls
  have heq : (getUseDepsRecursive g root).2 = pre.filterMap fun c => match c.2 with
          | none => none
          | some d => if d.name = PathType.empty then none else some d := by
    simp only [getUseDepsRecursive, hpre, List.filterMap_append]
    exact List.append_nil _
  refine ⟨l, by rw [heq]; exact h1, ?_, ?_, by rw [heq]; exact h4⟩
  · rw [hpre]
    simp only [Graph.nodesOf, List.map_append]
    exact h2.trans (List.sublist_append_left _ _)
  · intro u
    rw [h3]
    have hm := hmem u
    rw [hpre] at hm
    simp only [Graph.nodesOf, List.map_append, List.map_cons, List.map_nil, List.mem_append,
      List.mem_singleton] at hm
    rw [hpre] at hnd
    simp only [Graph.nodesOf, List.map_append, List.map_cons, List.map_nil] at hnd
    have hnd3 := (List.nodup_append.mp hnd).2.2
    constructor
    · rintro ⟨a, b⟩
      exact ⟨hm.mp (.inl a), hnd3 u a root (by simp), b⟩
    · rintro ⟨a, b, c⟩
      rcases hm.mpr a with h | h
      · exact ⟨h, c⟩
      · exact absurd h b

theorem useDeps_listed {g : DepGraph P} (hr : RefsMatch g) {root : Nat} (hroot : root < g.toGraph.size)
    (hac : ¬ ∃ c, Graph.Reach g.toGraph root c ∧ Graph.OnCycle g.toGraph c) :
    (getUseDepsRecursive g root).1 = .ok ∧
    ∃ l : List Nat, (getUseDepsRecursive g root).2.map Dep.ref = l.map some ∧ l.Nodup ∧
      (∀ u, u ∈ l ↔ Graph.Reach g.toGraph root u ∧ u ≠ root ∧ ¬ g.PathOf u PathType.empty) ∧
      (∀ l₁ u l₂, l = l₁ ++ u :: l₂ → ∀ v, Graph.ReachPlus g.toGraph u v →
        ¬ g.PathOf v PathType.empty → v ∈ l₁) ∧
      ∀ d ∈ (getUseDepsRecursive g root).2, ∃ w, Graph.Reach g.toGraph root w ∧
        d ∈ g.toGraph.edges w := by
  obtain ⟨hok, hnd, hmem, hdf, _⟩ :=
    Graph.C04_visits_exactly_reachable _ hr.wellFormed root hroot hac
  obtain ⟨l, h1, h2, h3, h4⟩ := useDeps_refs hr hroot hac
  refine ⟨hok, l, h1, h2.nodup hnd, h3, ?_, fun d hd => ?_⟩
  · intro l₁ u l₂ hl v hv hve
    -- `v` is listed, since it is reachable
    have hul : u ∈ l := by rw [hl]; simp
    have hru := (h3 u).mp hul
    have hrv := hru.1.trans hv.toReach
    have hvl : v ∈ l := (h3 v).mpr ⟨hrv, by
      rintro rfl
      exact hac ⟨u, hru.1, hv.trans_reach hru.1⟩, hve⟩
    have hndl := h2.nodup hnd
    have hvu : v ≠ u := by rintro rfl; exact hac ⟨v, hru.1, hv⟩
    rw [hl] at hvl
    rcases List.mem_append.mp hvl with hvl | hvl
    · exact hvl
    · exfalso
      have hvl : v ∈ l₂ := by
        rcases List.mem_cons.mp hvl with e | e
        · exact absurd e hvu
        · exact e
      -- in the traversal `v` comes before `u`
      have hunodes : u ∈ Graph.nodesOf (Graph.processGraphNodeRecursive g.toGraph root).2 :=
        h2.subset hul
      obtain ⟨a, b, hab⟩ := List.append_of_mem hunodes
      have hva := hdf.plus_mem hab hv
      have hsub : [u, v].Sublist (a ++ u :: b) := by
        rw [← hab]
        refine List.Sublist.trans ?_ h2
        rw [hl]
        exact (List.Sublist.cons_cons u (List.singleton_sublist.mpr hvl)).trans
          (List.sublist_append_right _ _)
      rw [hab] at hnd
      have hnd' := List.nodup_append.mp hnd
      obtain ⟨r₁, r₂, hr', hr1, hr2⟩ := List.sublist_append_iff.mp hsub
      rcases r₁ with _ | ⟨x, r₁⟩
      · simp at hr'; subst hr'
        exact hnd'.2.2 v hva v (hr2.subset (by simp)) rfl
      · simp at hr'
        have : u ∈ a := by rw [hr'.1]; exact hr1.subset (by simp)
        exact hnd'.2.2 u this u (by simp) rfl
  · obtain ⟨w, hw, he, _⟩ := h4 d hd
    exact ⟨w, hw, he⟩

/-- **C05.** For a file from which no cycle can be reached: the listed dependencies refer to exactly
the files that can be reached from it, except itself and except a file with an empty name,
once each; what a listed file depends on comes before it; and each listed entry is
a dependency declared by a reachable file. -/
theorem C05_recursive_dependencies (files : SrcList P) (hs : Map.Sorted files) (hu : Unresolved files)
    {ign : Bool} {g : DepGraph P} (h : makeGraph files ign = .ok g) {root : Nat}
    (hroot : root < g.toGraph.size)
    (hac : ¬ ∃ c, Graph.Reach g.toGraph root c ∧ Graph.OnCycle g.toGraph c) :
    (getUseDepsRecursive g root).1 = .ok ∧
    ∃ l : List Nat, (getUseDepsRecursive g root).2.map Dep.ref = l.map some ∧ l.Nodup ∧
      (∀ u, u ∈ l ↔ Graph.Reach g.toGraph root u ∧ u ≠ root ∧ ¬ g.PathOf u PathType.empty) ∧
      (∀ l₁ u l₂, l = l₁ ++ u :: l₂ → ∀ v, Graph.ReachPlus g.toGraph u v →
        ¬ g.PathOf v PathType.empty → v ∈ l₁) ∧
      ∀ d ∈ (getUseDepsRecursive g root).2, ∃ w, Graph.Reach g.toGraph root w ∧
        d ∈ g.toGraph.edges w := by
  obtain ⟨rfl, _⟩ := makeGraph_ok h
  exact useDeps_listed (linked_refsMatch hs hu) hroot hac

/-! ## C08 -/

/-- **C08.** Collecting the targets succeeds iff no two declared targets have the same name,
and the result then is what has been declared: each target with the file that declares it. -/
theorem C08_one_owner (files : SrcList P) :
    ((∃ m, collectTargets files [] = .ok m) ↔ ((declared files).map Prod.fst).Nodup) ∧
    ∀ m, collectTargets files [] = .ok m → Map.Sorted m ∧
      ∀ name t, (name, t) ∈ m ↔ ∃ info, (t.sourceFilename, info) ∈ files ∧ t.target ∈ info.targets ∧
        t.target.name ≠ t.sourceFilename ∧ name = PathType.norm t.target.name := by
  refine ⟨⟨?_, ?_⟩, ?_⟩
  · rintro ⟨m, hm⟩
    exact (collectTargets_ok (by trivial) hm).2.1
  · intro hn
    cases h : collectTargets files [] with
    | ok m => exact ⟨m, rfl⟩
    | error e => exact absurd ⟨hn, by simp⟩ (collectTargets_error (by trivial) h)
  · intro m hm
    obtain ⟨s, _, _, e⟩ := collectTargets_ok (by trivial) hm
    refine ⟨s, fun name t => ?_⟩
    rw [e]
    simp only [List.not_mem_nil, false_or, declared, List.mem_flatMap, declaredBy, List.mem_map,
      List.mem_filter, decide_eq_true_eq, Prod.mk.injEq]
    constructor
    · rintro ⟨x, hx, t', ⟨ht', hne⟩, rfl, rfl⟩
      exact ⟨x.2, hx, ht', fun h => hne h.symm, rfl⟩
    · rintro ⟨info, h1, h2, h3, rfl⟩
      exact ⟨_, h1, t.target, ⟨h2, fun h => h3 h.symm⟩, rfl, rfl⟩

/-! ## C09 -/

/-- **C09.** What is created for a target: origin `generated`, the source file as the only build
dependency, and as use dependencies those declared for the target plus the extra
dependencies of everything that can be reached from the source file, except the target itself. -/
theorem C09_generated_entry (files : SrcList P) (hs : Map.Sorted files) (hu : Unresolved files)
    {g : DepGraph P} (h : makeGraph files true = .ok g) {name : P} {t : Target P} {info : SrcInfo P}
    (hi : makeSourceFileInfo g name t = .ok info) :
    info.origin = .generated ∧ info.targets = [] ∧ info.policy = .onlyIfOutOfDate ∧
    info.buildDeps = [{ name := t.sourceFilename, origin := .project, ref := none }] ∧
    ∃ root, g.PathOf root t.sourceFilename ∧
      ∀ d, d ∈ info.useDeps ↔ d ∈ t.target.useDeps ∨
        ∃ u p uinfo, Graph.Reach g.toGraph root u ∧ g.files[u]? = some (p, uinfo) ∧
          d ∈ uinfo.childTargetsUseDeps ∧ d.name ≠ name := by
  have hnode := fun n => (C07_getNode files hs h n).1
  obtain ⟨rfl, _⟩ := makeGraph_ok h
  have hr := linked_refsMatch hs hu
  unfold makeSourceFileInfo at hi
  split at hi
  · cases hi
  · rename_i root hroot
    have hpath := (hnode _ root).mp hroot
    have hlt : root < (linked files).toGraph.size := by
      obtain ⟨i, hi⟩ := hpath
      exact (List.getElem?_eq_some_iff.mp hi).1
    have hcyc := (Graph.C03_cycle_detection_from _ hr.wellFormed root hlt).2.1
    split at hi
    · rename_i calls hcalls
      simp at hi; subst hi
      have hac : ¬ ∃ c, Graph.Reach (linked files).toGraph root c ∧ Graph.OnCycle (linked files).toGraph c := by
        rw [← hcyc, hcalls]; simp
      have hmem := (Graph.C04_visits_exactly_reachable _ hr.wellFormed root hlt hac).2.2.1
      rw [hcalls] at hmem
      refine ⟨rfl, rfl, rfl, rfl, root, hpath, fun d => ?_⟩
      simp only [List.mem_append, List.mem_flatMap]
      apply or_congr Iff.rfl
      constructor
      · rintro ⟨c, hc, hd⟩
        unfold childDeps at hd
        split at hd
        · cases hd
        · rename_i p uinfo hu'
          simp only [List.mem_filter, decide_eq_true_eq, ne_eq] at hd
          exact ⟨c.1, p, uinfo, (hmem c.1).mp (List.mem_map.mpr ⟨c, hc, rfl⟩), hu', hd.1, by simpa using hd.2⟩
      · rintro ⟨u, p, uinfo, hru, hu', hd, hne⟩
        obtain ⟨c, hc, rfl⟩ := List.mem_map.mp ((hmem u).mpr hru)
        refine ⟨c, hc, ?_⟩
        unfold childDeps
        rw [hu']
        simp [hd, hne]
    · cases hi
    · cases hi

theorem makeInfosLoop_ok {g : DepGraph P} {ts : TargetList P} (hts : Map.Sorted ts) {m m' : SrcList P} (hs : Map.Sorted m)
    (h : makeSourceFileInfosLoop g ts m = .ok m') : Map.Sorted m' ∧
    ∀ x, x ∈ m' ↔ x ∈ m ∨ ∃ t info, (x.1, t) ∈ ts ∧ makeSourceFileInfo g x.1 t = .ok info ∧
      x.2 = info ∧ ¬ HasFile m x.1 := by
  induction ts generalizing m with
  | nil => simp [makeSourceFileInfosLoop] at h; subst h; simp [hs]
  | cons a ts ih =>
    obtain ⟨name, t⟩ := a
    simp only [makeSourceFileInfosLoop] at h
    split at h
    · cases h
    · rename_i info hinfo
      obtain ⟨s1, e1⟩ := ih hts.2 (Map.insertNew_sorted hs) h
      refine ⟨s1, fun x => ?_⟩
      rw [e1, Map.mem_insertNew_iff hs]
      constructor
      · rintro ((hx | ⟨rfl, hx⟩) | ⟨t', i', h1, h2, h3, h4⟩)
        · exact .inl hx
        · exact .inr ⟨t, info, by simp, hinfo, rfl, by
            rintro ⟨j, hj⟩; exact hx _ hj rfl⟩
        · refine .inr ⟨t', i', by simp [h1], h2, h3, ?_⟩
          rintro ⟨j, hj⟩
          exact h4 ⟨j, Map.mem_insertNew_of_mem hj⟩
      · rintro (hx | ⟨t', i', h1, h2, h3, h4⟩)
        · exact .inl (.inl hx)
        · simp only [List.mem_cons, Prod.mk.injEq] at h1
          rcases h1 with ⟨h1, rfl⟩ | h1
          · left; right
            obtain ⟨x1, x2⟩ := x
            simp only at h1 h2 h3 h4 ⊢
            subst h1; subst h3
            rw [hinfo] at h2
            simp at h2; subst h2
            exact ⟨rfl, fun y hy e => h4 ⟨y.2, by rw [← e]; exact hy⟩⟩
          · right
            refine ⟨t', i', h1, h2, h3, ?_⟩
            rintro ⟨j, hj⟩
            rcases Map.mem_insertNew hj with e | hj
            · simp only [Prod.mk.injEq] at e
              exact Map.lt_ne (hts.1 _ h1) e.1.symm
            · exact h4 ⟨j, hj⟩

/-- **C09.** What is created for a list of targets: one entry for each target whose name is not that of a file
in the list, and no entry is changed or removed. -/
theorem C09_generated_entries (files : SrcList P) (hs : Map.Sorted files)
    {ts : TargetList P} (hts : Map.Sorted ts) {files' : SrcList P}
    (h : makeSourceFileInfos ts files = .ok files') :
    ∃ g, makeGraph files true = .ok g ∧ Map.Sorted files' ∧
      ∀ x, x ∈ files' ↔ x ∈ files ∨ ∃ t info, (x.1, t) ∈ ts ∧ makeSourceFileInfo g x.1 t = .ok info ∧
        x.2 = info ∧ ¬ HasFile files x.1 := by
  unfold makeSourceFileInfos at h
  rw [makeGraph_ignore] at h
  exact ⟨_, makeGraph_ignore files, makeInfosLoop_ok hts hs h⟩

/-! ## C10 -/

/-- Merging the placeholders, see `C10_placeholders`. -/
theorem placeholders_merged (files : SrcList P) (hs : Map.Sorted files) :
    let merged := Map.mergeNew files (createPlaceholders files [])
    Map.Sorted merged ∧ (∀ x ∈ files, x ∈ merged) ∧
    (∀ p info, (p, info) ∈ merged → (p, info) ∈ files ∨
      (¬ HasFile files p ∧ ∃ x ∈ files, ∃ d ∈ extDeps x.2, isExternal d.origin = true ∧
        p = d.name ∧ info = { origin := d.origin })) ∧
    (∀ x ∈ files, ∀ d ∈ extDeps x.2, isExternal d.origin = true → HasFile merged d.name) := by
  intro merged
  have hc := createPlaceholders_covers (files := files) (m := []) (by trivial)
  refine ⟨Map.mergeNew_sorted hs, ?_, ?_, ?_⟩
  · intro x hx; exact (Map.mem_mergeNew_iff hs hc.sorted).mpr (.inl hx)
  · intro p info hx
    rcases (Map.mem_mergeNew_iff hs hc.sorted).mp hx with h | ⟨h1, h2⟩
    · exact .inl h
    · right
      refine ⟨fun ⟨i, hi⟩ => h2 _ hi rfl, ?_⟩
      rcases hc.new _ h1 with h | ⟨d, hd, he, hx⟩
      · cases h
      · obtain ⟨x, hx', hdx⟩ := List.mem_flatMap.mp hd
        simp only [Prod.mk.injEq] at hx
        exact ⟨x, hx', d, hdx, he, hx.1, hx.2⟩
  · intro x hx d hd he
    obtain ⟨info, hi⟩ := hc.cover d (List.mem_flatMap.mpr ⟨x, hx, hd⟩) he
    by_cases hp : HasFile files d.name
    · obtain ⟨i, hi⟩ := hp
      exact ⟨i, (Map.mem_mergeNew_iff hs hc.sorted).mpr (.inl hi)⟩
    · exact ⟨info, (Map.mem_mergeNew_iff hs hc.sorted).mpr (.inr ⟨hi, fun y hy e => hp ⟨y.2, by
        simp only at e; rw [← e]; exact hy⟩⟩)⟩

/-- What is found on the system, or belongs to a package, is not part of the project. -/
theorem isExternal_iff (o : Origin) : isExternal o = true ↔ o = .system ∨ o = .pkgConfig := by cases o <;> simp [isExternal]

/-- **C10.** Merging the placeholders: files that were there stay as they are; whatever is added
is a placeholder for a use dependency of a file or a target on a file of the system, or of a package; and each of those has an entry. -/
theorem C10_placeholders (files : SrcList P) (hs : Map.Sorted files) :
    let merged := Map.mergeNew files (createPlaceholders files [])
    Map.Sorted merged ∧ (∀ x ∈ files, x ∈ merged) ∧
    (∀ p info, (p, info) ∈ merged → (p, info) ∈ files ∨
      (¬ HasFile files p ∧ ∃ x ∈ files, ∃ d ∈ extDeps x.2, (d.origin = .system ∨ d.origin = .pkgConfig) ∧
        p = d.name ∧ info = { origin := d.origin })) ∧
    (∀ x ∈ files, ∀ d ∈ extDeps x.2, (d.origin = .system ∨ d.origin = .pkgConfig) → HasFile merged d.name) := by
  have h := placeholders_merged files hs
  simp only [isExternal_iff] at h
  exact h

end Maike.Db
