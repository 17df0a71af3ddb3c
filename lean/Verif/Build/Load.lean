import Verif.Build.History
import Verif.Db.Tasks

/-!
# Builds of a loaded source tree

A source tree that has been loaded is a project in the sense of `Build.Sane`, so that C13 and C14 apply to it.
-/

set_option linter.unusedSectionVars false

namespace Maike.Build

open Maike.Db

variable {P : Type} [PathType P] [DecidableEq P] [Inhabited P]

/-- The build of a list of tasks of a source tree. -/
def ofGraph (g : DepGraph P) (tasks : List Nat) (workers : Nat) (force : Bool) (kind : P → Bool)
    (fine : Bool) : Build P where
  job := makeJob g tasks workers
  task := makeTask g
  force := force
  kind := kind
  fine := fine

/-- What is assumed about the files found by the scanner: build dependencies are not set by loaders,
dependencies have not been resolved, names of targets are in normal form, no target
overwrites a file of the project unless both are directories, and only directories are made from directories. -/
structure Loadable (files : SrcList P) (kind : P → Bool) : Prop where
  sorted : Map.Sorted files
  unresolved : Unresolved files
  noBuildDeps : ∀ x ∈ files, x.2.buildDeps = []
  normal : ∀ x ∈ files, ∀ t ∈ x.2.targets, PathType.norm t.name = t.name
  separate : ∀ x ∈ files, ∀ t ∈ x.2.targets, kind t.name = false → ¬ HasFile files t.name
  dirs : ∀ x ∈ files, kind x.1 = true → ∀ t ∈ x.2.targets, kind t.name = true

omit [PathType P] in
theorem pairs_of_deps {i₁ i₂ : SrcInfo P}
    (h : i₁.deps.map (fun d => ({ d with ref := none } : Dep P)) = i₂.deps.map (fun d => { d with ref := none })) :
    i₁.deps.map (fun d => (d.name, d.origin)) = i₂.deps.map (fun d => (d.name, d.origin)) := by
  have := congrArg (List.map fun d => (d.name, d.origin)) h
  simpa [List.map_map, Function.comp_def] using this

/-- The pieces of a successful load. -/
theorem load_ok {files : SrcList P} (hs : Map.Sorted files) {tree : SourceTree P}
    (h : load files = .ok tree) : ∃ files1 files3,
      collectTargets files [] = .ok tree.targets ∧ makeSourceFileInfos tree.targets files = .ok files1 ∧
      files3 = addTargetDepsToSourceFiles (Map.mergeNew files1 (createPlaceholders files1 [])) ∧
      makeGraph files3 false = .ok tree.graph ∧ Map.Sorted files3 := by
  unfold load at h
  split at h
  · cases h
  · rename_i targets hc
    split at h
    · cases h
    · rename_i files1 h1
      dsimp only at h
      split at h
      · cases h
      · rename_i g hg
        simp only [Except.ok.injEq] at h
        subst h
        exact ⟨files1, _, hc, h1, rfl, hg, (load_cases files hs hc h1).1⟩

/-- Where the records of the graph come from. -/
theorem record_origin {files : SrcList P} {kind : P → Bool} (hl : Loadable files kind) {tree : SourceTree P}
    (h : load files = .ok tree) {u : Nat} {p : P} {info : SrcInfo P}
    (hu : tree.graph.files[u]? = some (p, info)) :
    (∃ i0, (p, i0) ∈ files ∧ info.targets = i0.targets ∧ info.policy = i0.policy) ∨
    (info.targets = [] ∧ ∀ t, (p, t) ∈ tree.targets → ∃ v, tree.graph.PathOf v t.sourceFilename ∧
      Graph.Adj tree.graph.toGraph u v) := by
  obtain ⟨files1, files3, hc, h1, rfl, hg, s3⟩ := load_ok hl.sorted h
  obtain ⟨g1, hg1, s1, hmem1⟩ := C09_generated_entries files hl.sorted (C08_one_owner files |>.2 _ hc |>.1) h1
  obtain ⟨s2, hkeep, hnew, hcov⟩ := placeholders_merged files1 s1
  obtain ⟨i3, hi3, hdeps, htg, hpol, _, hres⟩ := (C06_resolved _ s3 hg).2 u p info hu
  obtain ⟨_, i2, hi2, hbd, htg2, hpol2⟩ := addLoop_deps (m₀ := Map.mergeNew files1 (createPlaceholders files1 []))
    (m := Map.mergeNew files1 (createPlaceholders files1 []))
    (fun p info hp => ⟨fun d hd => ⟨_, hp, hd⟩, info, hp, rfl, rfl, rfl⟩) p i3 (List.mem_of_getElem? hi3)
  -- a target whose name is `p` gives an entry in `files1`
  have htarget : ∀ t, (p, t) ∈ tree.targets → HasFile files1 p := by
    intro t ht
    by_cases hf : HasFile files p
    · obtain ⟨i, hi⟩ := hf; exact ⟨i, (hmem1 _).mpr (.inl hi)⟩
    · have hall : ∀ (ts : TargetList P) (m m' : SrcList P),
          makeSourceFileInfosLoop g1 ts m = .ok m' → ∀ a ∈ ts, ∃ i, makeSourceFileInfo g1 a.1 a.2 = .ok i := by
        intro ts
        induction ts with
        | nil => intro m m' _ a ha; cases ha
        | cons b ts ih =>
          intro m m' hm a ha
          obtain ⟨bn, bt⟩ := b
          simp only [makeSourceFileInfosLoop] at hm
          split at hm
          · cases hm
          · rename_i i hi
            rcases List.mem_cons.mp ha with rfl | ha
            · exact ⟨i, hi⟩
            · exact ih _ _ hm a ha
      have h1' := h1
      unfold makeSourceFileInfos at h1'
      rw [hg1] at h1'
      obtain ⟨i, hi⟩ := hall _ _ _ h1' _ ht
      exact ⟨i, (hmem1 _).mpr (.inr ⟨t, i, ht, hi, rfl, hf⟩)⟩
  rcases hnew p i2 hi2 with hp1 | ⟨hno, _, _, _, _, _, _, rfl⟩
  · rcases (hmem1 _).mp hp1 with hp0 | ⟨t, i, ht, hi, hpi, hnf⟩
    · exact .inl ⟨i2, hp0, by rw [htg, htg2], by rw [hpol, hpol2]⟩
    · right
      simp only at hpi hi ht hnf; subst hpi
      obtain ⟨_, ht0, _, hbuild, _⟩ := C09_generated_entry files hl.sorted hl.unresolved hg1 hi
      refine ⟨by rw [htg, ← htg2, ht0], fun t' ht' => ?_⟩
      have hsT := (C08_one_owner files |>.2 _ hc |>.1)
      have := hsT.unique ht ht'
      subst this
      -- the build dependency has been resolved
      have hname : (t.sourceFilename, Origin.project) ∈ info.deps.map (fun d => (d.name, d.origin)) := by
        rw [pairs_of_deps hdeps]
        refine List.mem_map.mpr ⟨{ name := t.sourceFilename, origin := .project, ref := none }, ?_, rfl⟩
        simp only [SrcInfo.deps, List.mem_append]
        right
        rw [← hbd, hbuild]; simp
      obtain ⟨d, hd, hdn⟩ := List.mem_map.mp hname
      simp only [Prod.mk.injEq] at hdn
      obtain ⟨v, hv, hpv⟩ := hres d hd
      refine ⟨v, by rw [← hdn.1]; exact hpv, d, ?_, hv⟩
      simp only [DepGraph.toGraph, hu]
      exact hd
  · right
    refine ⟨by rw [htg, ← htg2], fun t' ht' => absurd (htarget t' ht') hno⟩

/-- The records of files with targets. -/
theorem builds_origin {files : SrcList P} {kind : P → Bool} (hl : Loadable files kind) {tree : SourceTree P}
    (h : load files = .ok tree) {u : Nat} {q : P} (hq : q ∈ (makeTask tree.graph u).targets) :
    ∃ p i0 ti, tree.graph.PathOf u p ∧ (makeTask tree.graph u).src = p ∧ (p, i0) ∈ files ∧ ti ∈ i0.targets ∧ ti.name = q := by
  unfold makeTask at hq ⊢
  split at hq
  · cases hq
  · rename_i p info hu
    obtain ⟨ti, hti, rfl⟩ := List.mem_map.mp hq
    rcases record_origin hl h hu with ⟨i0, hi0, htg, _⟩ | ⟨htg, _⟩
    · exact ⟨p, i0, ti, ⟨info, hu⟩, by simp [hu], hi0, by rw [← htg]; exact hti, rfl⟩
    · rw [htg] at hti; cases hti

theorem path_unique {g : DepGraph P} (hs : Map.Sorted g.files) {u v : Nat} {p : P} (hu : g.PathOf u p)
    (hv : g.PathOf v p) : u = v := by
  obtain ⟨i, hi⟩ := hu
  obtain ⟨j, hj⟩ := hv
  rcases Nat.lt_trichotomy u v with h | h | h
  · have := hs.get_lt hi hj h
    simp only at this
    rw [PathType.irrefl] at this; cases this
  · exact h
  · have := hs.get_lt hj hi h
    simp only at this
    rw [PathType.irrefl] at this; cases this

/-- The record of the owner of a target that is not a directory. -/
theorem declared_target {files : SrcList P} {kind : P → Bool} (hl : Loadable files kind) {tree : SourceTree P}
    (h : load files = .ok tree) {u : Nat} {q : P} (hq : q ∈ (makeTask tree.graph u).targets) (hk : kind q = false) :
    ∃ p ti, tree.graph.PathOf u p ∧ (q, (⟨p, ti⟩ : Target P)) ∈ tree.targets := by
  obtain ⟨files1, files3, hc, h1, h3, hg, s3⟩ := load_ok hl.sorted h
  have hsT := (C08_one_owner files).2 _ hc
  obtain ⟨p, i0, ti, hp, _, hi0, hti, rfl⟩ := builds_origin hl h hq
  refine ⟨p, ti, hp, (hsT.2 _ _).mpr ⟨i0, hi0, hti, ?_, (hl.normal _ hi0 ti hti).symm⟩⟩
  intro e
  simp only at e
  exact hl.separate _ hi0 ti hti hk ⟨i0, by rw [e]; exact hi0⟩

/-- No two files have the same target, unless it is a directory. -/
theorem owner_of_load {files : SrcList P} {kind : P → Bool} (hl : Loadable files kind) {tree : SourceTree P}
    (h : load files = .ok tree) {t u : Nat} {q : P} (hqt : q ∈ (makeTask tree.graph t).targets)
    (hqu : q ∈ (makeTask tree.graph u).targets) (hk : kind q = false) : t = u := by
  obtain ⟨files1, files3, hc, h1, h3, hg, s3⟩ := load_ok hl.sorted h
  have hsg : Map.Sorted tree.graph.files := sorted_of_keys (C06_resolved _ s3 hg).1 s3
  have hsT := (C08_one_owner files).2 _ hc
  obtain ⟨p, ti, hp, hm⟩ := declared_target hl h hqt hk
  obtain ⟨p', ti', hp', hm'⟩ := declared_target hl h hqu hk
  have := hsT.1.unique hm hm'
  simp only [Target.mk.injEq] at this
  rw [← this.1] at hp'
  exact path_unique hsg hp hp'

/-- A task depends on the owner of each file that it reads. -/
theorem reads_of_load {files : SrcList P} {kind : P → Bool} (hl : Loadable files kind) {tree : SourceTree P}
    (h : load files = .ok tree) {t : Nat} (hb : tree.graph.Builds t)
    (hac : ¬ ∃ c, Graph.Reach tree.graph.toGraph t c ∧ Graph.OnCycle tree.graph.toGraph c) {q : P}
    (hq : q = (makeTask tree.graph t).src ∨ ∃ d ∈ (makeTask tree.graph t).deps, d.name = q ∧ isExternal d.origin = false)
    (hk : kind q = false) {u : Nat} (hqu : q ∈ (makeTask tree.graph u).targets) :
    Graph.ReachPlus tree.graph.toGraph t u := by
  obtain ⟨files1, files3, hc, h1, h3, hg, s3⟩ := load_ok hl.sorted h
  have hr := refsMatch_of_ok s3 hg
  have hsg : Map.Sorted tree.graph.files := sorted_of_keys (C06_resolved _ s3 hg).1 s3
  have hlt : t < tree.graph.toGraph.size := by
    obtain ⟨p, i, hi, _⟩ := hb
    exact (List.getElem?_eq_some_iff.mp hi).1
  -- the record of `q`
  have hw : ∃ w, Graph.Reach tree.graph.toGraph t w ∧ tree.graph.PathOf w q := by
    obtain ⟨pt, it, hit, _⟩ := hb
    have hmk : (makeTask tree.graph t).src = pt := by simp [makeTask, hit]
    have hmd : (makeTask tree.graph t).deps = (getUseDepsRecursive tree.graph t).2 := by simp [makeTask, hit]
    rcases hq with rfl | ⟨d, hd, rfl, _⟩
    · exact ⟨t, .refl t, it, by rw [hmk]; exact hit⟩
    · have hd : d ∈ (getUseDepsRecursive tree.graph t).2 := by rw [← hmd]; exact hd
      obtain ⟨l, h1, _, h3, h4⟩ := useDeps_refs hr hlt hac
      obtain ⟨w0, hw0, he, _⟩ := h4 d hd
      have hmem : d.ref ∈ l.map some := by rw [← h1]; exact List.mem_map.mpr ⟨d, hd, rfl⟩
      obtain ⟨w, hw, hdw⟩ := List.mem_map.mp hmem
      exact ⟨w, ((h3 w).mp hw).1, edge_of_call hr he hdw.symm⟩
  obtain ⟨w, hrw, iw, hiw⟩ := hw
  obtain ⟨p, ti, hp, hm⟩ := declared_target hl h hqu hk
  rcases record_origin hl h hiw with ⟨i0, hi0, _⟩ | ⟨_, hadj⟩
  · obtain ⟨p', i0', ti', _, _, hi0', hti', hn⟩ := builds_origin hl h hqu
    have := hl.separate _ hi0' ti' hti' (by rw [hn]; exact hk)
    rw [hn] at this
    exact absurd ⟨i0, hi0⟩ this
  · obtain ⟨v, hv, hwv⟩ := hadj _ hm
    have := path_unique hsg hv hp
    subst this
    exact ⟨w, hrw, hwv⟩

/-- Only directories are made from directories. -/
theorem dirs_of_load {files : SrcList P} {kind : P → Bool} (hl : Loadable files kind) {tree : SourceTree P}
    (h : load files = .ok tree) {t : Nat} (hks : kind (makeTask tree.graph t).src = true) {q : P}
    (hq : q ∈ (makeTask tree.graph t).targets) : kind q = true := by
  obtain ⟨p, i0, ti, hp, hsrc, hi0, hti, rfl⟩ := builds_origin hl h hq
  rw [hsrc] at hks
  exact hl.dirs _ hi0 hks ti hti

/-- A loaded source tree is a project that can be built. `tasks` is a task list that is closed under dependencies,
as the ones made by `TaskList` are. -/
theorem sane_of_load {files : SrcList P} {kind : P → Bool} (hl : Loadable files kind) {tree : SourceTree P}
    (h : load files = .ok tree) (hne : ∀ u, ¬ tree.graph.PathOf u PathType.empty)
    {tasks : List Nat} (hb : ∀ u ∈ tasks, tree.graph.Builds u)
    (hac : ∀ u ∈ tasks, ¬ ∃ c, Graph.Reach tree.graph.toGraph u c ∧ Graph.OnCycle tree.graph.toGraph c)
    {workers : Nat} (htop : (makeJob tree.graph tasks workers).Topological) (force fine : Bool) :
    (ofGraph tree.graph tasks workers force kind fine).Sane := by
  obtain ⟨files1, files3, hc, h1, h3, hg, s3⟩ := load_ok hl.sorted h
  have hr := refsMatch_of_ok s3 hg
  have hlt : ∀ u ∈ tasks, u < tree.graph.toGraph.size := by
    intro u hu
    obtain ⟨p, i, hi, _⟩ := hb u hu
    exact (List.getElem?_eq_some_iff.mp hi).1
  have hdeps : ∀ t ∈ tasks, ∀ d, d ∈ taskDeps tree.graph t ↔ Graph.ReachPlus tree.graph.toGraph t d := by
    intro t ht d
    have hk := mem_taskDeps_plus hr (hlt t ht) (hac t ht) d
    exact ⟨hk.1, fun hd => hk.2 hd (hne d)⟩
  refine ⟨htop, ?_, ?_, ?_, ?_⟩
  · intro t ht u hu q hqt hqu hk
    exact owner_of_load hl h hqt hqu hk
  · intro t ht q hq hk u hu hqu
    show u ∈ taskDeps tree.graph t
    rw [hdeps t ht]
    exact reads_of_load hl h (hb t ht) (hac t ht) hq hk hqu
  · intro t ht u hu v hv hut hvu
    change u ∈ taskDeps tree.graph t at hut
    change v ∈ taskDeps tree.graph u at hvu
    show v ∈ taskDeps tree.graph t
    rw [hdeps t ht] at hut ⊢
    rw [hdeps u hu] at hvu
    obtain ⟨w, hw, hwv⟩ := hvu
    exact ⟨w, hut.toReach.trans hw, hwv⟩
  · intro t ht hks q hq
    exact dirs_of_load hl h hks hq

/-- **C13** for a loaded source tree without cycles, built as a whole. -/
theorem C13_source_tree {files : SrcList P} {kind : P → Bool} (hl : Loadable files kind) {tree : SourceTree P}
    (h : load files = .ok tree) (hne : ∀ u, ¬ tree.graph.PathOf u PathType.empty)
    (hok : (taskListAll tree.graph).1 = .ok) {workers : Nat} {force : Bool} {fs : FileSys P} {now : Nat}
    (hfs : Plausible (ofGraph tree.graph (taskListAll tree.graph).2 workers force kind true) fs now)
    {as : List (Act P)} {s : State P}
    (hx : exec (ofGraph tree.graph (taskListAll tree.graph).2 workers force kind true) as
      (init (ofGraph tree.graph (taskListAll tree.graph).2 workers force kind true) fs now) = some s)
    (hs : s.Succeeded) :
    ∀ u p info, tree.graph.files[u]? = some (p, info) → ∀ t ∈ info.targets,
      Exists s.fs t.name ∧ (isDir s.fs t.name = false →
        StrictlyNewer s.fs t.name p ∧
        ∀ v q vinfo, Graph.ReachPlus tree.graph.toGraph u v → tree.graph.files[v]? = some (q, vinfo) →
          (∀ w, Graph.Reach tree.graph.toGraph u w → ∀ d ∈ tree.graph.toGraph.edges w, d.name = q →
            isExternal d.origin = false) →
          isDir s.fs q = false → StrictlyNewer s.fs t.name q) := by
  obtain ⟨files1, files3, hc, h1, h3, hg, s3⟩ := load_ok hl.sorted h
  have hr := refsMatch_of_ok s3 hg
  obtain ⟨hcyc, hrest⟩ := C21_all_tasks files3 s3 hg
  obtain ⟨hmem, htop⟩ := hrest hok
  have hac : ∀ u, ¬ ∃ c, Graph.Reach tree.graph.toGraph u c ∧ Graph.OnCycle tree.graph.toGraph c := by
    rintro u ⟨c, _, hc⟩
    refine hcyc.mp hok ⟨c, ?_, hc⟩
    obtain ⟨w, _, hadj⟩ := hc
    exact hr.wellFormed _ _ hadj
  have hsane := sane_of_load hl h hne (tasks := (taskListAll tree.graph).2) (fun u hu => (hmem u).mp hu)
    (fun u _ => hac u) (htop workers) force true
  intro u p info hu t ht
  have hbu : u ∈ (taskListAll tree.graph).2 := (hmem u).mpr ⟨p, info, hu, List.ne_nil_of_mem ht⟩
  obtain ⟨hup, hexs⟩ := C13_up_to_date _ hsane rfl rfl hfs hx hs u hbu
  have htask : makeTask tree.graph u = Task.mk p (info.targets.map (fun t => t.name))
      (getUseDepsRecursive tree.graph u).2 info.policy := by simp [makeTask, hu]
  have htt : t.name ∈ (makeTask tree.graph u).targets := by rw [htask]; exact List.mem_map.mpr ⟨t, ht, rfl⟩
  refine ⟨hexs _ htt, fun hd => ⟨?_, ?_⟩⟩
  · refine hup _ htt hd p (.inl ?_)
    show p = (makeTask tree.graph u).src
    rw [htask]
  · intro v q vinfo hv hq hext hdq
    refine hup _ htt hd q (.inr ?_)
    have hlt : u < tree.graph.toGraph.size := (List.getElem?_eq_some_iff.mp hu).1
    obtain ⟨l, hl1, _, hl3, hl4⟩ := useDeps_refs hr hlt (hac u)
    have hvl : v ∈ l := (hl3 v).mpr ⟨hv.toReach, fun e => hac u ⟨u, .refl u, by rw [e] at hv; exact hv⟩, hne v⟩
    have : some v ∈ (getUseDepsRecursive tree.graph u).2.map Dep.ref := by
      rw [hl1]; exact List.mem_map.mpr ⟨v, hvl, rfl⟩
    obtain ⟨d, hd', hdv⟩ := List.mem_map.mp this
    obtain ⟨w, hrw, he, _⟩ := hl4 d hd'
    obtain ⟨i', hi'⟩ := edge_of_call hr he hdv
    rw [hq] at hi'
    simp only [Option.some.injEq, Prod.mk.injEq] at hi'
    refine ⟨d, ?_, hi'.1.symm, hext w hrw d he hi'.1.symm, hdq⟩
    show d ∈ (makeTask tree.graph u).deps
    rw [htask]; exact hd'

/-- **C14** for a loaded source tree without cycles, built as a whole twice: commands are executed in
the second build only for files whose policy is "always", or that depend on such a file. -/
theorem C14_source_tree {files : SrcList P} {kind : P → Bool} (hl : Loadable files kind) {tree : SourceTree P}
    (h : load files = .ok tree) (hne : ∀ u, ¬ tree.graph.PathOf u PathType.empty)
    (hok : (taskListAll tree.graph).1 = .ok) {workers : Nat} {force : Bool} {fs : FileSys P} {now : Nat}
    (hfs : Plausible (ofGraph tree.graph (taskListAll tree.graph).2 workers force kind true) fs now)
    {as : List (Act P)} {s₁ : State P}
    (hx : exec (ofGraph tree.graph (taskListAll tree.graph).2 workers force kind true) as
      (init (ofGraph tree.graph (taskListAll tree.graph).2 workers force kind true) fs now) = some s₁)
    (hs : s₁.Succeeded) {later : Nat} {as' : List (Act P)} {s₂ : State P}
    (hx' : exec (ofGraph tree.graph (taskListAll tree.graph).2 workers false kind true) as'
      (init (ofGraph tree.graph (taskListAll tree.graph).2 workers false kind true) s₁.fs later) = some s₂)
    {t : Nat} (ht : tree.graph.Builds t) (hex : s₂.Executed t) :
    ∃ u p info, (u = t ∨ Graph.ReachPlus tree.graph.toGraph t u) ∧
      tree.graph.files[u]? = some (p, info) ∧ info.targets ≠ [] ∧ info.policy = .always := by
  obtain ⟨files1, files3, hc, h1, h3, hg, s3⟩ := load_ok hl.sorted h
  have hr := refsMatch_of_ok s3 hg
  obtain ⟨hcyc, hrest⟩ := C21_all_tasks files3 s3 hg
  obtain ⟨hmem, htop⟩ := hrest hok
  have hac : ∀ u, ¬ ∃ c, Graph.Reach tree.graph.toGraph u c ∧ Graph.OnCycle tree.graph.toGraph c := by
    rintro u ⟨c, _, hc⟩
    refine hcyc.mp hok ⟨c, ?_, hc⟩
    obtain ⟨w, _, hadj⟩ := hc
    exact hr.wellFormed _ _ hadj
  have hsane := sane_of_load hl h hne (tasks := (taskListAll tree.graph).2) (fun u hu => (hmem u).mp hu)
    (fun u _ => hac u) (htop workers) force true
  obtain ⟨u, hu, hor, hpol⟩ := C14_second_build_idle _ hsane rfl rfl hfs hx hs hx' ((hmem t).mpr ht) hex
  obtain ⟨p, info, hgu, hne'⟩ := (hmem u).mp hu
  refine ⟨u, p, info, ?_, hgu, hne', ?_⟩
  · rcases hor with rfl | hd
    · exact .inl rfl
    · obtain ⟨_, _, htt, _⟩ := ht
      exact .inr ((mem_taskDeps_plus hr (List.getElem?_eq_some_iff.mp htt).1 (hac t) u).1 hd)
  · change (makeTask tree.graph u).policy = .always at hpol
    simpa [makeTask, hgu] using hpol

/-! ## Examples -/

section Examples

/-- A scheduler for examples: performs the first of some actions that is possible, as often as told. -/
def auto {P : Type} [DecidableEq P] (b : Build P) : Nat → State P → List (Act P)
  | 0, _ => []
  | n + 1, s =>
    let candidates : List (Act P) := [.check 0] ++
      (match s.sched.running[0]? with
       | some (t, .body) => ((b.task t).targets.filter fun p => p ∉ s.written t).map fun p => .write 0 p
       | _ => []) ++ [.sched (.work 0 .success), .sched .take, .sched .main]
    match candidates.findSome? (fun a => (step b a s).map fun s' => (a, s')) with
    | some (a, s') => a :: auto b n s'
    | none => []

/-- `b` builds, and what has been executed. -/
def builds {P : Type} [DecidableEq P] (b : Build P) (fs : FileSys P) (now : Nat) (as : List (Act P)) :
    Bool × List Nat :=
  match exec b as (init b fs now) with
  | none => (false, [])
  | some s => (decide (s.sched.pc = .returned b.job.tasks.length),
      b.job.tasks.filter fun t => s.decision t = some .run)

def finalFs {P : Type} [DecidableEq P] (b : Build P) (fs : FileSys P) (now : Nat) (as : List (Act P)) : FileSys P :=
  match exec b as (init b fs now) with
  | none => fs
  | some s => s.fs

/-- A chain of two tasks: file 1 is made from 0, and 3 from 2, using 1. -/
def chain (fine : Bool) : Build Nat where
  job := ⟨[0, 1], fun | 1 => [0] | _ => [], 2⟩
  task := fun
    | 0 => { src := 0, targets := [1], deps := [] }
    | _ => { src := 2, targets := [3], deps := [⟨1, .generated, some 0, []⟩] }
  force := false
  kind := fun _ => false
  fine := fine

def chainFs : FileSys Nat := fun
  | 0 => some ⟨1, false⟩
  | 2 => some ⟨2, false⟩
  | _ => none

theorem chain_sane (fine : Bool) : (chain fine).Sane where
  topological := ⟨by simp [chain], by
    intro l₁ t l₂ h d hd hdt
    rcases l₁ with _ | ⟨a, _ | ⟨b, l₁⟩⟩ <;>
      simp only [chain, List.nil_append, List.cons_append, List.cons.injEq] at h
    · obtain ⟨rfl, _⟩ := h; simp [chain] at hd
    · obtain ⟨rfl, rfl, _⟩ := h; simp [chain] at hd; simp [hd]
    · obtain ⟨_, _, h⟩ := h; simp at h⟩
  owner := by
    intro t ht u hu p hp hq _
    simp only [chain, List.mem_cons, List.not_mem_nil, or_false] at ht hu
    rcases ht with rfl | rfl <;> rcases hu with rfl | rfl <;> simp_all [chain]
  waits := by
    intro t ht q hq _ u hu hqu
    simp only [chain, List.mem_cons, List.not_mem_nil, or_false] at ht hu
    rcases ht with rfl | rfl <;> rcases hu with rfl | rfl <;> simp_all [chain]
  closed := by
    intro t ht u hu v hv h1 h2
    simp only [chain, List.mem_cons, List.not_mem_nil, or_false] at ht hu hv
    rcases ht with rfl | rfl <;> rcases hu with rfl | rfl <;> rcases hv with rfl | rfl <;> simp_all [chain]
  dirs := by intro t ht h; simp [chain] at h

theorem chain_plausible : Plausible (chain true) chainFs 10 where
  past := by
    intro p st _ h; unfold chainFs at h
    split at h <;> simp at h <;> subst h <;> decide
  kinds := by
    intro p st h; unfold chainFs at h
    split at h <;> simp at h <;> subst h <;> rfl

/-- The first build executes both commands, the second none. -/
example : builds (chain true) chainFs 10 (auto (chain true) 100 (init (chain true) chainFs 10)) =
    (true, [0, 1]) := by decide +kernel

example :
    let fs := finalFs (chain true) chainFs 10 (auto (chain true) 100 (init (chain true) chainFs 10))
    builds (chain true) fs 100 (auto (chain true) 100 (init (chain true) fs 100)) = (true, []) := by
  decide +kernel

/-- With time stamps that are too coarse to tell consecutive writes apart, a successful build leaves files that
are not up to date, and the second build executes a command again: C13 and C14 need `fine`. -/
theorem C14_needs_fine_stamps :
    builds (chain false) chainFs 10 (auto (chain false) 100 (init (chain false) chainFs 10)) = (true, [0, 1]) ∧
    let fs := finalFs (chain false) chainFs 10 (auto (chain false) 100 (init (chain false) chainFs 10))
    (shouldRun fs false ((chain false).task 1)).toOption = some true ∧
    builds (chain false) fs 100 (auto (chain false) 100 (init (chain false) fs 100)) = (true, [1]) := by
  decide +kernel

open Fs (Path p)

instance : Inhabited Path := ⟨PathType.empty⟩

/-- The example project is loadable, and its build succeeds. -/
theorem project_loadable : Loadable project (fun _ => false) where
  sorted := project_sorted
  unresolved := project_unresolved
  noBuildDeps := by decide
  normal := by decide
  separate := by
    intro x hx t ht _
    rw [hasFile_iff_keys]
    revert t; revert x; decide
  dirs := by intro x _ h; cases h

def projectBuild : Build Path :=
  ofGraph projectTree.graph (taskListAll projectTree.graph).2 2 false (fun _ => false) true

def projectFs : FileSys Path := fun q =>
  if q ∈ [p "a.cpp", p "lib.cpp", p "lib.hpp", p "main.maikerule"] then some ⟨5, false⟩ else none

theorem project_plausible : Plausible projectBuild projectFs 10 where
  past := by
    intro q st _ h; unfold projectFs at h
    split at h <;> simp at h; subst h; decide
  kinds := by
    intro q st h; unfold projectFs at h
    split at h <;> simp at h; subst h; rfl

example : load project = .ok projectTree := by
  unfold projectTree
  cases h : load project with
  | ok t => rfl
  | error e =>
    have : (load project).isOk = true := by decide +kernel
    rw [h] at this; cases this

example : builds projectBuild projectFs 10 (auto projectBuild 200 (init projectBuild projectFs 10)) =
    (true, [0, 1, 4]) := by decide +kernel

end Examples

end Maike.Build
