import Verif.Db.Load
import Verif.TaskList.Theorems

/-!
# Theorems about task lists made from a source tree (C21), and examples for C05 – C10 and C21
-/

set_option linter.unusedSectionVars false

namespace Maike.Db

variable {P : Type} [PathType P] [DecidableEq P]

theorem refsMatch_of_ok {files : SrcList P} (hs : Map.Sorted files) {g : DepGraph P}
    (h : makeGraph files false = .ok g) : RefsMatch g := by
  intro x hx d hd u hu
  obtain ⟨k, hk⟩ := List.getElem?_of_mem hx
  obtain ⟨_, _, _, _, _, _, hall⟩ := (C06_resolved files hs h).2 k x.1 x.2 hk
  obtain ⟨i, hi, hp⟩ := hall d hd
  rw [hu] at hi; simp at hi; subst hi; exact hp

/-- `u` has something to build. -/
def DepGraph.Builds (g : DepGraph P) (u : Nat) : Prop :=
  ∃ p info, g.files[u]? = some (p, info) ∧ info.targets ≠ []

theorem hasTargets_iff {g : DepGraph P} {u : Nat} : hasTargets g u = true ↔ g.Builds u := by
  unfold hasTargets DepGraph.Builds
  split
  · rename_i h; simp [h]
  · rename_i p info h
    simp only [h, Option.some.injEq, Prod.mk.injEq]
    constructor
    · intro ht; exact ⟨p, info, ⟨rfl, rfl⟩, by intro e; rw [e] at ht; simp at ht⟩
    · rintro ⟨_, _, ⟨rfl, rfl⟩, hne⟩
      cases ht : info.targets with
      | nil => exact absurd ht hne
      | cons a l => rfl

theorem mem_taskDeps_plus {g : DepGraph P} (hr : RefsMatch g) {t : Nat} (ht : t < g.toGraph.size)
    (hac : ¬ ∃ c, Graph.Reach g.toGraph t c ∧ Graph.OnCycle g.toGraph c) (d : Nat) :
    (d ∈ taskDeps g t → Graph.ReachPlus g.toGraph t d) ∧
    (Graph.ReachPlus g.toGraph t d → ¬ g.PathOf d PathType.empty → d ∈ taskDeps g t) := by
  have hlt : t < g.files.length := ht
  have hget : g.files[t]? = some (g.files[t]'hlt) := List.getElem?_eq_getElem hlt
  obtain ⟨l, h1, _, h3, _⟩ := useDeps_refs hr ht hac
  have hl : (getUseDepsRecursive g t).2.filterMap Dep.ref = l := by
    have : ((getUseDepsRecursive g t).2.map Dep.ref).filterMap id = (l.map some).filterMap id := by
      rw [h1]
    simpa [List.filterMap_map, Function.comp_def] using this
  have hedges : g.toGraph.edges t = (g.files[t]'hlt).2.useDeps ++ (g.files[t]'hlt).2.buildDeps := by
    simp [DepGraph.toGraph, hget]
  unfold taskDeps
  rw [hget]
  simp only [List.mem_append, hl, h3]
  constructor
  · rintro (hd | ⟨hd, hne, _⟩)
    · obtain ⟨e, he, her⟩ := List.mem_filterMap.mp hd
      exact ⟨t, .refl t, e, by rw [hedges]; exact List.mem_append_right _ he, her⟩
    · cases hd with
      | refl => exact absurd rfl hne
      | tail h1 h2 => exact ⟨_, h1, h2⟩
  · intro hd hempty
    refine .inr ⟨hd.toReach, ?_, hempty⟩
    rintro rfl
    exact hac ⟨d, .refl d, hd⟩

/-- Dependencies first is preserved when the nodes without targets are left out. -/
theorem topological_filter {g : DepGraph P} (hr : RefsMatch g) {l : List Nat} (hnd : l.Nodup)
    (hdf : Graph.DepsFirst g.toGraph l) (hb : ∀ u ∈ l, u < g.toGraph.size)
    (hac : ∀ u ∈ l, ¬ ∃ c, Graph.Reach g.toGraph u c ∧ Graph.OnCycle g.toGraph c) (w : Nat) :
    (makeJob g (l.filter (hasTargets g)) w).Topological := by
  refine ⟨hnd.sublist List.filter_sublist, ?_⟩
  intro l₁ t l₂ hl d hd hdt
  simp only [makeJob] at hl hd hdt
  obtain ⟨a, b, hab, ha, hb'⟩ := List.filter_eq_append_iff.mp hl
  obtain ⟨c, e, hce, hc, _, _⟩ := List.filter_eq_cons_iff.mp hb'
  have htl : t ∈ l := by rw [hab, hce]; simp
  have hplus := (mem_taskDeps_plus hr (hb t htl) (hac t htl) d).1 hd
  have hdac := hdf.plus_mem (l₁ := a ++ c) (u := t) (l₂ := e) (by rw [hab, hce]; simp) hplus
  rcases List.mem_append.mp hdac with h | h
  · rw [← ha]; exact List.mem_filter.mpr ⟨h, (List.mem_filter.mp hdt).2⟩
  · exact absurd (List.mem_filter.mp hdt).2 (hc d h)

/-- **C21.** Building everything: the tasks are exactly the files that have targets, in topological order;
the construction fails iff there is a cycle. -/
theorem C21_all_tasks (files : SrcList P) (hs : Map.Sorted files) {g : DepGraph P}
    (h : makeGraph files false = .ok g) :
    ((taskListAll g).1 = .ok ↔ ¬ ∃ c < g.toGraph.size, Graph.OnCycle g.toGraph c) ∧
    ((taskListAll g).1 = .ok → (∀ u, u ∈ (taskListAll g).2 ↔ g.Builds u) ∧
      ∀ workers, (makeJob g (taskListAll g).2 workers).Topological) := by
  have hr := refsMatch_of_ok hs h
  obtain ⟨h1, h2, h3, h4⟩ := Graph.C03_cycle_detection_graph g.toGraph hr.wellFormed
  constructor
  · rw [← h2]
    show (Graph.visitNodesInTopoOrder g.toGraph).1 = _ ↔ _
    rcases h1 with e | e <;> simp [e]
  · intro hok
    have hok' : (Graph.visitNodesInTopoOrder g.toGraph).1 = .ok := hok
    have hmem := (Graph.C02_each_node_once g.toGraph hr.wellFormed hok').2
    have hac : ¬ ∃ c < g.toGraph.size, Graph.OnCycle g.toGraph c := by rw [← h2, hok']; simp
    constructor
    · intro u
      show u ∈ List.filter _ _ ↔ _
      rw [List.mem_filter, hasTargets_iff]
      constructor
      · exact fun h => h.2
      · intro hb
        refine ⟨(hmem u).mpr ?_, hb⟩
        obtain ⟨p, info, hg, _⟩ := hb
        exact (List.getElem?_eq_some_iff.mp hg).1
    · intro w
      refine topological_filter hr h3 h4 (fun u hu => (hmem u).mp hu) ?_ w
      rintro u hu ⟨c, hc, hcc⟩
      refine hac ⟨c, ?_, hcc⟩
      obtain ⟨w', _, hadj⟩ := hcc
      exact hr.wellFormed _ _ hadj

/-- **C21.** Building one target: the tasks are exactly the files with targets among the source file of the target and
everything it depends on, in topological order; the construction fails iff there is a cycle
among these. -/
theorem C21_single_target (files : SrcList P) (hs : Map.Sorted files) {g : DepGraph P}
    (h : makeGraph files false = .ok g) {src : P} {root : Nat} (hsrc : g.PathOf root src) :
    ((taskListFor g src).1 = .ok ↔ ¬ ∃ c, Graph.Reach g.toGraph root c ∧ Graph.OnCycle g.toGraph c) ∧
    ((taskListFor g src).1 = .ok →
      (∀ u, u ∈ (taskListFor g src).2 ↔ Graph.Reach g.toGraph root u ∧ g.Builds u) ∧
      ∀ workers, (makeJob g (taskListFor g src).2 workers).Topological) := by
  have hr := refsMatch_of_ok hs h
  have hnode := ((C07_getNode files hs h src).1 root).mpr hsrc
  have hroot : root < g.toGraph.size := by
    obtain ⟨i, hi⟩ := hsrc
    exact (List.getElem?_eq_some_iff.mp hi).1
  obtain ⟨h1, h2, h3, h4⟩ := Graph.C03_cycle_detection_from g.toGraph hr.wellFormed root hroot
  have heq : taskListFor g src = ((Graph.processGraphNodeRecursive g.toGraph root).1,
      ((Graph.processGraphNodeRecursive g.toGraph root).2.map Prod.fst).filter (hasTargets g)) := by
    simp [taskListFor, hnode]
  rw [heq]
  constructor
  · rw [← h2]
    rcases h1 with e | e <;> simp [e]
  · intro hok
    have hok' : (Graph.processGraphNodeRecursive g.toGraph root).1 = .ok := hok
    have hac : ¬ ∃ c, Graph.Reach g.toGraph root c ∧ Graph.OnCycle g.toGraph c := by
      rw [← h2, hok']; simp
    have hmem := (Graph.C04_visits_exactly_reachable g.toGraph hr.wellFormed root hroot hac).2.2.1
    constructor
    · intro u
      rw [List.mem_filter, hasTargets_iff]
      exact and_congr (hmem u) Iff.rfl
    · intro w
      refine topological_filter hr h3 h4 ?_ ?_ w
      · intro u hu
        have hru := (hmem u).mp hu
        cases hru with
        | refl => exact hroot
        | tail _ hadj => exact hr.wellFormed _ _ hadj
      · rintro u hu ⟨c, hc, hcc⟩
        exact hac ⟨c, ((hmem u).mp hu).trans hc, hcc⟩

/-- **C21.** A task reads the results of everything its file depends on, directly or indirectly, and
of nothing else (no file has an empty path). -/
theorem C21_waits_for (files : SrcList P) (hs : Map.Sorted files) {g : DepGraph P}
    (h : makeGraph files false = .ok g) (hne : ¬ HasFile files PathType.empty) {t : Nat}
    (ht : t < g.toGraph.size) (hac : ¬ ∃ c, Graph.Reach g.toGraph t c ∧ Graph.OnCycle g.toGraph c)
    (d : Nat) : d ∈ taskDeps g t ↔ Graph.ReachPlus g.toGraph t d := by
  have hk := mem_taskDeps_plus (refsMatch_of_ok hs h) ht hac d
  refine ⟨hk.1, fun hd => hk.2 hd ?_⟩
  rintro ⟨i, hi⟩
  obtain ⟨i0, h0, _⟩ := (C06_resolved files hs h).2 d _ i hi
  exact hne ⟨i0, List.mem_of_getElem? h0⟩

/-- **C21.** A build of one target, end to end: a task begins only if the tasks of all files with targets that
its file depends on, directly or indirectly, have succeeded, and nothing runs
that the target does not need. -/
theorem C21_build_order (files : SrcList P) (hs : Map.Sorted files) {g : DepGraph P}
    (h : makeGraph files false = .ok g) (hne : ¬ HasFile files PathType.empty)
    {src : P} {root : Nat} (hsrc : g.PathOf root src) (hok : (taskListFor g src).1 = .ok)
    {workers : Nat} {s : TaskList.State}
    (hr : TaskList.Reachable (makeJob g (taskListFor g src).2 workers) s)
    {h₁ h₂ : List TaskList.Ev} {t : Nat} (hh : s.hist = h₁ ++ .start t :: h₂) :
    Graph.Reach g.toGraph root t ∧ g.Builds t ∧
    ∀ d, Graph.ReachPlus g.toGraph t d → g.Builds d → .finish d .success ∈ h₁ := by
  obtain ⟨hc, hrest⟩ := C21_single_target files hs h hsrc
  obtain ⟨hmem, htop⟩ := hrest hok
  have hst := (TaskList.C16_at_most_once (htop workers) hr).2.1 t (by rw [hh]; simp)
  have htt := (hmem t).mp hst
  refine ⟨htt.1, htt.2, fun d hd hbd => ?_⟩
  have hac : ¬ ∃ c, Graph.Reach g.toGraph t c ∧ Graph.OnCycle g.toGraph c := by
    rintro ⟨c, h1, h2⟩
    exact hc.mp hok ⟨c, htt.1.trans h1, h2⟩
  have htl : t < g.toGraph.size := by
    obtain ⟨p, i, hi, _⟩ := htt.2
    exact (List.getElem?_eq_some_iff.mp hi).1
  refine TaskList.C15_dependencies_first (htop workers) hr hh d ?_ ?_
  · exact (C21_waits_for files hs h hne htl hac d).mpr hd
  · exact (hmem d).mpr ⟨htt.1.trans hd.toReach, hbd⟩

/-! ## Examples -/

section Examples

open Fs (Path p)

/-- A small project: a program made from an object file, a header with an implementation, and a
system header. -/
def project : SrcList Path := [
  (p "a.cpp", { origin := .project
                useDeps := [⟨p "lib.hpp", .project, none, []⟩, ⟨p "vector", .system, none, []⟩]
                targets := [⟨p "out/a.o", []⟩] }),
  (p "lib.cpp", { origin := .project
                  useDeps := [⟨p "lib.hpp", .project, none, []⟩]
                  targets := [⟨p "out/lib.o", []⟩] }),
  (p "lib.hpp", { origin := .project
                  childTargetsUseDeps := [⟨p "out/lib.o", .generated, none, []⟩] }),
  (p "main.maikerule", { origin := .project
                         useDeps := [⟨p "out/a.o", .generated, none, []⟩]
                         useTargetDeps := true
                         targets := [⟨p "out/main", [⟨p "m", .pkgConfig, none, []⟩]⟩] })]

theorem project_sorted : Map.Sorted project := by
  refine ⟨?_, ?_, ?_, ?_, trivial⟩ <;> decide

theorem project_unresolved : Unresolved project := by
  unfold Unresolved; decide

/-- What is loaded. -/
def projectTree : SourceTree Path :=
  match load project with
  | .ok t => t
  | .error _ => ⟨[], ⟨[]⟩⟩

example : (load project).isOk := by decide

/-- Generated files and placeholders have been added, in path order. -/
example : projectTree.graph.files.map Prod.fst =
    [p "a.cpp", p "lib.cpp", p "lib.hpp", p "m", p "main.maikerule", p "out/a.o", p "out/lib.o", p "out/main",
      p "vector"] := by decide

example : projectTree.targets.map Prod.fst = [p "out/a.o", p "out/lib.o", p "out/main"] := by decide

/-- Link dependency inherited through the header: `out/a.o` uses `out/lib.o` (node 6), but
`out/lib.o` does not use itself. -/
example : projectTree.graph.files[5]? = some (p "out/a.o",
    { origin := .generated
      useDeps := [⟨p "out/lib.o", .generated, some 6, []⟩]
      buildDeps := [⟨p "a.cpp", .project, some 0, []⟩] }) := by decide

example : projectTree.graph.files[6]? = some (p "out/lib.o",
    { origin := .generated, buildDeps := [⟨p "lib.cpp", .project, some 1, []⟩] }) := by decide

/-- The graph comes from a list of files that meets the hypotheses of C05 – C07 and C21. -/
def projectFiles : SrcList Path :=
  match collectTargets project [] with
  | .error _ => []
  | .ok targets =>
    match makeSourceFileInfos targets project with
    | .error _ => []
    | .ok files1 => addTargetDepsToSourceFiles (Map.mergeNew files1 (createPlaceholders files1 []))

theorem projectFiles_graph : makeGraph projectFiles false = .ok projectTree.graph := by rfl

theorem projectFiles_sorted : Map.Sorted projectFiles := by
  have h : projectFiles.map Prod.fst =
      [p "a.cpp", p "lib.cpp", p "lib.hpp", p "m", p "main.maikerule", p "out/a.o", p "out/lib.o",
        p "out/main", p "vector"] := by decide
  refine sorted_of_keys (m := [p "a.cpp", p "lib.cpp", p "lib.hpp", p "m", p "main.maikerule",
    p "out/a.o", p "out/lib.o", p "out/main", p "vector"].map fun q => (q, ())) (by rw [h]; rfl) ?_
  refine ⟨?_, ?_, ?_, ?_, ?_, ?_, ?_, ?_, ?_, trivial⟩ <;> decide

/-- C05: `main.maikerule` depends on `m`, `out/a.o` and so on; the object files come after their sources. -/
example : getUseDepsRecursive projectTree.graph 4 = (.ok,
    [⟨p "m", .pkgConfig, some 3, []⟩, ⟨p "vector", .system, some 8, []⟩, ⟨p "lib.hpp", .project, some 2, []⟩,
     ⟨p "a.cpp", .project, some 0, []⟩, ⟨p "lib.cpp", .project, some 1, []⟩, ⟨p "out/lib.o", .generated, some 6, []⟩,
     ⟨p "out/a.o", .generated, some 5, []⟩]) := by decide +kernel

/-- C21: all tasks, and the ones for `out/a.o`. -/
example : taskListAll projectTree.graph = (.ok, [0, 1, 4]) := by decide +kernel

example : taskListFor projectTree.graph (p "a.cpp") = (.ok, [0]) := by decide +kernel

example : taskDeps projectTree.graph 4 = [3, 8, 2, 0, 1, 6, 5] := by decide +kernel

/-- C06: the error names the culprit. -/
example : (makeGraph [(p "a", { origin := .project, useDeps := [⟨p "b", .project, none, []⟩] })] false :
    Except (Path × Path) (DepGraph Path)).toOption.isNone = true := by decide

/-- C08: two files with the same target, written differently. -/
example : collectTargets [(p "a", { origin := .project, targets := [⟨p "out/x", []⟩] }),
    (p "b", { origin := .project, targets := [⟨p "out/./x", []⟩] })] [] = .error (p "out/x", p "a") := by rfl

/-- C10: a missing project file is an error, a missing system file is not. -/
example : (match load [(p "a", { origin := .project, useDeps := [⟨p "b", .project, none, []⟩] })] with
    | .error (.unresolved r n) => decide (r = p "a" ∧ n = p "b")
    | _ => false) = true := by decide

end Examples

end Maike.Db
