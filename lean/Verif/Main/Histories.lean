import Verif.Build.Histories
import Verif.Main.Serial
import Verif.Main.Incremental

/-!
# Incremental builds that execute recipes as processes (C95)
-/

namespace Maike.Main

open Fs Tree Paths
open Maike.Build (World Effects CState CExec cinit Leaves)
open Maike.Kvs (Json Members)
open Maike.Recipes (Script)

variable {V : Type} {kind : Path → Bool}

/-! ## Specification -/

/-- The recipes of some tasks, executed alone, make what `r` says. -/
def Makes (r : Tools V kind) {tools : Build.Tools Path} (eff : Effects Path V tools) (recipe : String → Members → Script) (info : Json) (format : Text.LogFormat)
    (files : List (Path × FileInfo)) (tree : Db.SourceTree Path) (tasks : List Nat) : Prop :=
  ∀ u ∈ tasks, ∀ exe opts, commandOf files tree info format u = some (exe, opts) → ∀ c c', Build.MakesAlone eff (recipe exe opts) c c' →
    ∀ p ∈ (orderOf files tree u).targets, kind p = false → c' p = r.make (orderOf files tree u) c p

/-- A build starts with the files `w`, executes its recipes as processes, has arrived at state `s`, and leaves `w'` behind. The source tree has been loaded when the files were `w₀`; source files have not
changed since then. The recipes are those of maike, and what they read is known to maike. -/
structure Executes (L : Loading V) (kind area outside : Path → Bool) (r : Tools V kind) {tools : Build.Tools Path} (eff : Effects Path V tools) (recipe : String → Members → Script)
    (w w₀ : World Path V) (names : Path → List Str × Option Str) (files : List (Path × FileInfo)) (tree : Db.SourceTree Path) (tasks : List Nat) (workers : Nat) (force : Bool)
    (info : Json) (format : Text.LogFormat) (s : CState Path V) (w' : World Path V) : Prop where
  opens : Opens L kind area outside w₀ names files tree
  same : ∀ q, area q = false → w₀.view kind q = w.view kind q
  selected : Selected tree tasks
  uses : Uses (L.job (w₀.view kind)) kind tools recipe info format ⟨w₀.fs, names⟩ files tree
  known : ReadsKnown (L.job (w₀.view kind)) kind eff recipe info format ⟨w₀.fs, names⟩ files tree
  makes : Makes r eff recipe info format files tree tasks
  run : ∃ as, CExec (Build.ofGraph tree.graph tasks workers force kind true) tools (scriptOf recipe files tree info format) eff as
    (cinit (Build.ofGraph tree.graph tasks workers force kind true) w.fs w.clock w.content) s
  leaves : Leaves (Build.ofGraph tree.graph tasks workers force kind true) s w'

/-- The history of a project, see `Life`. -/
inductive RealLife (L : Loading V) (kind area outside : Path → Bool) (r : Tools V kind) {tools : Build.Tools Path} (eff : Effects Path V tools) (recipe : String → Members → Script) :
    World Path V → Prop
  | start {w} : (∀ p, area p = true → kind p = false → w.fs p = none) → (∀ p st, kind p = false → w.fs p = some st → st.mtime < w.clock) →
      (∀ p st, w.fs p = some st → st.dir = kind p) → RealLife L kind area outside r eff recipe w
  | edit {w p v} : RealLife L kind area outside r eff recipe w → area p = false → kind p = false → RealLife L kind area outside r eff recipe (w.edit p v)
  | remove {w p} : RealLife L kind area outside r eff recipe w → RealLife L kind area outside r eff recipe (w.remove p)
  | mkdir {w p} : RealLife L kind area outside r eff recipe w → kind p = true → RealLife L kind area outside r eff recipe (w.mkdir p)
  | wait {w} : RealLife L kind area outside r eff recipe w → RealLife L kind area outside r eff recipe w.wait
  | build {w w₀ names files tree tasks workers force info format s w'} : RealLife L kind area outside r eff recipe w →
      Executes L kind area outside r eff recipe w w₀ names files tree tasks workers force info format s w' → RealLife L kind area outside r eff recipe w'

/-! ## Proof -/

variable {L : Loading V} {area outside : Path → Bool} {r : Tools V kind} {tools : Build.Tools Path} {eff : Effects Path V tools} {recipe : String → Members → Script}

theorem selected_sub {w₀ : World Path V} {names : Path → List Str × Option Str} {files : List (Path × FileInfo)} {tree : Db.SourceTree Path} {tasks : List Nat}
    (ho : Opens L kind area outside w₀ names files tree) (hsel : Selected tree tasks) {u : Nat} (hu : u ∈ tasks) : u ∈ (Db.taskListAll tree.graph).2 := by
  have hL := loadable ho.proper ho.loads
  obtain ⟨files1, files3, hc, hm1, h3, hg, s3⟩ := Build.load_ok hL.sorted ho.loads.2
  rcases hsel with rfl | ⟨src, hok, rfl⟩
  · exact hu
  · obtain ⟨root, hroot⟩ : ∃ root, tree.graph.PathOf root src := by
      cases hn : Db.getNode tree.graph src with
      | none => simp [Db.taskListFor, hn] at hok
      | some node => exact ⟨node, ((Db.C07_getNode files3 s3 hg _).1 node).mp hn⟩
    exact (((Db.C21_all_tasks files3 s3 hg).2 ho.acyclic).1 u).mpr ((((Db.C21_single_target files3 s3 hg hroot).2 hok).1 u).mp hu).2

section

variable {w w₀ w' : World Path V} {names : Path → List Str × Option Str} {files : List (Path × FileInfo)} {tree : Db.SourceTree Path} {tasks : List Nat} {workers : Nat} {force : Bool}
  {info : Json} {format : Text.LogFormat} {s : CState Path V}

theorem executes_plan (h : Executes L kind area outside r eff recipe w w₀ names files tree tasks workers force info format s w') :
    (project L kind area outside r).plan (w.view kind) (Build.ofGraph tree.graph tasks workers force kind true) (orderOf files tree) :=
  ⟨w₀, names, files, tree, tasks, workers, force, h.opens, h.same, h.selected, rfl, rfl⟩

theorem executes_build (h : Executes L kind area outside r eff recipe w w₀ names files tree tasks workers force info format s w') :
    Build.Executes r.recipes eff (Build.ofGraph tree.graph tasks workers force kind true) (orderOf files tree) w s w' := by
  have ho := h.opens
  obtain ⟨as, hx⟩ := h.run
  have hkn := (run_known (force := force) ho.proper ho.loads ho.acyclic h.uses h.known workers).1
  refine ⟨_, as, ⟨fun u hu => hkn.promise u (selected_sub ho h.selected hu), fun u hu => ?_⟩, fun u hu c c' hm p hp hk => ?_, hx, h.leaves⟩
  · refine (hkn.confined u (selected_sub ho h.selected hu)).mono (fun q hq => ?_) fun q hq => hq
    rcases hq with hq | hq
    · exact .inl hq
    · exact .inr fun v hv => hq v (selected_sub ho h.selected hv)
  · unfold scriptOf at hm
    cases hc : commandOf files tree info format u with
    | none => rw [hc] at hm; exact absurd hm (Build.not_makes_exit (by decide))
    | some x =>
      rw [hc] at hm
      obtain ⟨a, i, hs, hpu, _⟩ := task_file ho h.selected hu
      obtain ⟨_, _, _, h4, htg, _⟩ := order_facts ho h.selected hs hpu hu
      refine h.makes u hu x.1 x.2 hc c c' hm p ?_ hk
      rw [h4, ← htg]
      exact hp

end

theorem realLife_past {w : World Path V} (h : RealLife L kind area outside r eff recipe w) : Build.RealPast (project L kind area outside r) eff w := by
  induction h with
  | start h1 h2 h3 => exact .start h1 h2 h3
  | edit _ ha hk ih => exact .edit ih ha hk
  | remove _ ih => exact .remove ih
  | mkdir _ hk ih => exact .mkdir ih hk
  | wait _ ih => exact .wait ih
  | build _ h ih => exact .build ih (executes_plan h) (executes_build h)

/-! ## C95 -/

section

variable {w w₀ w' : World Path V} {names : Path → List Str × Option Str} {files : List (Path × FileInfo)} {tree : Db.SourceTree Path} {tasks : List Nat} {workers : Nat} {force : Bool}
  {info : Json} {format : Text.LogFormat} {s : CState Path V}

/-- **C95.** Whatever has happened to a project, when a build that executes recipes as processes succeeds, each target of each file that it is responsible for exists, and its contents are what the
recipe of the file computes, from what it is told about the project as it is now, and from the files that are there now. This holds whether the recipe has been executed or not. -/
theorem C95_incremental (hlife : RealLife L kind area outside r eff recipe w)
    (hrun : Executes L kind area outside r eff recipe w w₀ names files tree tasks workers force info format s w') (hok : s.base.base.Succeeded)
    {p : Path} {i : FileInfo} (hs : Scanned (L.job (w₀.view kind)) ⟨w₀.fs, names⟩ p i) {u : Nat} (hup : tree.graph.PathOf u p.normal) (hu : u ∈ tasks)
    {t : TTarget} (ht : t ∈ i.targets) (hk : kind t.name = false) :
    (w'.fs t.name).isSome ∧ ∃ o : Order, o.src = p.normal ∧ o.default = i.default ∧ o.own = i.compiler ∧ o.targets = i.targets.map TTarget.name ∧
      (∀ b, b ∈ o.deps.map TDep.name ↔ Requires (L.job (w₀.view kind)) ⟨w₀.fs, names⟩ p.normal b) ∧
      (∀ info format, requestOf files tree info format u = some (o.request info format u)) ∧ w'.content t.name = r.make o w'.content t.name := by
  obtain ⟨h1, h2, h3, h4, htg, h5, h6⟩ := order_facts hrun.opens hrun.selected hs hup hu
  have hmem : t.name ∈ ((Build.ofGraph tree.graph tasks workers force kind true).task u).targets := by
    rw [show (Build.ofGraph tree.graph tasks workers force kind true).task u = Build.makeTask tree.graph u from rfl, htg]
    exact List.mem_map.mpr ⟨t, ht, rfl⟩
  obtain ⟨g1, g2⟩ := Build.C95_consistent (project L kind area outside r) eff (realLife_past hlife) (executes_plan hrun) rfl (executes_build hrun) hok
    (fun t ht q hq har => input_exists hrun.opens hrun.same hrun.selected ht hq har) u hu t.name hmem hk
  exact ⟨Option.isSome_iff_exists.mpr g1, orderOf files tree u, h1, h2, h3, h4, h5, h6, g2⟩

end

/-- **C95.** Two projects have got the same source files by whatever histories of edits and builds. When everything has been built successfully in both of them, with recipes that are executed as
processes, then all targets have the same contents. One of the histories may be that nothing has happened: then its build is a build from scratch. -/
theorem C95_as_from_scratch
    {w₁ v₁ w₁' : World Path V} {names₁ : Path → List Str × Option Str} {files₁ : List (Path × FileInfo)} {tree₁ : Db.SourceTree Path} {workers₁ : Nat} {force₁ : Bool}
    {info₁ : Json} {format₁ : Text.LogFormat} {s₁ : CState Path V} (hlife₁ : RealLife L kind area outside r eff recipe w₁)
    (hrun₁ : Executes L kind area outside r eff recipe w₁ v₁ names₁ files₁ tree₁ (Db.taskListAll tree₁.graph).2 workers₁ force₁ info₁ format₁ s₁ w₁') (hok₁ : s₁.base.base.Succeeded)
    {w₂ v₂ w₂' : World Path V} {names₂ : Path → List Str × Option Str} {files₂ : List (Path × FileInfo)} {tree₂ : Db.SourceTree Path} {workers₂ : Nat} {force₂ : Bool}
    {info₂ : Json} {format₂ : Text.LogFormat} {s₂ : CState Path V} (hlife₂ : RealLife L kind area outside r eff recipe w₂)
    (hrun₂ : Executes L kind area outside r eff recipe w₂ v₂ names₂ files₂ tree₂ (Db.taskListAll tree₂.graph).2 workers₂ force₂ info₂ format₂ s₂ w₂') (hok₂ : s₂.base.base.Succeeded)
    (hsources : ∀ q, area q = false → w₁.view kind q = w₂.view kind q)
    {p : Path} {i : FileInfo} (hs : Scanned (L.job (v₁.view kind)) ⟨v₁.fs, names₁⟩ p i) {t : TTarget} (ht : t ∈ i.targets) (hk : kind t.name = false) :
    (w₁'.fs t.name).isSome ∧ (w₂'.fs t.name).isSome ∧ w₁'.content t.name = w₂'.content t.name := by
  have ho₁ := hrun₁.opens
  have ho₂ := hrun₂.opens
  have hka : kind p.normal = false := by
    cases h : kind p.normal with
    | false => rfl
    | true => have := ho₁.proper.dirs p i hs h t ht; rw [hk] at this; cases this
  obtain ⟨har, _⟩ := ho₁.classified.found p i hs
  have hview : v₁.view kind p.normal = v₂.view kind p.normal := by rw [hrun₁.same _ har, hrun₂.same _ har, hsources _ har]
  have hex := reached_exists ho₁.proper hs.1
  have hex' : (v₂.fs p.normal).isSome := by rw [← view_isSome hka, ← hview, view_isSome hka]; exact hex
  have hs' := scanned_same ho₁ ho₂ hs ⟨hex, hex', fun _ => hview⟩
  obtain ⟨u₁, hu₁, hp₁⟩ := task_of_scanned ho₁ hs ht
  obtain ⟨u₂, hu₂, hp₂⟩ := task_of_scanned ho₂ hs' ht
  have hmem : ∀ {v : World Path V} {names : Path → List Str × Option Str} {files : List (Path × FileInfo)} {tree : Db.SourceTree Path} {workers : Nat} {force : Bool} {u : Nat}
      (_ : Opens L kind area outside v names files tree) (_ : u ∈ (Db.taskListAll tree.graph).2) (_ : tree.graph.PathOf u p.normal)
      (_ : Scanned (L.job (v.view kind)) ⟨v.fs, names⟩ p i),
      t.name ∈ ((Build.ofGraph tree.graph (Db.taskListAll tree.graph).2 workers force kind true).task u).targets := by
    intro v names files tree workers force u ho hu hup hs
    obtain ⟨_, _, _, _, htg, _⟩ := order_facts ho (.inl rfl) hs hup hu
    rw [show (Build.ofGraph tree.graph (Db.taskListAll tree.graph).2 workers force kind true).task u = Build.makeTask tree.graph u from rfl, htg]
    exact List.mem_map.mpr ⟨t, ht, rfl⟩
  refine ⟨(C95_incremental hlife₁ hrun₁ hok₁ hs hp₁ hu₁ ht hk).1, (C95_incremental hlife₂ hrun₂ hok₂ hs' hp₂ hu₂ ht hk).1, ?_⟩
  exact Build.C95_same_as_clean (project L kind area outside r) eff (realLife_past hlife₁) (executes_plan hrun₁) rfl (executes_build hrun₁) hok₁ (realLife_past hlife₂) (executes_plan hrun₂) rfl
    (executes_build hrun₂) hok₂ (fun t ht q hq har => input_exists ho₁ hrun₁.same (.inl rfl) ht hq har) (fun t ht q hq har => input_exists ho₂ hrun₂.same (.inl rfl) ht hq har)
    hsources hu₁ hu₂ (hmem ho₁ hu₁ hp₁ hs) (hmem ho₂ hu₂ hp₂ hs') hk

end Maike.Main
