import Verif.Build.Edits
import Verif.Main.Incremental

/-!
# Source files of a project that are edited while maike is running (C110)
-/

namespace Maike.Main

open Fs Tree Paths
open Maike.Build (World Performs Live LExec)

variable {V : Type} {kind : Path → Bool}

/-! ## Specification -/

/-- The builds of a run of maike that has loaded the source tree when the files were `w₀`, one for each of the targets that it has been told to make. Somebody edits files in the meantime. -/
inductive BusyRun (kind area : Path → Bool) (r : Tools V kind) (files : List (Path × FileInfo)) (tree : Db.SourceTree Path) :
    World Path V → (Path → Prop) → (Path → Path → Prop) → World Path V → (Path → Path → Prop) → Prop
  | done {w ch sp} : BusyRun kind area r files tree w ch sp w sp
  | build {w ch sp tasks workers force s w' sp'} : Selected tree tasks →
      LExec r.recipes (Build.ofGraph tree.graph tasks workers force kind true) (orderOf files tree) kind area
        (.start (Build.ofGraph tree.graph tasks workers force kind true) w ch sp) s →
      BusyRun kind area r files tree s.world s.changed s.spoilt w' sp' → BusyRun kind area r files tree w ch sp w' sp'

/-- The history of a project, see `Life`; files may be edited at any time, also while maike is running. `sp p q` says that `q` had been edited between being read by maike and `p` being written in the
same run, that `q` has not been saved or removed, and that `p` has not been removed or written again, after that. -/
inductive BusyLife (L : Loading V) (kind area outside : Path → Bool) (r : Tools V kind) : World Path V → (Path → Path → Prop) → Prop
  | start {w} : (∀ p, area p = true → kind p = false → w.fs p = none) → (∀ p st, kind p = false → w.fs p = some st → st.mtime < w.clock) →
      (∀ p st, w.fs p = some st → st.dir = kind p) → BusyLife L kind area outside r w fun _ _ => False
  | edit {w sp q x} : BusyLife L kind area outside r w sp → area q = false → kind q = false → BusyLife L kind area outside r (w.edit q x) fun p y => sp p y ∧ y ≠ q
  | remove {w sp q} : BusyLife L kind area outside r w sp → BusyLife L kind area outside r (w.remove q) fun p y => sp p y ∧ p ≠ q ∧ y ≠ q
  | mkdir {w sp p} : BusyLife L kind area outside r w sp → kind p = true → BusyLife L kind area outside r (w.mkdir p) sp
  | wait {w sp} : BusyLife L kind area outside r w sp → BusyLife L kind area outside r w.wait sp
  | run {w sp w₀ names files tree w' sp'} : BusyLife L kind area outside r w sp → Opens L kind area outside w₀ names files tree →
      BusyRun kind area r files tree w (fun q => w₀.view kind q ≠ w.view kind q) sp w' sp' → BusyLife L kind area outside r w' sp'

/-! ## Proof -/

variable {L : Loading V} {area outside : Path → Bool} {r : Tools V kind}

theorem busyRun_session {w₀ w w' : World Path V} {names : Path → List Str × Option Str} {files : List (Path × FileInfo)} {tree : Db.SourceTree Path} {ch : Path → Prop} {sp sp' : Path → Path → Prop}
    (ho : Opens L kind area outside w₀ names files tree) (h : BusyRun kind area r files tree w ch sp w' sp') :
    Build.Session (project L kind area outside r) (w₀.view kind) w ch sp w' sp' := by
  induction h with
  | done => exact .done
  | build hsel hx _ ih => exact .build ⟨w₀, names, files, tree, _, _, _, ho, fun _ _ => rfl, hsel, rfl, rfl⟩ hx ih

theorem busyLife_past {w : World Path V} {sp : Path → Path → Prop} (h : BusyLife L kind area outside r w sp) : Build.BusyPast (project L kind area outside r) w sp := by
  induction h with
  | start h1 h2 h3 => exact .start h1 h2 h3
  | edit _ ha hk ih => exact .edit ih ha hk
  | remove _ ih => exact .remove ih
  | mkdir _ hk ih => exact .mkdir ih hk
  | wait _ ih => exact .wait ih
  | run _ ho hr ih => exact .run ih (busyRun_session ho hr)

/-! ## C110 -/

section
variable {w w' w₀ : World Path V} {sp : Path → Path → Prop} {names : Path → List Str × Option Str} {files : List (Path × FileInfo)} {tree : Db.SourceTree Path}
  {tasks : List Nat} {workers : Nat} {force : Bool} {s : Build.State Path}

/-- **C110, as far as it holds.** Files of a project have been edited at any time, also while maike was running. Then a build that nobody disturbs succeeds. A target contains what the recipe of its source
file computes, from what it is told about the project as it is now, and from the files that are there now, if the recipe has been executed in that build, or the build was forced, or if
nothing that the recipe may read had been edited between being read by maike and the target being written, in an earlier run, and has not been saved since then. -/
theorem C110_project_partial (hlife : BusyLife L kind area outside r w sp) (ho : Opens L kind area outside w₀ names files tree)
    (hv : ∀ q, area q = false → w₀.view kind q = w.view kind q) (hsel : Selected tree tasks)
    (hrun : Performs r.recipes (Build.ofGraph tree.graph tasks workers force kind true) (orderOf files tree) w s w') (hok : s.Succeeded)
    {p : Path} {i : FileInfo} (hs : Scanned (L.job (w₀.view kind)) ⟨w₀.fs, names⟩ p i) {u : Nat} (hup : tree.graph.PathOf u p.normal) (hu : u ∈ tasks)
    {t : TTarget} (ht : t ∈ i.targets) (hk : kind t.name = false)
    (hsp : s.Executed u ∨ force = true ∨ ∀ q, (q = p.normal ∨ Requires (L.job (w₀.view kind)) ⟨w₀.fs, names⟩ p.normal q) → ¬ sp t.name q) :
    ∃ o : Order, o.src = p.normal ∧ o.default = i.default ∧ o.own = i.compiler ∧ o.targets = i.targets.map TTarget.name ∧
      (∀ b, b ∈ o.deps.map TDep.name ↔ Requires (L.job (w₀.view kind)) ⟨w₀.fs, names⟩ p.normal b) ∧
      (∀ info format, requestOf files tree info format u = some (o.request info format u)) ∧ w'.content t.name = r.make o w'.content t.name := by
  have hplan : (project L kind area outside r).plan (w.view kind) (Build.ofGraph tree.graph tasks workers force kind true) (orderOf files tree) :=
    ⟨w₀, names, files, tree, tasks, workers, force, ho, hv, hsel, rfl, rfl⟩
  have hpast := busyLife_past hlife
  obtain ⟨h1, h2, h3, h4, htg, h5, h6⟩ := order_facts ho hsel hs hup hu
  have hmem : t.name ∈ ((Build.ofGraph tree.graph tasks workers force kind true).task u).targets := by
    rw [show (Build.ofGraph tree.graph tasks workers force kind true).task u = Build.makeTask tree.graph u from rfl, htg]
    exact List.mem_map.mpr ⟨t, ht, rfl⟩
  refine ⟨orderOf files tree u, h1, h2, h3, h4, h5, h6, ?_⟩
  have key : (s.Executed u ∨ ∀ q, (orderOf files tree u).Input kind q → area q = false → ¬ sp t.name q) → w'.content t.name = r.make (orderOf files tree u) w'.content t.name := by
    intro hsp
    refine Build.C110_partial (project L kind area outside r) hpast hplan rfl hrun hok hu (fun q hq har => ?_) hmem hk hsp
    unfold Build.Exists
    rw [((Build.performs_same (Build.busyPast_busy hpast) hplan hrun).2 q hq.1 har).1]
    exact input_exists ho hv hsel hu hq har
  rcases hsp with h | h | h
  · exact key (.inl h)
  · exact Build.C110_forced (project L kind area outside r) hpast hplan rfl h hrun hok u hu t.name hmem hk
  · refine key (.inr fun q hq _ => h q ?_)
    rcases hq.2 with h' | ⟨x, hx, rfl, _⟩
    · exact .inl (h'.trans h1)
    · exact .inr ((h5 _).mp (List.mem_map.mpr ⟨x, hx, rfl⟩))

end

end Maike.Main
