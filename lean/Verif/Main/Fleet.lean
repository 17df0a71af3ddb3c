import Verif.Build.FleetIdle
import Verif.Main.Incremental

/-!
# Several runs of maike in the same project at the same time (C115)
-/

namespace Maike.Main

open Fs Tree Paths
open Maike.Build (World Performs Fleet Crew Together SharedPast)

variable {V : Type} {kind : Path → Bool}

/-! ## Specification -/

/-- What one of the runs has loaded, and what it has been told to do. -/
structure Member (V : Type) where
  /-- the files at the moment the source tree was loaded -/
  w₀ : World Path V
  names : Path → List Str × Option Str
  files : List (Path × FileInfo)
  tree : Db.SourceTree Path
  tasks : List Nat
  workers : Nat
  force : Bool

def Member.build (x : Member V) (kind : Path → Bool) : Build.Build Path := Build.ofGraph x.tree.graph x.tasks x.workers x.force kind true

/-- A run has loaded the source tree of the project, and the source files have not been changed since then, apart from what other runs have made. -/
structure Joins (L : Loading V) (kind area outside : Path → Bool) (w : World Path V) (x : Member V) : Prop where
  opens : Opens L kind area outside x.w₀ x.names x.files x.tree
  same : ∀ q, area q = false → x.w₀.view kind q = w.view kind q
  selected : Selected x.tree x.tasks

/-- The runs have arrived at `F`. -/
def Meet (r : Tools V kind) (x : Nat → Member V) (w : World Path V) (F : Fleet Path V) : Prop :=
  Together r.recipes (fun i => (x i).build kind) (fun i => orderOf (x i).files (x i).tree) w F

/-- The history of a project, see `Life`. There may have been several runs at the same time. -/
inductive SharedLife (L : Loading V) (kind area outside : Path → Bool) (r : Tools V kind) : World Path V → Prop
  | start {w} : (∀ p, area p = true → kind p = false → w.fs p = none) → (∀ p st, kind p = false → w.fs p = some st → st.mtime < w.clock) →
      (∀ p st, w.fs p = some st → st.dir = kind p) → SharedLife L kind area outside r w
  | edit {w p v} : SharedLife L kind area outside r w → area p = false → kind p = false → SharedLife L kind area outside r (w.edit p v)
  | remove {w p} : SharedLife L kind area outside r w → SharedLife L kind area outside r (w.remove p)
  | mkdir {w p} : SharedLife L kind area outside r w → kind p = true → SharedLife L kind area outside r (w.mkdir p)
  | wait {w} : SharedLife L kind area outside r w → SharedLife L kind area outside r w.wait
  | run {w w' x s} : SharedLife L kind area outside r w → Joins L kind area outside w x → Performs r.recipes (x.build kind) (orderOf x.files x.tree) w s w' → SharedLife L kind area outside r w'
  | runs {w x F} : SharedLife L kind area outside r w → (∀ i, Joins L kind area outside w (x i)) → Meet r x w F → SharedLife L kind area outside r F.world

/-! ## Proof -/

variable {L : Loading V} {area outside : Path → Bool} {r : Tools V kind}

theorem joins_plan {w : World Path V} {x : Member V} (h : Joins L kind area outside w x) :
    (project L kind area outside r).plan (w.view kind) (x.build kind) (orderOf x.files x.tree) :=
  ⟨x.w₀, x.names, x.files, x.tree, x.tasks, x.workers, x.force, h.opens, h.same, h.selected, rfl, rfl⟩

theorem joins_crew {w : World Path V} {x : Nat → Member V} (h : ∀ i, Joins L kind area outside w (x i)) :
    Crew (project L kind area outside r) w (fun i => (x i).build kind) (fun i => orderOf (x i).files (x i).tree) where
  plan i := ⟨_, joins_plan (h i), fun _ _ => rfl⟩
  real _ := rfl
  sources i _ ht _ hq har := input_exists (h i).opens (h i).same (h i).selected ht hq har

theorem sharedLife_past {w : World Path V} (h : SharedLife L kind area outside r w) : SharedPast (project L kind area outside r) w := by
  induction h with
  | start h1 h2 h3 => exact .start h1 h2 h3
  | edit _ ha hk ih => exact .edit ih ha hk
  | remove _ ih => exact .remove ih
  | mkdir _ hk ih => exact .mkdir ih hk
  | wait _ ih => exact .wait ih
  | run _ hj hr ih => exact .build ih (joins_plan hj) hr
  | runs _ hj hm ih => exact .builds ih (joins_crew hj) hm

/-! ## C115 -/

/-- **C115, as far as it holds.** Several runs of maike build a project at the same time, none of which writes a target piece by piece. As soon as one of them has succeeded, its targets exist, and contain what the
recipes of their source files compute, from what they are told about the project, and from the files that are there. This holds at any time afterwards, whatever the other runs do. -/
theorem C115_project_partial {w : World Path V} {x : Nat → Member V} {F : Fleet Path V} (hlife : SharedLife L kind area outside r w) (hj : ∀ i, Joins L kind area outside w (x i)) (hm : Meet r x w F)
    {n : Nat} (hok : (F.state n).Succeeded)
    {p : Path} {i : FileInfo} (hs : Scanned (L.job ((x n).w₀.view kind)) ⟨(x n).w₀.fs, (x n).names⟩ p i) {u : Nat} (hup : (x n).tree.graph.PathOf u p.normal) (hu : u ∈ (x n).tasks)
    {t : TTarget} (ht : t ∈ i.targets) (hk : kind t.name = false) :
    (F.fs t.name).isSome ∧ ∃ o : Order, o.src = p.normal ∧ o.default = i.default ∧ o.own = i.compiler ∧ o.targets = i.targets.map TTarget.name ∧
      (∀ b, b ∈ o.deps.map TDep.name ↔ Requires (L.job ((x n).w₀.view kind)) ⟨(x n).w₀.fs, (x n).names⟩ p.normal b) ∧
      (∀ info format, requestOf (x n).files (x n).tree info format u = some (o.request info format u)) ∧ F.content t.name = r.make o F.content t.name := by
  have hpast := sharedLife_past hlife
  have hc := joins_crew (r := r) hj
  obtain ⟨h1, h2, h3, h4, htg, h5, h6⟩ := order_facts (hj n).opens (hj n).selected hs hup hu
  have hmem : t.name ∈ (((x n).build kind).task u).targets := by
    rw [show ((x n).build kind).task u = Build.makeTask (x n).tree.graph u from rfl, htg]
    exact List.mem_map.mpr ⟨t, ht, rfl⟩
  refine ⟨?_, orderOf (x n).files (x n).tree u, h1, h2, h3, h4, h5, h6, Build.C115_consistent_partial hpast hc hm hok u hu t.name hmem hk⟩
  obtain ⟨st, hst⟩ := (Build.C115_right_partial hpast hc hm hok u hu t.name hmem hk).1
  simp [hst]

/-- **C115.** Runs that have loaded the same source tree and have been told to make the same targets leave nothing to do, if all that have written anything have succeeded. -/
theorem C115_project_idle_partial {w : World Path V} {x : Nat → Member V} {F : Fleet Path V} (hlife : SharedLife L kind area outside r w) (hj : ∀ i, Joins L kind area outside w (x i)) (hm : Meet r x w F)
    (hsame : ∀ i j, (x i).tree.graph = (x j).tree.graph ∧ (x i).tasks = (x j).tasks) (hall : ∀ j, F.Wrote j → (F.state j).Succeeded) {n : Nat} (hok : (F.state n).Succeeded)
    {later : Nat} {as : List (Build.Act Path)} {s : Build.State Path}
    (hx : Build.exec { (x n).build kind with force := false } as (Build.init { (x n).build kind with force := false } F.fs later) = some s) {u : Nat} (hu : u ∈ (x n).tasks) (hex : s.Executed u) :
    Build.AlwaysRebuilt ((x n).build kind) u :=
  Build.C115_idle_partial (sharedLife_past hlife) (joins_crew hj)
    (fun i j => ⟨by show Build.makeTask (x i).tree.graph = Build.makeTask (x j).tree.graph; rw [(hsame i j).1], (hsame i j).2⟩) hm hall hok hx hu hex

end Maike.Main
