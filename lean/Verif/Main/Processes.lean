import Verif.Build.Promises
import Verif.Main.Linked

/-!
# Runs with the recipes of maike (C88)

The run of `Main/Run.lean`, where the recipes are the scripts of `Recipes/Script.lean`, called with the arguments of `Main/Request.lean`.
-/

namespace Maike.Main

open Fs Tree Paths
open Maike.Kvs (Json Members)
open Maike.Build (Tools PState pexec pinit Suitable Promise)
open Maike.Recipes (Script targetsOf)

/-! ## Model -/

/-- What is executed for a task: `recipe` is the script in the file that is executed. There is a task only if there is a command (core/db/task.cpp:5-13). -/
def scriptOf (recipe : String → Members → Script) (files : List (Path × FileInfo)) (tree : Db.SourceTree Path) (info : Json) (format : Text.LogFormat) (u : Nat) : Script :=
  match commandOf files tree info format u with
  | some (exe, opts) => recipe exe opts
  | none => .exit 1

/-- A run on the file system `d`, at time `now`, which executes its recipes, has arrived at state `s`. -/
def RunsRecipes (j : Job) (force : Bool) (kind : Path → Bool) (tools : Tools Path) (recipe : String → Members → Script) (info : Json) (format : Text.LogFormat)
    (d : Disk) (now : Nat) (files : List (Path × FileInfo)) (tree : Db.SourceTree Path) (s : PState Path) : Prop :=
  Loads j d files tree ∧ (Db.taskListAll tree.graph).1 = .ok ∧
  ∃ as, pexec (theBuild j tree force kind) tools (scriptOf recipe files tree info format) as (pinit (theBuild j tree force kind) d.fs now) = some s

/-! ## Specification -/

/-- The project uses recipes of maike in a way that they are made for: whatever is executed for a file is `Suitable`. A recipe that is told the name of a target refers to that target. -/
structure Uses (j : Job) (kind : Path → Bool) (tools : Tools Path) (recipe : String → Members → Script) (info : Json) (format : Text.LogFormat)
    (d : Disk) (files : List (Path × FileInfo)) (tree : Db.SourceTree Path) : Prop where
  names : ∀ p i, Scanned j d p i → ∀ t ∈ i.targets, tools.name (text t.name) = t.name
  suitable : ∀ p i, Scanned j d p i → i.targets ≠ [] → ∀ u, tree.graph.PathOf u p.normal → ∀ exe opts, commandOf files tree info format u = some (exe, opts) →
    Suitable tools kind opts (recipe exe opts)

/-! ## Proof -/

variable {j : Job} {kind : Path → Bool} {d : Disk} {now : Nat}

theorem strings_texts (l : List String) : Recipes.strings (l.map Json.str) = some l := by
  induction l with
  | nil => rfl
  | cons x xs ih => simp [Recipes.strings, Json.asString, ih]

/-- The recipes of a project that uses recipes of maike keep their promise. -/
theorem promises (hp : Proper j kind d now) {files : List (Path × FileInfo)} {tree : Db.SourceTree Path} (hl : Loads j d files tree)
    (hok : (Db.taskListAll tree.graph).1 = .ok) {force : Bool} {tools : Tools Path} {recipe : String → Members → Script} {info : Json} {format : Text.LogFormat}
    (hu : Uses j kind tools recipe info format d files tree) :
    ∀ u ∈ (Db.taskListAll tree.graph).2, Promise tools kind ((theBuild j tree force kind).task u).targets (fun _ => False) (scriptOf recipe files tree info format u) := by
  intro u hmem
  obtain ⟨p, i, hs, hi, hpath⟩ := C79_tasks hp hl hok hmem
  unfold scriptOf
  cases hc : commandOf files tree info format u with
  | none => exact Build.promise_fail (by decide) _
  | some x =>
    obtain ⟨exe, opts⟩ := x
    have hL := loadable hp hl
    obtain ⟨u', si, hu', htg, _, _⟩ := Build.file_kept hL hl.2 ((mem_srcList hp hl _).mpr ⟨p, i, hs, rfl⟩)
    have := Build.path_unique (graph_sorted hp hl) hpath ⟨si, hu'⟩
    subst this
    have hlook : Db.Map.lookup p.normal files = some i := Db.Map.lookup_of_mem (files_sorted hp hl) ((mem_files hp hl _ _).mpr ⟨p, hs, rfl⟩)
    have hsuit := hu.suitable p i hs hi u hpath exe opts hc
    simp only [commandOf, requestOf, hu', hlook, Option.bind_some] at hc
    obtain ⟨_, r2, _⟩ := Kvs.C34_request _ _ _ hc
    have htargets : targetsOf opts = some (i.targets.map fun t => text t.name) := by
      simp only [targetsOf, r2, Option.bind_some, Json.asArr]
      rw [strings_texts, htg]
      simp [FileInfo.toSrcInfo, List.map_map, Function.comp_def]
    have := Build.C88_recipes_partial hsuit htargets (fun _ => False)
    have e : ((theBuild j tree force kind).task u).targets = (i.targets.map fun t => text t.name).map tools.name := by
      have e1 : ((theBuild j tree force kind).task u).targets = si.targets.map fun t => t.name := by
        simp only [theBuild, Build.ofGraph, Build.makeTask, hu']
      rw [e1, htg]
      simp only [FileInfo.toSrcInfo, List.map_map]
      apply List.map_congr_left
      intro t ht
      exact (hu.names p i hs t ht).symm
    dsimp only
    rw [e]
    exact this

/-- A run that executes the recipes of maike is a run in the sense of `Main/Run.lean`. -/
theorem runs_of_recipes (hp : Proper j kind d now) {files : List (Path × FileInfo)} {tree : Db.SourceTree Path} {force : Bool} {tools : Tools Path}
    {recipe : String → Members → Script} {info : Json} {format : Text.LogFormat} (hu : Uses j kind tools recipe info format d files tree) {s : PState Path}
    (hr : RunsRecipes j force kind tools recipe info format d now files tree s) : Runs j force kind d now files tree s.base := by
  obtain ⟨hl, hok, as, h⟩ := hr
  obtain ⟨files1, files3, _, _, _, hg, s3⟩ := Build.load_ok (loadable hp hl).sorted hl.2
  have htop : (theBuild j tree force kind).job.Topological := ((Db.C21_all_tasks files3 s3 hg).2 hok).2 j.workers
  exact ⟨hl, hok, Build.C88_refines (theBuild j tree force kind) tools _ htop (promises hp hl hok hu) hp.kinds h⟩

/-- **C88.** A run that has executed the recipes of maike and has succeeded has made all targets of all files that the scan has found: each of them exists, and, if it is not a directory, is strictly
newer than the file that it is made from, and than everything that this file needs. All that is assumed about recipes is what compilers,
linkers and archivers do, and that files are not used with a recipe that is not made for them (see `Build.Suitable`). -/
theorem C88_success_partial (hp : Proper j kind d now) {files : List (Path × FileInfo)} {tree : Db.SourceTree Path} {force : Bool} {tools : Tools Path}
    {recipe : String → Members → Script} {info : Json} {format : Text.LogFormat} (hu : Uses j kind tools recipe info format d files tree) {s : PState Path}
    (hr : RunsRecipes j force kind tools recipe info format d now files tree s) (hs : s.base.Succeeded) {p : Path} {i : FileInfo}
    (hsc : Scanned j d p i) {t : TTarget} (ht : t ∈ i.targets) :
    Build.Exists s.base.fs t.name ∧ (kind t.name = false → Build.StrictlyNewer s.base.fs t.name p.normal ∧
      ∀ q, Needs j d p.normal q → kind q = false →
        (∀ p' i', Scanned j d p' i' → ∀ x, Declares i' x → x.name = q → Db.isExternal x.origin = false) →
        Build.StrictlyNewer s.base.fs t.name q) :=
  C70_end_to_end hp (runs_of_recipes hp hu hr) hs hsc ht

end Maike.Main
