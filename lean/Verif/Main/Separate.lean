import Verif.Build.SeparatePieces
import Verif.Main.Fleet

/-!
# Several runs of maike with different targets at the same time (C117)
-/

namespace Maike.Main

open Fs Tree Paths
open Maike.Build (World Fleet FAct Separate Watches)

variable {V : Type} {kind outside : Path → Bool} {L : Nat → Loading V} {area : Nat → Path → Bool} {r : Tools V kind}

/-! ## Specification -/

/-- Run `n` has a target directory of its own: what is in the area of another run is not in the area of run `n`, and run `n` does not take it for a source file. Targets of others are no source files of theirs,
not even if they are directories. -/
structure Divided (L : Nat → Loading V) (kind : Path → Bool) (area : Nat → Path → Bool) (x : Nat → Member V) (n : Nat) : Prop where
  areas : ∀ j, j ≠ n → ∀ p, area n p = true → area j p = false
  sources : ∀ j, j ≠ n → ∀ p k, Scanned ((L n).job ((x n).w₀.view kind)) ⟨(x n).w₀.fs, (x n).names⟩ p k → area j p.normal = false
  made : ∀ j, j ≠ n → ∀ p k, Scanned ((L j).job ((x j).w₀.view kind)) ⟨(x j).w₀.fs, (x j).names⟩ p k → ∀ t ∈ k.targets, Made ((L j).job ((x j).w₀.view kind)) ⟨(x j).w₀.fs, (x j).names⟩ t

/-! ## Proof -/

/-- What matters for a run is a file that it has found, or in its area. -/
theorem watches_in {L : Loading V} {area : Path → Bool} {w : World Path V} {x : Member V} (hj : Joins L kind area outside w x) {p : Path}
    (h : Watches r.recipes (x.build kind) (orderOf x.files x.tree) p) : Db.HasFile (srcList x.files) p ∨ area p = true := by
  have ho := hj.opens
  obtain ⟨t, ht, h⟩ := h
  obtain ⟨a, i, hs, hu, hsrc, htg, hdeps, hord⟩ := task_file ho hj.selected ht
  have hself : Db.HasFile (srcList x.files) a.normal := (hasFile_iff ho.proper ho.loads).mpr ⟨a, i, hs, rfl⟩
  have hdep : ∀ y ∈ depsOf x.tree t, Db.isExternal y.origin = false → Db.HasFile (srcList x.files) y.name ∨ area y.name = true := by
    intro y hy h2
    obtain ⟨hch, hext⟩ := depsOf_chain ho hu hy
    obtain ⟨v, _, hpv⟩ := (Build.chain_exact (loadable ho.proper ho.loads) ho.loads.2 (apart_files ho.proper ho.loads ho.made) hu).2 _ hch
    exact (record_in ho hpv (by rw [← hext]; exact h2)).imp id fun h => h.1
  rw [show (x.build kind).task t = Build.makeTask x.tree.graph t from rfl, hsrc, htg, hdeps] at h
  rcases h with rfl | h | ⟨d, hd, rfl, h2⟩ | ⟨_, h⟩
  · exact .inl hself
  · obtain ⟨t', ht', rfl⟩ := List.mem_map.mp h
    by_cases hf : Db.HasFile (srcList x.files) t'.name
    · exact .inl hf
    · exact .inr (ho.classified.targets a i hs t' ht' ((made_iff ho.proper ho.loads).mpr hf))
  · exact hdep _ (List.mem_map.mpr ⟨d, hd, rfl⟩) h2
  · rw [hord] at h
    rcases h with rfl | ⟨y, hy, rfl, h2⟩
    · exact .inl hself
    · exact hdep y hy h2

/-- Runs with different target directories make nothing that matters for each other. -/
theorem separate_of_divided {w : World Path V} {x : Nat → Member V} (hj : ∀ i, Joins (L i) kind (area i) outside w (x i)) {n : Nat} (hd : Divided L kind area x n) {as : List (FAct Path V)}
    (hdirs : ∀ j p, j ≠ n → .act j (.touchDir p) ∈ as → Watches r.recipes ((x n).build kind) (orderOf (x n).files (x n).tree) p → Build.Exists w.fs p) (hown : ∀ k p v, FAct.tear n k p v ∉ as) :
    Separate r.recipes (fun i => (x i).build kind) (fun i => orderOf (x i).files (x i).tree) w n as := by
  refine ⟨fun j hne t ht p hp hw => ?_, hdirs, hown⟩
  have ho := (hj j).opens
  obtain ⟨a, i, hs, _, _, htg, _⟩ := task_file ho (hj j).selected ht
  rw [show ((x j).build kind).task t = Build.makeTask (x j).tree.graph t from rfl, htg] at hp
  obtain ⟨t', ht', rfl⟩ := List.mem_map.mp hp
  have har := ho.classified.targets a i hs t' ht' (hd.made j hne a i hs t' ht')
  rcases watches_in (hj n) hw with h | h
  · obtain ⟨q, k, hq, e⟩ := (hasFile_iff (hj n).opens.proper (hj n).opens.loads).mp h
    have := hd.sources j hne q k hq
    rw [e, this] at har; cases har
  · rw [hd.areas j hne _ h] at har; cases har

/-! ## C117 -/

/-- **C117.** Several runs of maike at the same time, each with its own settings, such as its own target directory. None of the others makes anything that matters for run `n`, but they may write their targets
piece by piece, and may fail. If run `n` succeeds, its targets exist, and contain what the recipes of their source files compute, from what they are told about the project, and from the files that are there. -/
theorem C117_project {w : World Path V} {x : Nat → Member V} {as : List (FAct Path V)} {F : Fleet Path V} {n : Nat} (hlife : SharedLife (L n) kind (area n) outside r w)
    (hj : ∀ i, Joins (L i) kind (area i) outside w (x i)) (hsep : Separate r.recipes (fun i => (x i).build kind) (fun i => orderOf (x i).files (x i).tree) w n as)
    (hx : Fleet.exec r.recipes (fun i => (x i).build kind) (fun i => orderOf (x i).files (x i).tree) as (.start (fun i => (x i).build kind) w) = some F) (hok : (F.state n).Succeeded)
    {p : Path} {i : FileInfo} (hs : Scanned ((L n).job ((x n).w₀.view kind)) ⟨(x n).w₀.fs, (x n).names⟩ p i) {u : Nat} (hup : (x n).tree.graph.PathOf u p.normal) (hu : u ∈ (x n).tasks)
    {t : TTarget} (ht : t ∈ i.targets) (hk : kind t.name = false) :
    (F.fs t.name).isSome ∧ ∃ o : Order, o.src = p.normal ∧ o.default = i.default ∧ o.own = i.compiler ∧ o.targets = i.targets.map TTarget.name ∧
      (∀ b, b ∈ o.deps.map TDep.name ↔ Requires ((L n).job ((x n).w₀.view kind)) ⟨(x n).w₀.fs, (x n).names⟩ p.normal b) ∧
      (∀ info format, requestOf (x n).files (x n).tree info format u = some (o.request info format u)) ∧ F.content t.name = r.make o F.content t.name := by
  obtain ⟨h1, h2, h3, h4, htg, h5, h6⟩ := order_facts (hj n).opens (hj n).selected hs hup hu
  have hmem : t.name ∈ (((x n).build kind).task u).targets := by
    rw [show ((x n).build kind).task u = Build.makeTask (x n).tree.graph u from rfl, htg]
    exact List.mem_map.mpr ⟨t, ht, rfl⟩
  obtain ⟨hc, hup⟩ := Build.C117_succeeds (b := fun i => (x i).build kind) (desc := fun i => orderOf (x i).files (x i).tree) (sharedLife_past hlife) (fun j => (tasks_sane (hj j).opens (hj j).selected _ _).topological) (fun _ => rfl) (joins_plan (hj n)) (fun _ _ => rfl) rfl
    (fun _ ht _ hq har => input_exists (hj n).opens (hj n).same (hj n).selected ht hq har) hsep hx hok
  refine ⟨?_, orderOf (x n).files (x n).tree u, h1, h2, h3, h4, h5, h6, hc u hu t.name hmem hk⟩
  obtain ⟨st, hst⟩ := (hup u hu).2 t.name hmem
  simp [hst]

/-- **C117.** A run that is started next, with the settings and targets of run `n`, executes nothing but what is executed every time. -/
theorem C117_project_idle {w : World Path V} {x : Nat → Member V} {as : List (FAct Path V)} {F : Fleet Path V} {n : Nat} (hlife : SharedLife (L n) kind (area n) outside r w)
    (hj : ∀ i, Joins (L i) kind (area i) outside w (x i)) (hsep : Separate r.recipes (fun i => (x i).build kind) (fun i => orderOf (x i).files (x i).tree) w n as)
    (hx : Fleet.exec r.recipes (fun i => (x i).build kind) (fun i => orderOf (x i).files (x i).tree) as (.start (fun i => (x i).build kind) w) = some F) (hok : (F.state n).Succeeded)
    {later : Nat} {as' : List (Build.Act Path)} {s : Build.State Path}
    (hx' : Build.exec { (x n).build kind with force := false } as' (Build.init { (x n).build kind with force := false } F.fs later) = some s) {u : Nat} (hu : u ∈ (x n).tasks) (hex : s.Executed u) :
    Build.AlwaysRebuilt ((x n).build kind) u :=
  Build.C117_idle (b := fun i => (x i).build kind) (desc := fun i => orderOf (x i).files (x i).tree) (sharedLife_past hlife) (fun j => (tasks_sane (hj j).opens (hj j).selected _ _).topological) (fun _ => rfl) (joins_plan (hj n)) (fun _ _ => rfl) rfl
    (fun _ ht _ hq har => input_exists (hj n).opens (hj n).same (hj n).selected ht hq har) hsep hx hok hx' hu hex

/-- **C117.** Runs with target directories of their own can build a project at the same time. Whatever the others do, when run `n` has succeeded, its targets are what they should be. -/
theorem C117_directories {w : World Path V} {x : Nat → Member V} {as : List (FAct Path V)} {F : Fleet Path V} {n : Nat} (hlife : SharedLife (L n) kind (area n) outside r w)
    (hj : ∀ i, Joins (L i) kind (area i) outside w (x i)) (hd : Divided L kind area x n)
    (hdirs : ∀ j p, j ≠ n → .act j (.touchDir p) ∈ as → Watches r.recipes ((x n).build kind) (orderOf (x n).files (x n).tree) p → Build.Exists w.fs p) (hown : ∀ k p v, FAct.tear n k p v ∉ as)
    (hx : Fleet.exec r.recipes (fun i => (x i).build kind) (fun i => orderOf (x i).files (x i).tree) as (.start (fun i => (x i).build kind) w) = some F) (hok : (F.state n).Succeeded) :
    Build.Consistent r.recipes ((x n).build kind) (orderOf (x n).files (x n).tree) F.content ∧
      ∀ t ∈ (x n).tasks, Build.UpToDate F.fs (((x n).build kind).task t) ∧ ∀ p ∈ (((x n).build kind).task t).targets, Build.Exists F.fs p :=
  Build.C117_succeeds (b := fun i => (x i).build kind) (desc := fun i => orderOf (x i).files (x i).tree) (sharedLife_past hlife) (fun j => (tasks_sane (hj j).opens (hj j).selected _ _).topological) (fun _ => rfl)
    (joins_plan (hj n)) (fun _ _ => rfl) rfl (fun _ ht _ hq har => input_exists (hj n).opens (hj n).same (hj n).selected ht hq har) (separate_of_divided hj hd hdirs hown) hx hok

/-- **C117.** The same, if run `n` writes its targets piece by piece as well, and a recipe that succeeds has completed its targets. -/
theorem C117_directories_pieces {w : World Path V} {x : Nat → Member V} {as : List (FAct Path V)} {F : Fleet Path V} {n : Nat} (hlife : SharedLife (L n) kind (area n) outside r w)
    (hj : ∀ i, Joins (L i) kind (area i) outside w (x i)) (hd : Divided L kind area x n)
    (hdirs : ∀ j p, j ≠ n → .act j (.touchDir p) ∈ as → Watches r.recipes ((x n).build kind) (orderOf (x n).files (x n).tree) p → Build.Exists w.fs p)
    (hend : Build.Completes r.recipes (fun i => (x i).build kind) (fun i => orderOf (x i).files (x i).tree) n [] as (.start (fun i => (x i).build kind) w))
    (hx : Fleet.exec r.recipes (fun i => (x i).build kind) (fun i => orderOf (x i).files (x i).tree) as (.start (fun i => (x i).build kind) w) = some F) (hok : (F.state n).Succeeded) :
    Build.Consistent r.recipes ((x n).build kind) (orderOf (x n).files (x n).tree) F.content ∧
      ∀ t ∈ (x n).tasks, Build.UpToDate F.fs (((x n).build kind).task t) ∧ ∀ p ∈ (((x n).build kind).task t).targets, Build.Exists F.fs p :=
  Build.C117_pieces (b := fun i => (x i).build kind) (desc := fun i => orderOf (x i).files (x i).tree) (sharedLife_past hlife) (fun j => (tasks_sane (hj j).opens (hj j).selected _ _).topological) (fun _ => rfl)
    (joins_plan (hj n)) (fun _ _ => rfl) rfl (fun _ ht _ hq har => input_exists (hj n).opens (hj n).same (hj n).selected ht hq har)
    (separate_of_divided hj hd (as := []) (fun _ _ _ h => by cases h) (fun _ _ _ h => by cases h)).targets hdirs hend hx hok

end Maike.Main
