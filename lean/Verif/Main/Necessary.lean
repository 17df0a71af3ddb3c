import Verif.Build.Necessary
import Verif.Main.Incremental

/-!
# Which commands a run executes (C86)

In terms of the files of the project: what is executed has a reason at the beginning of the run, and after a run that has succeeded, reasons are changes made by somebody since then.
-/

namespace Maike.Main

open Fs Tree Paths
open Maike.Build (World Recipes Performs)

/-! ## Specification -/

/-- `q` is the file `a`, or a file that `a` depends on, directly or through other files, and that is not external. -/
def Reads (kind outside : Path → Bool) (j : Job) (d : Disk) (a q : Path) : Prop :=
  kind q = false ∧ (q = a ∨ (Requires j d a q ∧ outside q = false))

/-- There is a reason to make the targets of a file again: it is marked to be rebuilt always; or a target does not exist; or a target is not newer than what it is made from, directly or
indirectly; or something that it is made from is the target of another file and there is a reason to make that again. Directories are not compared. -/
inductive Outdated (kind outside : Path → Bool) (j : Job) (d : Disk) (fs : Build.FileSys Path) : Path → Prop
  | always {p i} : Scanned j d p i → i.policy = .always → Outdated kind outside j d fs p.normal
  | missing {p i t} : Scanned j d p i → t ∈ i.targets → fs t.name = none → Outdated kind outside j d fs p.normal
  | older {p i t q st sq} : Scanned j d p i → t ∈ i.targets → kind t.name = false → Reads kind outside j d p.normal q → fs t.name = some st → fs q = some sq →
      st.mtime ≤ sq.mtime → Outdated kind outside j d fs p.normal
  | made {p i t p' i' t'} : Scanned j d p i → t ∈ i.targets → kind t.name = false → Scanned j d p' i' → t' ∈ i'.targets → Reads kind outside j d p.normal t'.name →
      Outdated kind outside j d fs p'.normal → Outdated kind outside j d fs p.normal

/-- Somebody has written or removed the file, or has removed the directory. -/
def Changed {V : Type} (kind : Path → Bool) (w w' : World Path V) (q : Path) : Prop :=
  if kind q = true then Build.Exists w.fs q ∧ ¬ Build.Exists w'.fs q else w'.fs q ≠ w.fs q ∨ w'.content q ≠ w.content q

/-! ## Proof -/

theorem requires_trans {j : Job} {d : Disk} {a b c : Path} (h1 : Requires j d a b) (h2 : Requires j d b c) : Requires j d a c := by
  induction h2 with
  | single h => exact .tail h1 h
  | tail _ h ih => exact .tail ih h

variable {V : Type} {L : Loading V} {kind area outside : Path → Bool} {r : Tools V kind}

section
variable {w₀ : World Path V} {names : Path → List Str × Option Str} {files : List (Path × FileInfo)} {tree : Db.SourceTree Path} {tasks : List Nat} {workers : Nat} {force : Bool}
  (ho : Opens L kind area outside w₀ names files tree) (hsel : Selected tree tasks)

include ho hsel in
theorem task_scanned {u : Nat} (hu : u ∈ tasks) {p : Path} {i : FileInfo} (hs : Scanned (L.job (w₀.view kind)) ⟨w₀.fs, names⟩ p i) (hup : tree.graph.PathOf u p.normal) :
    (Build.makeTask tree.graph u).src = p.normal ∧ (Build.makeTask tree.graph u).targets = i.targets.map TTarget.name ∧ (Build.makeTask tree.graph u).policy = i.policy ∧
    orderOf files tree u = ⟨p.normal, i.default, i.compiler, i.targets.map TTarget.name, depsOf tree u⟩ := by
  obtain ⟨a, k, hs', hu', hsrc, htg, _, hord⟩ := task_file ho hsel hu
  have hpa : a.normal = p.normal := by
    obtain ⟨_, h1⟩ := hu'
    obtain ⟨_, h2⟩ := hup
    rw [h1] at h2
    injection h2 with h2
    injection h2
  have hik := scanned_unique ho.proper ho.loads hs' hs hpa
  subst hik
  refine ⟨hsrc.trans hpa, htg, ?_, by rw [hord, hpa]⟩
  obtain ⟨info, h1⟩ := hup
  simp only [Build.makeTask, h1]
  rcases Build.record_origin (loadable ho.proper ho.loads) ho.loads.2 h1 with ⟨i0, hi0, _, hpol⟩ | ⟨h, _⟩
  · rw [hpol]
    obtain ⟨q', k', hsc, e⟩ := (mem_srcList ho.proper ho.loads _).mp hi0
    injection e with e1 e2
    rw [e2, scanned_unique ho.proper ho.loads hsc hs e1.symm]
    rfl
  · -- a record without targets has no task
    have hne : tree.graph.Builds u := by
      obtain ⟨files1, files3, hc, hm1, h3, hg, s3⟩ := Build.load_ok (loadable ho.proper ho.loads).sorted ho.loads.2
      rcases hsel with rfl | ⟨src, hok, rfl⟩
      · exact (((Db.C21_all_tasks files3 s3 hg).2 ho.acyclic).1 u).mp hu
      · obtain ⟨root, hroot⟩ : ∃ root, tree.graph.PathOf root src := by
          cases hn : Db.getNode tree.graph src with
          | none => simp [Db.taskListFor, hn] at hok
          | some node => exact ⟨node, ((Db.C07_getNode files3 s3 hg _).1 node).mp hn⟩
        exact ((((Db.C21_single_target files3 s3 hg hroot).2 hok).1 u).mp hu).2
    obtain ⟨_, _, h2, hne⟩ := hne
    rw [h1] at h2
    injection h2 with h2
    injection h2 with _ h2
    rw [← h2] at hne
    exact absurd h hne

include ho hsel in
/-- What a task reads. -/
theorem in_iff {u : Nat} (hu : u ∈ tasks) {p : Path} {i : FileInfo} (hs : Scanned (L.job (w₀.view kind)) ⟨w₀.fs, names⟩ p i) (hup : tree.graph.PathOf u p.normal) {q : Path} :
    Build.In (Build.ofGraph tree.graph tasks workers force kind true) u q ↔ Reads kind outside (L.job (w₀.view kind)) ⟨w₀.fs, names⟩ p.normal q := by
  obtain ⟨hsrc, _, _, _⟩ := task_scanned ho hsel hu hs hup
  obtain ⟨_, _, _, _, _, _, hdeps, _⟩ := task_file ho hsel hu
  unfold Build.In Reads
  rw [show (Build.ofGraph tree.graph tasks workers force kind true).task u = Build.makeTask tree.graph u from rfl, hsrc, hdeps]
  refine and_congr Iff.rfl (or_congr Iff.rfl ?_)
  rw [requires_iff ho.proper ho.loads]
  constructor
  · rintro ⟨e, he, rfl, hext⟩
    obtain ⟨h1, h2⟩ := depsOf_chain ho hup (x := ⟨e.name, e.origin, e.props⟩) (List.mem_map.mpr ⟨e, he, rfl⟩)
    exact ⟨h1, by rw [← h2]; exact hext⟩
  · rintro ⟨hch, hout⟩
    obtain ⟨x, hx, hn, hext⟩ := mem_depsOf ho hup hch
    obtain ⟨e, he, rfl⟩ := List.mem_map.mp hx
    exact ⟨e, he, hn, by rw [hout] at hext; exact hext⟩

include ho hsel in
/-- What a task reads and another file makes. -/
theorem maker {u : Nat} (hu : u ∈ tasks) {p : Path} {i : FileInfo} (hs : Scanned (L.job (w₀.view kind)) ⟨w₀.fs, names⟩ p i) (hup : tree.graph.PathOf u p.normal) {p' : Path}
    {i' : FileInfo} (hs' : Scanned (L.job (w₀.view kind)) ⟨w₀.fs, names⟩ p' i') {t' : TTarget} (ht' : t' ∈ i'.targets)
    (hr : Reads kind outside (L.job (w₀.view kind)) ⟨w₀.fs, names⟩ p.normal t'.name) :
    Requires (L.job (w₀.view kind)) ⟨w₀.fs, names⟩ p.normal p'.normal ∧ ∃ u' ∈ tasks, tree.graph.PathOf u' p'.normal := by
  have hL := loadable ho.proper ho.loads
  have hA := apart_files ho.proper ho.loads ho.made
  have hgs := graph_sorted ho.proper ho.loads
  have hmade := ho.proper.separate p' i' hs' t' ht' hr.1
  have hreq : Requires (L.job (w₀.view kind)) ⟨w₀.fs, names⟩ p.normal t'.name := by
    rcases hr.2 with h | h
    · exact absurd h (hmade p i hs)
    · exact h.1
  have hreq' : Requires (L.job (w₀.view kind)) ⟨w₀.fs, names⟩ p.normal p'.normal := .tail (x := ⟨p'.normal, .project, []⟩) hreq (.source hs' ht' hmade)
  refine ⟨hreq', ?_⟩
  obtain ⟨v', hv', hpv'⟩ := (Build.chain_exact hL ho.loads.2 hA hup).2 _ ((requires_iff ho.proper ho.loads).mp hreq')
  obtain ⟨u', info, hu', htg, _⟩ := Build.file_kept hL ho.loads.2 ((mem_srcList ho.proper ho.loads _).mpr ⟨p', i', hs', rfl⟩)
  obtain rfl := Build.path_unique hgs hpv' ⟨_, hu'⟩
  have hb : tree.graph.Builds v' := ⟨_, _, hu', by rw [htg]; exact List.ne_nil_of_mem (List.mem_map.mpr ⟨t', ht', rfl⟩)⟩
  refine ⟨v', task_of_file ho hsel hu ?_ hb, hpv'⟩
  obtain ⟨_, h1, h2⟩ := hv'
  exact h1.tail h2

include ho hsel in
/-- Reasons are the same in both vocabularies. -/
theorem necessary_iff {fs : Build.FileSys Path} {u : Nat} (hu : u ∈ tasks) {p : Path} {i : FileInfo} (hs : Scanned (L.job (w₀.view kind)) ⟨w₀.fs, names⟩ p i)
    (hup : tree.graph.PathOf u p.normal) :
    Build.Necessary (Build.ofGraph tree.graph tasks workers force kind true) fs u ↔ Outdated kind outside (L.job (w₀.view kind)) ⟨w₀.fs, names⟩ fs p.normal := by
  have hex : ∀ q, ¬ Build.Exists fs q ↔ fs q = none := by
    intro q
    unfold Build.Exists
    cases fs q <;> simp
  have htask : ∀ u, (Build.ofGraph tree.graph tasks workers force kind true).task u = Build.makeTask tree.graph u := fun _ => rfl
  constructor
  · intro h
    induction h generalizing p i with
    | @always u h =>
      rw [htask, (task_scanned ho hsel hu hs hup).2.2.1] at h
      exact .always hs h
    | @missing u q hq h =>
      rw [htask, (task_scanned ho hsel hu hs hup).2.1] at hq
      obtain ⟨t, ht, rfl⟩ := List.mem_map.mp hq
      exact .missing hs ht ((hex _).mp h)
    | @older u q q' sp sq hq hk hin hsp hsq hle =>
      rw [htask, (task_scanned ho hsel hu hs hup).2.1] at hq
      obtain ⟨t, ht, rfl⟩ := List.mem_map.mp hq
      exact .older hs ht hk ((in_iff ho hsel hu hs hup).mp hin) hsp hsq hle
    | @made u q q' v hq hk hin hv hqv _ ih =>
      rw [htask, (task_scanned ho hsel hu hs hup).2.1] at hq
      obtain ⟨t, ht, rfl⟩ := List.mem_map.mp hq
      obtain ⟨a, k, hs', hpv, _, htg, _⟩ := task_file ho hsel hv
      rw [htask, htg] at hqv
      obtain ⟨t', ht', rfl⟩ := List.mem_map.mp hqv
      exact .made hs ht hk hs' ht' ((in_iff ho hsel hu hs hup).mp hin) (ih hv hs' hpv)
  · intro h
    generalize ha : p.normal = a at h
    induction h generalizing p i u with
    | @always a k hs' h =>
      have hik := scanned_unique ho.proper ho.loads hs hs' ha
      subst hik
      refine .always ?_
      rw [htask, (task_scanned ho hsel hu hs hup).2.2.1]
      exact h
    | @missing a k t hs' ht h =>
      have hik := scanned_unique ho.proper ho.loads hs hs' ha
      subst hik
      refine .missing (p := t.name) ?_ ((hex _).mpr h)
      rw [htask, (task_scanned ho hsel hu hs hup).2.1]
      exact List.mem_map.mpr ⟨t, ht, rfl⟩
    | @older a k t q st sq hs' ht hk hr hst hsq hle =>
      have hik := scanned_unique ho.proper ho.loads hs hs' ha
      subst hik
      refine .older (p := t.name) ?_ hk ((in_iff ho hsel hu hs hup).mpr (ha ▸ hr)) hst hsq hle
      rw [htask, (task_scanned ho hsel hu hs hup).2.1]
      exact List.mem_map.mpr ⟨t, ht, rfl⟩
    | @made a k t p' i' t' hs' ht hk hs'' ht' hr _ ih =>
      have hik := scanned_unique ho.proper ho.loads hs hs' ha
      subst hik
      obtain ⟨_, u', hu', hp'⟩ := maker ho hsel hu hs hup hs'' ht' (ha ▸ hr)
      refine .made (p := t.name) (q := t'.name) (u := u') ?_ hk ((in_iff ho hsel hu hs hup).mpr (ha ▸ hr)) hu' ?_ (ih hu' hs'' hp' rfl)
      · rw [htask, (task_scanned ho hsel hu hs hup).2.1]
        exact List.mem_map.mpr ⟨t, ht, rfl⟩
      · rw [htask, (task_scanned ho hsel hu' hs'' hp').2.1]
        exact List.mem_map.mpr ⟨t', ht', rfl⟩

end

/-! ## C86 -/

section
variable {w w' w₀ : World Path V} {names : Path → List Str × Option Str} {files : List (Path × FileInfo)} {tree : Db.SourceTree Path}
  {tasks : List Nat} {workers : Nat} {s : Build.State Path}

/-- **C86.** At any time of a build that is not forced, the command of a file has been executed only if the file was outdated when the build started. -/
theorem C86_run_only_if_outdated (ho : Opens L kind area outside w₀ names files tree) (hsel : Selected tree tasks) (hkinds : ∀ p st, w.fs p = some st → st.dir = kind p)
    (hrun : Performs r.recipes (Build.ofGraph tree.graph tasks workers false kind true) (orderOf files tree) w s w')
    {p : Path} {i : FileInfo} (hs : Scanned (L.job (w₀.view kind)) ⟨w₀.fs, names⟩ p i) {u : Nat} (hup : tree.graph.PathOf u p.normal) (hu : u ∈ tasks)
    (hex : s.Executed u) : Outdated kind outside (L.job (w₀.view kind)) ⟨w₀.fs, names⟩ w.fs p.normal := by
  obtain ⟨as, hx, _⟩ := hrun
  exact (necessary_iff ho hsel hu hs hup).mp
    (Build.C86_only_if_necessary _ (tasks_sane ho hsel workers false) rfl hkinds (Build.execContents_exec hx) hu hex)

/-- **C86.** When a build that is not forced has succeeded, the files whose commands have been executed are exactly the outdated ones. -/
theorem C86_run_exactly (ho : Opens L kind area outside w₀ names files tree) (hsel : Selected tree tasks) (hkinds : ∀ p st, w.fs p = some st → st.dir = kind p)
    (hpast : ∀ p st, kind p = false → w.fs p = some st → st.mtime < w.clock)
    (hdirs : ∀ p i, Scanned (L.job (w₀.view kind)) ⟨w₀.fs, names⟩ p i → ∀ t ∈ i.targets, kind t.name = true → (w.fs t.name).isSome)
    (hrun : Performs r.recipes (Build.ofGraph tree.graph tasks workers false kind true) (orderOf files tree) w s w') (hok : s.Succeeded)
    {p : Path} {i : FileInfo} (hs : Scanned (L.job (w₀.view kind)) ⟨w₀.fs, names⟩ p i) {u : Nat} (hup : tree.graph.PathOf u p.normal) (hu : u ∈ tasks) :
    s.Executed u ↔ Outdated kind outside (L.job (w₀.view kind)) ⟨w₀.fs, names⟩ w.fs p.normal := by
  obtain ⟨as, hx, _⟩ := hrun
  rw [← necessary_iff (workers := workers) (force := false) ho hsel hu hs hup]
  refine Build.C86_exactly _ (tasks_sane ho hsel workers false) rfl rfl rfl ⟨hpast, hkinds⟩ ?_ (Build.execContents_exec hx) hok hu
  intro t ht q hq hk
  obtain ⟨a, k, hs', _, _, htg, _⟩ := task_file ho hsel ht
  rw [show (Build.ofGraph tree.graph tasks workers false kind true).task t = Build.makeTask tree.graph t from rfl, htg] at hq
  obtain ⟨t', ht', rfl⟩ := List.mem_map.mp hq
  exact Option.isSome_iff_exists.mp (hdirs a k hs' t' ht' hk)

end

/-- Why a command is executed after a run that has succeeded. `w₁` is what that run has left behind, and `v₁` is what it has found. -/
def Reason (kind outside : Path → Bool) (j : Job) (d : Disk) (v₁ w₁ w : World Path V) (a : Path) (k : FileInfo) : Prop :=
  k.policy = .always ∨ (kind a = true ∧ v₁.fs a = none) ∨ (∃ t ∈ k.targets, Changed kind w₁ w t.name) ∨ ∃ q, Reads kind outside j d a q ∧ Changed kind w₁ w q

/-- **C86.** Everything has been built successfully, then somebody has changed something, and there is another build that is not forced. If it executes the command of a file `p`, then there is a file
`a`, either `p` itself or one that `p` depends on, such that `a` is marked to be rebuilt always; or `a` is a new directory; or somebody has changed a target of `a`, or `a`, or something that
`a` depends on. -/
theorem C86_after_changes
    {w₁ v₁ w₁' : World Path V} {names₁ : Path → List Str × Option Str} {files₁ : List (Path × FileInfo)} {tree₁ : Db.SourceTree Path} {workers₁ : Nat} {force₁ : Bool}
    {s₁ : Build.State Path} (hlife₁ : Life L kind area outside r w₁) (ho₁ : Opens L kind area outside v₁ names₁ files₁ tree₁)
    (hv₁ : ∀ q, area q = false → v₁.view kind q = w₁.view kind q)
    (hrun₁ : Performs r.recipes (Build.ofGraph tree₁.graph (Db.taskListAll tree₁.graph).2 workers₁ force₁ kind true) (orderOf files₁ tree₁) w₁ s₁ w₁') (hok₁ : s₁.Succeeded)
    {w₂ v₂ w₂' : World Path V} {names₂ : Path → List Str × Option Str} {files₂ : List (Path × FileInfo)} {tree₂ : Db.SourceTree Path} {tasks₂ : List Nat} {workers₂ : Nat}
    {s₂ : Build.State Path} (hkinds₂ : ∀ p st, w₂.fs p = some st → st.dir = kind p) (ho₂ : Opens L kind area outside v₂ names₂ files₂ tree₂)
    (hv₂ : ∀ q, area q = false → v₂.view kind q = w₂.view kind q) (hsel₂ : Selected tree₂ tasks₂)
    (hrun₂ : Performs r.recipes (Build.ofGraph tree₂.graph tasks₂ workers₂ false kind true) (orderOf files₂ tree₂) w₂ s₂ w₂')
    {p : Path} {i : FileInfo} (hs : Scanned (L.job (v₂.view kind)) ⟨v₂.fs, names₂⟩ p i) {u : Nat} (hup : tree₂.graph.PathOf u p.normal) (hu : u ∈ tasks₂)
    (hex : s₂.Executed u) :
    ∃ a k, Scanned (L.job (v₂.view kind)) ⟨v₂.fs, names₂⟩ a k ∧
      (a.normal = p.normal ∨ Requires (L.job (v₂.view kind)) ⟨v₂.fs, names₂⟩ p.normal a.normal) ∧
      Reason kind outside (L.job (v₂.view kind)) ⟨v₂.fs, names₂⟩ v₁ w₁' w₂ a.normal k := by
  obtain ⟨as₂, hx₂, _⟩ := hrun₂
  have hnec := Build.C86_only_if_necessary _ (tasks_sane ho₂ hsel₂ workers₂ false) rfl hkinds₂ (Build.execContents_exec hx₂) hu hex
  have hplan₁ : (project L kind area outside r).plan (w₁.view kind) (Build.ofGraph tree₁.graph (Db.taskListAll tree₁.graph).2 workers₁ force₁ kind true) (orderOf files₁ tree₁) :=
    ⟨v₁, names₁, files₁, tree₁, _, workers₁, force₁, ho₁, hv₁, .inl rfl, rfl, rfl⟩
  have hplan₂ : (project L kind area outside r).plan (w₂.view kind) (Build.ofGraph tree₂.graph tasks₂ workers₂ false kind true) (orderOf files₂ tree₂) :=
    ⟨v₂, names₂, files₂, tree₂, _, workers₂, false, ho₂, hv₂, hsel₂, rfl, rfl⟩
  have hk₁ := Build.past_kept (life_past hlife₁)
  obtain ⟨hi₁, _, hkeep⟩ := Build.performs_kept hk₁ hplan₁ hrun₁
  obtain ⟨as₁, hx₁, hfs₁, _⟩ := hrun₁
  have hup₁ := Build.C13_up_to_date _ (tasks_sane ho₁ (.inl rfl) workers₁ force₁) rfl rfl (Build.plausible hk₁ rfl) (Build.execContents_exec hx₁) hok₁
  have htask₁ : ∀ u, (Build.ofGraph tree₁.graph (Db.taskListAll tree₁.graph).2 workers₁ force₁ kind true).task u = Build.makeTask tree₁.graph u := fun _ => rfl
  have htask₂ : ∀ u, (Build.ofGraph tree₂.graph tasks₂ workers₂ false kind true).task u = Build.makeTask tree₂.graph u := fun _ => rfl
  -- files that have not been changed look the same
  have hview : ∀ q, kind q = false → area q = false → ¬ Changed kind w₁' w₂ q → v₂.view kind q = v₁.view kind q := by
    intro q hk har hc
    simp only [Changed, hk, Bool.false_eq_true, if_false, not_or, Classical.not_not, ne_eq] at hc
    rw [hv₂ q har, hv₁ q har]
    obtain ⟨h1, h2⟩ := hkeep q hk har
    simp [World.view, hk, hc.1, hc.2, h1, h2]
  -- a file that nobody has changed was there before
  have hknown : ∀ {a k}, Scanned (L.job (v₂.view kind)) ⟨v₂.fs, names₂⟩ a k → ¬ Reason kind outside (L.job (v₂.view kind)) ⟨v₂.fs, names₂⟩ v₁ w₁' w₂ a.normal k →
      Scanned (L.job (v₁.view kind)) ⟨v₁.fs, names₁⟩ a k := by
    intro a k ha hno
    have hex := reached_exists ho₂.proper ha.1
    refine scanned_same ho₂ ho₁ ha ⟨hex, ?_⟩
    cases hk : kind a.normal with
    | true =>
      refine ⟨?_, fun h => by cases h⟩
      cases h : v₁.fs a.normal with
      | some _ => rfl
      | none => exact absurd (.inr (.inl ⟨hk, h⟩)) hno
    | false =>
      have hv := hview a.normal hk (ho₂.classified.found a k ha).1 fun h => hno (.inr (.inr (.inr ⟨_, ⟨hk, .inl rfl⟩, h⟩)))
      exact ⟨by rw [← view_isSome hk, ← hv, view_isSome hk]; exact hex, fun _ => hv⟩
  -- what has been made before
  have hmade : ∀ {a k}, Scanned (L.job (v₂.view kind)) ⟨v₂.fs, names₂⟩ a k → ¬ Reason kind outside (L.job (v₂.view kind)) ⟨v₂.fs, names₂⟩ v₁ w₁' w₂ a.normal k →
      ∀ t ∈ k.targets, ∃ u₁ ∈ (Db.taskListAll tree₁.graph).2, tree₁.graph.PathOf u₁ a.normal ∧ t.name ∈ (Build.makeTask tree₁.graph u₁).targets := by
    intro a k ha hno t ht
    have ha₁ := hknown ha hno
    obtain ⟨u₁, hu₁, hp₁⟩ := task_of_scanned ho₁ ha₁ ht
    refine ⟨u₁, hu₁, hp₁, ?_⟩
    rw [(task_scanned ho₁ (.inl rfl) hu₁ ha₁ hp₁).2.1]
    exact List.mem_map.mpr ⟨t, ht, rfl⟩
  clear hex
  induction hnec generalizing p i with
  | @always u h =>
    rw [htask₂, (task_scanned ho₂ hsel₂ hu hs hup).2.2.1] at h
    exact ⟨p, i, hs, .inl rfl, .inl h⟩
  | @missing u q hq hne =>
    rw [htask₂, (task_scanned ho₂ hsel₂ hu hs hup).2.1] at hq
    obtain ⟨t, ht, rfl⟩ := List.mem_map.mp hq
    refine ⟨p, i, hs, .inl rfl, Classical.byContradiction fun hno => ?_⟩
    obtain ⟨u₁, hu₁, _, hmem⟩ := hmade hs hno t ht
    have hex := (hup₁ u₁ hu₁).2 t.name hmem
    rw [← hfs₁] at hex
    refine hno (.inr (.inr (.inl ⟨t, ht, ?_⟩)))
    unfold Changed
    split
    · exact ⟨hex, hne⟩
    · refine .inl fun e => hne ?_
      rw [Build.Exists, e]; exact hex
  | @older u q q' sp sq hq hk hin hsp hsq hle =>
    rw [htask₂, (task_scanned ho₂ hsel₂ hu hs hup).2.1] at hq
    obtain ⟨t, ht, rfl⟩ := List.mem_map.mp hq
    refine ⟨p, i, hs, .inl rfl, Classical.byContradiction fun hno => ?_⟩
    obtain ⟨u₁, hu₁, hp₁, hmem⟩ := hmade hs hno t ht
    have hreads := (in_iff ho₂ hsel₂ hu hs hup).mp hin
    have hsame : ∀ x, kind x = false → ¬ Changed kind w₁' w₂ x → w₂.fs x = w₁'.fs x := by
      intro x hkx hc
      simp only [Changed, hkx, Bool.false_eq_true, if_false, not_or, Classical.not_not, ne_eq] at hc
      exact hc.1
    have ht' := hsame t.name hk fun h => hno (.inr (.inr (.inl ⟨t, ht, h⟩)))
    have hq' := hsame q' hreads.1 fun h => hno (.inr (.inr (.inr ⟨q', hreads, h⟩)))
    have hdesc : orderOf files₂ tree₂ u = orderOf files₁ tree₁ u₁ := by
      refine (project L kind area outside r).only hplan₂ hplan₁ u hu u₁ hu₁ t.name ?_ hmem hk fun x hx har => ?_
      · rw [htask₂, (task_scanned ho₂ hsel₂ hu hs hup).2.1]
        exact List.mem_map.mpr ⟨t, ht, rfl⟩
      · have hrx := (in_iff ho₂ hsel₂ hu hs hup).mp ((project L kind area outside r).inputs hplan₂ u hu x hx)
        have := hview x hrx.1 har fun h => hno (.inr (.inr (.inr ⟨x, hrx, h⟩)))
        rw [← hv₂ x har, ← hv₁ x har]; exact this
    have hin₁ : Build.In (Build.ofGraph tree₁.graph (Db.taskListAll tree₁.graph).2 workers₁ force₁ kind true) u₁ q' := by
      refine (project L kind area outside r).inputs hplan₁ u₁ hu₁ q' ?_
      rw [← hdesc]
      obtain ⟨_, _, _, _, hsrc, _, hdeps, hord⟩ := task_file ho₂ hsel₂ hu
      refine ⟨hreads.1, ?_⟩
      obtain ⟨_, h⟩ := hin
      rw [htask₂, hdeps] at h
      rw [(task_scanned ho₂ hsel₂ hu hs hup).2.2.2]
      rcases h with h | ⟨e, he, h1, h2⟩
      · exact .inl (h.trans (task_scanned ho₂ hsel₂ hu hs hup).1)
      · exact .inr ⟨_, List.mem_map.mpr ⟨e, he, rfl⟩, h1, h2⟩
    have hfresh := (Build.upToDate_iff (tasks_sane ho₁ (.inl rfl) workers₁ force₁) hi₁.kinds hu₁).mp (hup₁ u₁ hu₁).1 t.name hmem
    rw [← hfs₁] at hfresh
    obtain ⟨sp', hsp', hlt⟩ := hfresh.2 hk q' hin₁
    rw [← ht', hsp] at hsp'
    injection hsp' with e
    subst e
    have := hlt sq (by rw [← hq']; exact hsq)
    omega
  | @made u q q' v hq hk hin hv hqv _ ih =>
    obtain ⟨a, k, hs', hpv, _, htg, _⟩ := task_file ho₂ hsel₂ hv
    rw [htask₂, htg] at hqv
    obtain ⟨t', ht', rfl⟩ := List.mem_map.mp hqv
    obtain ⟨hreq, _⟩ := maker ho₂ hsel₂ hu hs hup hs' ht' ((in_iff ho₂ hsel₂ hu hs hup).mp hin)
    obtain ⟨b, l, hb, hor, hreason⟩ := ih hs' hpv hv
    refine ⟨b, l, hb, .inr ?_, hreason⟩
    rcases hor with h | h
    · rw [h]; exact hreq
    · exact requires_trans hreq h

end Maike.Main
