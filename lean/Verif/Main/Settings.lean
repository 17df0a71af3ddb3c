import Verif.Build.Settings
import Verif.Main.Incremental

/-!
# A change of the configuration (C91)

Options of compilers in the configuration are passed to recipes, but they are not among the files that time stamps are compared with.
-/

namespace Maike.Main

open Fs Tree Paths
open Maike.Build (Performs)
open Maike.Kvs (Json Members)

/-! ## Specification -/

/-- Nothing but the options for the recipe differs. -/
def SameRecipe (k k' : Kvs.Compiler) : Prop := k'.recipe = k.recipe ∧ k'.origin = k.origin ∧ k'.useGetTags = k.useGetTags

/-- Nothing but the options for recipes differs between two configurations. Recipes that are asked for tags report the same in both cases. -/
structure OnlyOptions (j j' : Job) : Prop where
  sourceDir : j'.sourceDir = j.sourceDir
  targetDir : j'.targetDir = j.targetDir
  recursive : j'.recursive = j.recursive
  nameFilter : j'.nameFilter = j.nameFilter
  dirFilter : j'.dirFilter = j.dirFilter
  resolver : j'.resolver = j.resolver
  workers : j'.workers = j.workers
  dirCompiler : SameRecipe j.dirCompiler j'.dirCompiler
  getTags : ∀ k k' p, SameRecipe k k' → j'.getTags k' p = j.getTags k p
  loader : ∀ e, match j.loader e, j'.loader e with
    | none, none => True
    | some f, some f' => ∀ p, SameRecipe (f p).default (f' p).default ∧ (f' p).useTargetDeps = (f p).useTargetDeps ∧ (f' p).found = (f p).found ∧ (f' p).tags = (f p).tags
    | _, _ => False

/-! ## Proof -/

theorem SameRecipe.refl (k : Kvs.Compiler) : SameRecipe k k := ⟨rfl, rfl, rfl⟩

theorem sameRecipe_dependency {k k' : Kvs.Compiler} (h : SameRecipe k k') : recipeDependency k' = recipeDependency k := by
  simp only [recipeDependency, h.1, h.2.1]

theorem searchExt_two {A B : Type} {f : Str → Option A} {g : Str → Option B} (h : ∀ e, (f e).isSome = (g e).isSome) (s : Str) :
    (searchExt f s = none ∧ searchExt g s = none) ∨ ∃ e a b, f e = some a ∧ g e = some b ∧ searchExt f s = some (e, a) ∧ searchExt g s = some (e, b) := by
  induction s with
  | nil => exact .inl ⟨rfl, rfl⟩
  | cons c s ih =>
    simp only [searchExt]
    split
    · have hc := h (c :: s)
      cases hf : f (c :: s) with
      | none =>
        cases hg : g (c :: s) with
        | none => exact ih
        | some b => rw [hf, hg] at hc; cases hc
      | some a =>
        cases hg : g (c :: s) with
        | none => rw [hf, hg] at hc; cases hc
        | some b => exact .inr ⟨_, a, b, hf, hg, rfl, rfl⟩
    · exact ih

/-- What is known about a file, apart from options. -/
def bareInfo (i : FileInfo) : FileInfo := { i with default := none, compiler := {} }

theorem bare_srcInfo (i : FileInfo) : (bareInfo i).toSrcInfo = i.toSrcInfo := rfl

theorem loadSourceFile_options {r : Kvs.Resolver} {g g' : Kvs.Compiler → Option Members} {c : Ctxt} {deps : List TDep} {f f' : Source}
    (hg : ∀ k k', SameRecipe k k' → g' k' = g k) (h1 : SameRecipe f.default f'.default) (h2 : f'.useTargetDeps = f.useTargetDeps) (h3 : f'.found = f.found) (h4 : f'.tags = f.tags) :
    (loadSourceFile r g' c deps f').map bareInfo = (loadSourceFile r g c deps f).map bareInfo := by
  unfold loadSourceFile
  rw [h3, h4]
  simp only [Option.map_bind]
  congr 1; funext found
  simp only [Function.comp, Option.map_bind]
  congr 1; funext tags
  simp only [Function.comp, Option.map_bind]
  congr 1; funext targets
  simp only [Function.comp, Option.map_bind]
  congr 1; funext useDeps
  simp only [Function.comp, Option.map_bind]
  congr 1; funext extra
  simp only [Function.comp, Option.map_bind]
  congr 1; funext own
  simp only [Function.comp, Option.map_bind]
  congr 1; funext own
  have hc : SameRecipe (own.getD f.default) (own.getD f'.default) := by
    cases own with
    | none => exact h1
    | some k => exact .refl k
  simp only [Function.comp, hg _ _ hc, hc.1, hc.2.2, sameRecipe_dependency hc, h2, Option.map_bind]
  congr 1; funext fromScript
  simp only [Function.comp, Option.map_map]
  congr 1

theorem load_options {j j' : Job} (h : OnlyOptions j j') (d : Disk) (p : Path) :
    (Tree.load (j'.env d) p j'.sourceDir j'.targetDir).map bareInfo = (Tree.load (j.env d) p j.sourceDir j.targetDir).map bareInfo := by
  rw [h.sourceDir, h.targetDir]
  unfold Tree.load
  extract_lets c deps' deps
  have hrec : (j'.env d).dirCompiler.recipe = (j.env d).dirCompiler.recipe := h.dirCompiler.1
  have hdeps : deps' = deps := by simp only [deps, deps', hrec]
  rw [hdeps]
  by_cases hd : Build.isDir d.fs p.normal = true
  · rw [if_pos (show (j'.env d).isDirectory p = true from hd), if_pos (show (j.env d).isDirectory p = true from hd)]
    simp only [Option.map_some, bareInfo, Job.env, sameRecipe_dependency h.dirCompiler]
  · rw [if_neg (show ¬ (j'.env d).isDirectory p = true from hd), if_neg (show ¬ (j.env d).isDirectory p = true from hd)]
    simp only [matchLongestExtension, Job.env, h.resolver]
    have hsome : ∀ e, (j.loader e).isSome = (j'.loader e).isSome := by
      intro e
      have := h.loader e
      cases h1 : j.loader e <;> cases h2 : j'.loader e <;> simp_all
    rcases searchExt_two hsome (fullExtension p.filename) with ⟨e1, e2⟩ | ⟨e, a, b, h1, h2, e1, e2⟩
    · rw [e1, e2]
    · rw [e1, e2]
      have := h.loader e
      rw [h1, h2] at this
      obtain ⟨g1, g2, g3, g4⟩ := this p
      exact loadSourceFile_options (fun k k' hk => h.getTags k k' p hk) g1 g2 g3 g4

section
variable {j j' : Job} (h : OnlyOptions j j') (d : Disk)
include h

theorem options_passes (p : Path) : (j'.world d).Passes p ↔ (j.world d).Passes p := by
  simp only [World.Passes, Job.world, h.sourceDir, h.recursive, h.nameFilter, h.dirFilter]

theorem options_load {p : Path} {b : FileInfo} :
    (∃ i, Tree.load (j'.env d) p j'.sourceDir j'.targetDir = some i ∧ bareInfo i = b) ↔ ∃ i, Tree.load (j.env d) p j.sourceDir j.targetDir = some i ∧ bareInfo i = b := by
  have := load_options h d p
  rw [← Option.map_eq_some_iff, ← Option.map_eq_some_iff, this]

theorem options_enters (p : Path) : (j'.world d).Enters p ↔ (j.world d).Enters p := by
  have hl : (∃ i, (j'.world d).load p = .ok i) ↔ ∃ i, (j.world d).load p = .ok i := by
    simp only [world_load]
    constructor
    · rintro ⟨i, hi⟩
      obtain ⟨k, hk, _⟩ := (options_load h d).mp ⟨i, hi, rfl⟩
      exact ⟨k, hk⟩
    · rintro ⟨i, hi⟩
      obtain ⟨k, hk, _⟩ := (options_load h d).mpr ⟨i, hi, rfl⟩
      exact ⟨k, hk⟩
  unfold World.Enters
  rw [options_passes h d, hl]
  rfl

theorem options_reached (p : Path) : (j'.world d).Reached p ↔ (j.world d).Reached p := by
  constructor
  · intro hr
    induction hr with
    | root =>
      rw [show (j'.world d).root = (j.world d).root from h.sourceDir]
      exact .root
    | entry _ he hn ih => exact .entry ih ((options_enters h d _).mp he) hn
  · intro hr
    induction hr with
    | root =>
      rw [← show (j'.world d).root = (j.world d).root from h.sourceDir]
      exact .root
    | entry _ he hn ih => exact .entry ih ((options_enters h d _).mpr he) hn

theorem options_scanned {p : Path} {b : FileInfo} :
    (∃ i, Scanned j' d p i ∧ bareInfo i = b) ↔ ∃ i, Scanned j d p i ∧ bareInfo i = b := by
  constructor
  · rintro ⟨i, ⟨h1, h2, h3⟩, h4⟩
    obtain ⟨k, h5, h6⟩ := (options_load h d).mp ⟨i, h3, h4⟩
    exact ⟨k, ⟨(options_reached h d p).mp h1, (options_passes h d p).mp h2, h5⟩, h6⟩
  · rintro ⟨i, ⟨h1, h2, h3⟩, h4⟩
    obtain ⟨k, h5, h6⟩ := (options_load h d).mpr ⟨i, h3, h4⟩
    exact ⟨k, ⟨(options_reached h d p).mpr h1, (options_passes h d p).mpr h2, h5⟩, h6⟩

end

/-! ## C91 -/

section
variable {j j' : Job} {kind : Path → Bool} {d : Disk} {now : Nat}

theorem srcList_sorted {files : List (Path × FileInfo)} (h : Db.Map.Sorted files) : Db.Map.Sorted (srcList files) := by
  induction files with
  | nil => trivial
  | cons x files ih =>
    refine ⟨fun y hy => ?_, ih h.2⟩
    obtain ⟨z, hz, rfl⟩ := List.mem_map.mp hy
    exact h.1 z hz

/-- After a successful run, a scan with other options for recipes leads to the same source tree. -/
theorem options_rescan {force : Bool} {files : List (Path × FileInfo)} {tree : Db.SourceTree Path} {s : Build.State Path} (hj : OnlyOptions j j')
    (hp : Proper j kind d now) (hr : Runs j force kind d now files tree s) (hh : Hidden j kind d)
    {d₂ : Disk} (hd₂ : d₂.Ok) (hfs : d₂.fs = s.fs) {files₂ : List (Path × FileInfo)} {tree₂ : Db.SourceTree Path}
    (hl₂ : Loads j' d₂ files₂ tree₂) : srcList files₂ = srcList files ∧ tree₂ = tree := by
  have hw : (j.world d).Ok := world_ok hp
  have hw₂ : (j'.world d₂).Ok := ⟨by rw [show (j'.world d₂).root = j.sourceDir from hj.sourceDir]; exact hp.notEmpty, hd₂.nodup, hd₂.isName⟩
  obtain ⟨h1, h2, h3⟩ := run_leaves hp hr
  obtain ⟨hscan, _⟩ := same_scanned hp hd₂ (by rw [hfs]; exact h1) (by rw [hfs]; exact h2) (by rw [hfs]; exact h3) hh (fun _ => loads_complete hw hr.1)
    (fun p hr he => loads_complete hw₂ hl₂ ((options_reached hj d₂ p).mpr hr) ((options_enters hj d₂ p).mpr he))
  have heq : srcList files₂ = srcList files := by
    apply sorted_ext (srcList_sorted (files_sorted_of_ok hw₂ hl₂)) (srcList_sorted (files_sorted_of_ok hw hr.1))
    rintro ⟨k, i⟩
    simp only [srcList, List.mem_map, Prod.exists, Prod.mk.injEq]
    constructor
    · rintro ⟨q, x, hx, rfl, rfl⟩
      obtain ⟨p, hs, rfl⟩ := (mem_files_of_ok hw₂ hl₂ _ _).mp hx
      obtain ⟨y, hy, e⟩ := (options_scanned hj d₂).mp ⟨x, hs, rfl⟩
      refine ⟨_, y, (mem_files_of_ok hw hr.1 _ _).mpr ⟨p, (hscan p y).mp hy, rfl⟩, rfl, ?_⟩
      rw [← bare_srcInfo, e, bare_srcInfo]
    · rintro ⟨q, x, hx, rfl, rfl⟩
      obtain ⟨p, hs, rfl⟩ := (mem_files_of_ok hw hr.1 _ _).mp hx
      obtain ⟨y, hy, e⟩ := (options_scanned hj d₂).mpr ⟨x, (hscan p x).mpr hs, rfl⟩
      refine ⟨_, y, (mem_files_of_ok hw₂ hl₂ _ _).mpr ⟨p, hy, rfl⟩, rfl, ?_⟩
      rw [← bare_srcInfo, e, bare_srcInfo]
  refine ⟨heq, ?_⟩
  have := hl₂.2
  rw [heq, hr.1.2] at this
  exact (Except.ok.inj this).symm

/-- **C91.** The property is false: after a successful run, options for recipes have been changed in the configuration, and nothing else. If no file is marked to be rebuilt always, the next run, unless it is
forced, executes no command and changes no file. -/
theorem C91_ignored {force : Bool} {files : List (Path × FileInfo)} {tree : Db.SourceTree Path} {s : Build.State Path} (hj : OnlyOptions j j')
    (hp : Proper j kind d now) (hr : Runs j force kind d now files tree s) (hs : s.Succeeded) (hh : Hidden j kind d)
    (halways : ∀ p i, Scanned j d p i → i.policy ≠ .always)
    {d₂ : Disk} (hd₂ : d₂.Ok) (hfs : d₂.fs = s.fs) {later : Nat} {files₂ : List (Path × FileInfo)} {tree₂ : Db.SourceTree Path}
    {s₂ : Build.State Path} (hr₂ : Runs j' false kind d₂ later files₂ tree₂ s₂) :
    (∀ t, tree₂.graph.Builds t → ¬ s₂.Executed t) ∧ ∀ p, kind p = false → s₂.fs p = s.fs p := by
  obtain ⟨_, rfl⟩ := options_rescan hj hp hr hh hd₂ hfs hr₂.1
  obtain ⟨hl, hok, as, hx⟩ := hr
  obtain ⟨_, _, as₂, hx₂⟩ := hr₂
  have hno : ∀ t, tree₂.graph.Builds t → ¬ s₂.Executed t := by
    intro t ht hex
    rw [hfs, theBuild, hj.workers] at hx₂
    have hL := loadable hp hl
    obtain ⟨u, q, info, h1, h2, hne, h3⟩ := Build.C14_source_tree hL hl.2 (no_empty hp hl) hok (plausible hp tree₂ force) hx hs hx₂ ht hex
    rcases Build.record_origin hL hl.2 h2 with ⟨i0, hi0, _, hpol⟩ | ⟨htg, _⟩
    · obtain ⟨q', i, hsc, e⟩ := (mem_srcList hp hl _).mp hi0
      injection e with e1 e2
      rw [h3, e2] at hpol
      exact halways q' i hsc hpol.symm
    · exact absurd htg hne
  refine ⟨hno, fun p hk => ?_⟩
  rcases exec_changes hx₂ p hk with h | ⟨t, ht, hex⟩
  · rw [h, ← hfs]; rfl
  · refine absurd hex (hno t ?_)
    change p ∈ (Build.makeTask tree₂.graph t).targets at ht
    unfold Build.makeTask at ht
    split at ht
    · cases ht
    · rename_i q info hu
      refine ⟨q, info, hu, ?_⟩
      intro e
      simp [e] at ht

end

section
variable {V : Type} {L : Loading V} {kind area outside : Path → Bool} {r : Tools V kind} {w w' w₀ : Build.World Path V} {names : Path → List Str × Option Str}
  {files : List (Path × FileInfo)} {tree : Db.SourceTree Path} {tasks : List Nat} {workers : Nat} {force : Bool} {s : Build.State Path}

/-- **C91.** Whatever the targets were before, and whoever has made them: when a build has succeeded, then the targets of a file contain what its recipe computes from the files that are there now and from what it is told
according to the current settings, if the build has been forced, or the recipe has been executed. If the build has been forced, all recipes have been executed. -/
theorem C91_current_partial (hpast : ∀ p st, kind p = false → w.fs p = some st → st.mtime < w.clock) (hkinds : ∀ p st, w.fs p = some st → st.dir = kind p)
    (ho : Opens L kind area outside w₀ names files tree) (hsel : Selected tree tasks)
    (hrun : Performs r.recipes (Build.ofGraph tree.graph tasks workers force kind true) (orderOf files tree) w s w') (hok : s.Succeeded)
    {p : Path} {i : FileInfo} (hs : Scanned (L.job (w₀.view kind)) ⟨w₀.fs, names⟩ p i) {u : Nat} (hup : tree.graph.PathOf u p.normal) (hu : u ∈ tasks) :
    (force = true → s.Executed u) ∧
    ∀ t ∈ i.targets, kind t.name = false → force = true ∨ s.Executed u → (w'.fs t.name).isSome ∧ ∃ o : Order, o.src = p.normal ∧ o.default = i.default ∧ o.own = i.compiler ∧
      o.targets = i.targets.map TTarget.name ∧ (∀ b, b ∈ o.deps.map TDep.name ↔ Requires (L.job (w₀.view kind)) ⟨w₀.fs, names⟩ p.normal b) ∧
      (∀ info format, requestOf files tree info format u = some (o.request info format u)) ∧ w'.content t.name = r.make o w'.content t.name := by
  have hb := tasks_sane ho hsel workers force
  have hpl : Build.Plausible (Build.ofGraph tree.graph tasks workers force kind true) w.fs w.clock := ⟨hpast, hkinds⟩
  have hreads : ∀ t ∈ tasks, ∀ q, r.recipes.reads (orderOf files tree t) q → Build.In (Build.ofGraph tree.graph tasks workers force kind true) t q := by
    intro t ht q hq
    obtain ⟨a, k, _, _, hsrc, _, hdeps, hord⟩ := task_file ho hsel ht
    obtain ⟨hkq, hq⟩ := hq
    refine ⟨hkq, ?_⟩
    rw [hord] at hq
    change q = (Build.makeTask tree.graph t).src ∨ ∃ d ∈ (Build.makeTask tree.graph t).deps, d.name = q ∧ Db.isExternal d.origin = false
    rw [hsrc, hdeps]
    rcases hq with hq | ⟨x, hx, h1, h2⟩
    · exact .inl hq
    · obtain ⟨e, he, rfl⟩ := List.mem_map.mp hx
      exact .inr ⟨e, he, h1, h2⟩
  have hall : force = true → s.Executed u := fun hf => Build.C91_all_executed hb rfl hf hreads hpl hrun hok u hu
  refine ⟨hall, fun t ht hk hex => ?_⟩
  have hex : s.Executed u := hex.elim hall id
  obtain ⟨a, k, hs', hu', hsrc, htg, _, hord⟩ := task_file ho hsel hu
  have hpa : a.normal = p.normal := by
    obtain ⟨_, h1⟩ := hu'
    obtain ⟨_, h2⟩ := hup
    rw [h1] at h2
    injection h2 with h2
    injection h2
  have hik := scanned_unique ho.proper ho.loads hs' hs hpa
  subst hik
  have hmem : t.name ∈ ((Build.ofGraph tree.graph tasks workers force kind true).task u).targets := by
    rw [show (Build.ofGraph tree.graph tasks workers force kind true).task u = Build.makeTask tree.graph u from rfl, htg]
    exact List.mem_map.mpr ⟨t, ht, rfl⟩
  obtain ⟨_, h2, _, _, _⟩ := Build.deps_exact (loadable ho.proper ho.loads) ho.loads.2 (apart_files ho.proper ho.loads ho.made)
    (no_empty ho.proper ho.loads) ho.acyclic hup
  refine ⟨?_, orderOf files tree u, by rw [hord]; exact hpa, by rw [hord], by rw [hord], by rw [hord], ?_, ?_,
    Build.C91_executed_partial hb rfl rfl hreads hpl hrun hok hu hex t.name hmem hk⟩
  · obtain ⟨as, hx, hfs, _⟩ := hrun
    have := (Build.C13_up_to_date _ hb rfl rfl hpl (Build.execContents_exec hx) hok u hu).2 t.name hmem
    rw [hfs]
    exact Option.isSome_iff_exists.mpr this
  · intro b
    rw [hord, requires_iff ho.proper ho.loads, ← h2 b]
    simp [depsOf, List.map_map, Function.comp_def]
  · intro info format
    cases hq : requestOf files tree info format u with
    | some q => rw [orderOf_request hq]
    | none =>
      obtain ⟨info', h1⟩ := hup
      have hlook : Db.Map.lookup p.normal files = some k :=
        Db.Map.lookup_of_mem (files_sorted ho.proper ho.loads) ((mem_files ho.proper ho.loads _ _).mpr ⟨p, hs, rfl⟩)
      simp [requestOf, h1, hlook] at hq

end

end Maike.Main
