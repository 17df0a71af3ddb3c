import Verif.Build.Content
import Verif.Build.Determined
import Verif.Main.Request
import Verif.Main.Targets

/-!
# Incremental builds (C85)

Whole runs on file systems where files have contents. What the loaders report about a file is computed from its contents, and so is everything else that decides what
is done.
-/

namespace Maike.Main

open Fs Tree Paths
open Maike.Build (World Recipes Performs)
open Maike.Kvs (Json Members Request DepJson)

/-! ## Model -/

/-- The settings of all runs, and what loaders and the recipes with `get_tags` report, depending on the contents of the file. The loaders and the tags of `base` are
not used. -/
structure Loading (V : Type) where
  base : Job
  read : Str → Option (Path → V → Source)
  tags : Kvs.Compiler → Path → V → Option Members

/-- The settings of a run when the contents of files are `c`. A file that does not exist cannot be loaded. -/
def Loading.job {V : Type} (L : Loading V) (c : Path → Option V) : Job :=
  { L.base with
    loader := fun ext => (L.read ext).map fun f p => match c p.normal with
      | some v => f p v
      | none => ⟨{}, false, none, none⟩
    getTags := fun k p => (c p.normal).bind (L.tags k p) }

/-- What a recipe reports follows from what is in the file now, and nothing is reported about files that do not exist. -/
example (base : Job) : let L : Loading Nat := ⟨base, fun _ => none, fun _ _ n => some [("lines", .int n)]⟩
    (L.job fun _ => some 1).getTags {} .empty = some [("lines", .int 1)] ∧ (L.job fun _ => some 2).getTags {} .empty = some [("lines", .int 2)] ∧
    (L.job fun _ => none).getTags {} .empty = none := ⟨rfl, rfl, rfl⟩

/-- What a recipe is told, apart from the number of the task, and from information about the run: see `requestOf`. -/
structure Order where
  src : Path
  default : Option Kvs.Compiler
  own : Kvs.Compiler
  targets : List Path
  deps : List TDep

/-- What is passed to `makeBuildCommand` for a node. -/
def orderOf (files : List (Path × FileInfo)) (tree : Db.SourceTree Path) (u : Nat) : Order :=
  match tree.graph.files[u]? with
  | none => ⟨Path.empty, none, {}, [], []⟩
  | some (p, s) =>
    let i := (Db.Map.lookup p files).getD {}
    ⟨p, i.default, i.compiler, s.targets.map fun t => t.name, (Db.getUseDepsRecursive tree.graph u).2.map fun x => ⟨x.name, x.origin, x.props⟩⟩

/-- What is passed to the recipe. -/
def Order.request (o : Order) (info : Json) (format : Text.LogFormat) (u : Nat) : Request where
  default := o.default
  own := o.own
  path := text o.src
  id := u
  info := info
  format := format
  targets := o.targets.map text
  deps := o.deps.map fun x => ⟨text x.name, x.origin, x.properties⟩

/-- The files that a recipe may read: the source file, and what it is told about as a dependency, apart from what is external. -/
def Order.Input (kind : Path → Bool) (o : Order) (q : Path) : Prop :=
  kind q = false ∧ (q = o.src ∨ ∃ x ∈ o.deps, x.name = q ∧ Db.isExternal x.origin = false)

/-- What recipes write to their targets, as a function of what they are told and of the contents of files they may read. -/
structure Tools (V : Type) (kind : Path → Bool) where
  make : Order → (Path → V) → Path → V
  pure : ∀ o c c' p, (∀ q, o.Input kind q → c q = c' q) → make o c p = make o c' p

def Tools.recipes {V : Type} {kind : Path → Bool} (r : Tools V kind) : Recipes Path V Order where
  reads o q := o.Input kind q
  make := r.make
  pure := r.pure

/-! ## Specification -/

/-- Which paths are what. Files of the project are neither in `area`, where targets are, nor `outside`. A name is declared as external everywhere or nowhere.
No file is declared to depend on a directory that is a target. Something can exist in a directory only if the directory exists. -/
structure Classified (j : Job) (kind area outside : Path → Bool) (d : Disk) : Prop where
  found : ∀ p i, Scanned j d p i → area p.normal = false ∧ outside p.normal = false
  targets : ∀ p i, Scanned j d p i → ∀ t ∈ i.targets, Made j d t → area t.name = true
  apart : ∀ q, area q = true → outside q = false
  declared : ∀ p i x, Scanned j d p i → Declares i x → Db.isExternal x.origin = outside x.name
  noDirs : ∀ p i x, Scanned j d p i → Declares i x → kind x.name = true → area x.name = false
  parents : ∀ p n, IsNormal p → p ≠ Path.empty → IsName n → (d.fs (p / ⟨false, [n], false⟩).normal).isSome → Build.isDir d.fs p = true

/-- A run starts with the files `w`, and the source tree has been loaded. `names` is what iteration over directories yields. -/
structure Opens {V : Type} (L : Loading V) (kind area outside : Path → Bool) (w : World Path V) (names : Path → List Str × Option Str)
    (files : List (Path × FileInfo)) (tree : Db.SourceTree Path) : Prop where
  proper : Proper (L.job (w.view kind)) kind ⟨w.fs, names⟩ w.clock
  made : Apart (L.job (w.view kind)) ⟨w.fs, names⟩
  classified : Classified (L.job (w.view kind)) kind area outside ⟨w.fs, names⟩
  loads : Loads (L.job (w.view kind)) ⟨w.fs, names⟩ files tree
  acyclic : (Db.taskListAll tree.graph).1 = .ok

/-- The tasks of a build: all of them, or those needed for one target, core/db/source_tree.cpp:33-53. -/
def Selected (tree : Db.SourceTree Path) (tasks : List Nat) : Prop :=
  tasks = (Db.taskListAll tree.graph).2 ∨ ∃ src, (Db.taskListFor tree.graph src).1 = .ok ∧ tasks = (Db.taskListFor tree.graph src).2

/-- The history of a project: at first there are no targets; source files are written by somebody, anything is removed, directories are made, and there are builds.
In a run, there may be several of them, each for one target. They may succeed, fail or be interrupted. Source files do not change between the
beginning of the run, when the source tree is loaded (`w₀`), and the beginning of the build (`w`). -/
inductive Life {V : Type} (L : Loading V) (kind area outside : Path → Bool) (r : Tools V kind) : World Path V → Prop
  | start {w} : (∀ p, area p = true → kind p = false → w.fs p = none) → (∀ p st, kind p = false → w.fs p = some st → st.mtime < w.clock) →
      (∀ p st, w.fs p = some st → st.dir = kind p) → Life L kind area outside r w
  | edit {w p v} : Life L kind area outside r w → area p = false → kind p = false → Life L kind area outside r (w.edit p v)
  | remove {w p} : Life L kind area outside r w → Life L kind area outside r (w.remove p)
  | mkdir {w p} : Life L kind area outside r w → kind p = true → Life L kind area outside r (w.mkdir p)
  | wait {w} : Life L kind area outside r w → Life L kind area outside r w.wait
  | build {w w' w₀ names files tree tasks workers force s} : Life L kind area outside r w → Opens L kind area outside w₀ names files tree →
      (∀ q, area q = false → w₀.view kind q = w.view kind q) → Selected tree tasks →
      Performs r.recipes (Build.ofGraph tree.graph tasks workers force kind true) (orderOf files tree) w s w' → Life L kind area outside r w'

/-! ## Proof -/

theorem orderOf_request {files : List (Path × FileInfo)} {tree : Db.SourceTree Path} {info : Json} {format : Text.LogFormat} {u : Nat} {q : Request}
    (h : requestOf files tree info format u = some q) : q = (orderOf files tree u).request info format u := by
  unfold requestOf at h
  unfold orderOf
  split at h
  · cases h
  · rename_i p s hu
    simp only [hu]
    split at h
    · cases h
    · rename_i i hi
      simp only [Option.some.injEq] at h
      simp [← h, Order.request, hi, List.map_map, Function.comp_def]

theorem searchExt_read {A B : Type} (l : Str → Option A) (f : A → B) (s : Str) :
    searchExt (fun ext => (l ext).map f) s = (searchExt l s).map fun x => (x.1, f x.2) := by
  induction s with
  | nil => rfl
  | cons c s ih =>
    simp only [searchExt]
    split
    · cases l (c :: s) with
      | none => simpa using ih
      | some a => rfl
    · exact ih

variable {V : Type} {L : Loading V} {kind area outside : Path → Bool}

section
variable {w w' : World Path V} {names names' : Path → List Str × Option Str} {files files' : List (Path × FileInfo)} {tree tree' : Db.SourceTree Path}
  (ho : Opens L kind area outside w names files tree) (ho' : Opens L kind area outside w' names' files' tree')

theorem view_isSome {p : Path} (hk : kind p = false) : (w.view kind p).isSome = (w.fs p).isSome := by
  simp [World.view, hk]

include ho in
theorem isDir_kind {p : Path} (h : (w.fs p).isSome) : Build.isDir w.fs p = kind p := by
  obtain ⟨st, hst⟩ := Option.isSome_iff_exists.mp h
  simp only [Build.isDir, hst]
  exact ho.proper.kinds p st hst

/-- Two worlds in which a path exists and cannot be told apart by a loader. -/
def SameAt (kind : Path → Bool) (w w' : World Path V) (p : Path) : Prop :=
  (w.fs p).isSome ∧ (w'.fs p).isSome ∧ (kind p = false → w.view kind p = w'.view kind p)

theorem sameAt_symm {p : Path} (h : SameAt kind w w' p) : SameAt kind w' w p := ⟨h.2.1, h.1, fun hk => (h.2.2 hk).symm⟩

include ho ho' in
/-- What the loader says about a file. -/
theorem load_same {p : Path} (h : SameAt kind w w' p.normal) :
    Tree.load ((L.job (w'.view kind)).env ⟨w'.fs, names'⟩) p L.base.sourceDir L.base.targetDir =
    Tree.load ((L.job (w.view kind)).env ⟨w.fs, names⟩) p L.base.sourceDir L.base.targetDir := by
  have e1 : Build.isDir w'.fs p.normal = kind p.normal := isDir_kind ho' h.2.1
  have e2 : Build.isDir w.fs p.normal = kind p.normal := isDir_kind ho h.1
  unfold Tree.load
  simp only [Job.env, Loading.job, e1, e2]
  cases hk : kind p.normal with
  | true => rfl
  | false =>
    have hv := h.2.2 hk
    simp only [Bool.false_eq_true, if_false, matchLongestExtension, searchExt_read]
    cases searchExt L.read (fullExtension p.filename) with
    | none => rfl
    | some x => simp only [Option.map_some, hv]; rfl

include ho ho' in
/-- What has been found is still found while it exists. -/
theorem reached_same {p : Path} (h : ((L.job (w.view kind)).world ⟨w.fs, names⟩).Reached p) (he : (w'.fs p.normal).isSome) :
    ((L.job (w'.view kind)).world ⟨w'.fs, names'⟩).Reached p := by
  induction h with
  | root => exact .root
  | @entry p n hr hent hn ih =>
    have hw := world_ok ho.proper
    have hname := hw.isName _ _ hn
    have hnorm : IsNormal p.normal := normal_isNormal p
    have hne := reached_ne hw hr
    have hdir := ho'.classified.parents p.normal n hnorm hne hname he
    have hex : (w'.fs p.normal).isSome := by
      cases hf : w'.fs p.normal with
      | none => simp [Build.isDir, hf] at hdir
      | some _ => rfl
    have hk : kind p.normal = true := by rw [← isDir_kind ho' hex]; exact hdir
    have hsame : SameAt kind w w' p.normal := ⟨reached_exists ho.proper hr, hex, fun h => by rw [hk] at h; cases h⟩
    have hl := load_same ho ho' hsame
    obtain ⟨hpass, ⟨i, hi⟩, _⟩ := hent
    have hr' := ih hex
    have hent' : ((L.job (w'.view kind)).world ⟨w'.fs, names'⟩).Enters p := by
      refine ⟨?_, ⟨i, ?_⟩, ?_⟩
      · rcases hpass with h | ⟨h1, h2⟩
        · exact .inl h
        · refine .inr ⟨?_, h2⟩
          rcases h1 with h1 | h1
          · exact .inl h1
          · simp only [Job.world, Except.ok.injEq] at h1
            rw [isDir_kind ho hsame.1, hk] at h1; cases h1
      · rw [world_load] at hi ⊢
        exact hl.trans hi
      · simp only [Job.world, normal_normal, hdir]
    refine .entry hr' hent' ?_
    exact ho'.proper.disk.complete p.normal n hnorm hne (loads_complete (world_ok ho'.proper) ho'.loads hr' hent') hname he

include ho ho' in
theorem scanned_same {p : Path} {i : FileInfo} (h : Scanned (L.job (w.view kind)) ⟨w.fs, names⟩ p i) (hs : SameAt kind w w' p.normal) :
    Scanned (L.job (w'.view kind)) ⟨w'.fs, names'⟩ p i := by
  obtain ⟨h1, h2, h3⟩ := h
  refine ⟨reached_same ho ho' h1 hs.2.1, ?_, (load_same ho ho' hs).trans h3⟩
  rcases h2 with h | ⟨h1, h2⟩
  · exact .inl h
  · refine .inr ⟨?_, h2⟩
    rcases h1 with h1 | h1
    · exact .inl h1
    · refine .inr ?_
      simp only [Job.world, Except.ok.injEq] at h1 ⊢
      rw [isDir_kind ho' hs.2.1, ← isDir_kind ho hs.1]; exact h1

include ho ho' in
theorem file_same {q : Path} {i : Db.SrcInfo Path} (h : (q, i) ∈ srcList files) (hs : SameAt kind w w' q) : (q, i) ∈ srcList files' := by
  obtain ⟨p, k, hp, e⟩ := (mem_srcList ho.proper ho.loads _).mp h
  injection e with e1 e2
  subst e1 e2
  exact (mem_srcList ho'.proper ho'.loads _).mpr ⟨p, k, scanned_same ho ho' hp hs, rfl⟩

/-! ### What is declared -/

include ho in
theorem found_in {q : Path} (h : Db.HasFile (srcList files) q) : area q = false ∧ outside q = false ∧ (w.fs q).isSome := by
  obtain ⟨p, i, hs, rfl⟩ := (hasFile_iff ho.proper ho.loads).mp h
  obtain ⟨h1, h2⟩ := ho.classified.found p i hs
  exact ⟨h1, h2, reached_exists ho.proper hs.1⟩

include ho in
theorem target_in {p : Path} {i : Db.SrcInfo Path} {t : Db.TargetInfo Path} (h : (p, i) ∈ srcList files) (ht : t ∈ i.targets)
    (hm : ¬ Db.HasFile (srcList files) t.name) : area t.name = true := by
  obtain ⟨p', k, hp, e⟩ := (mem_srcList ho.proper ho.loads _).mp h
  injection e with e1 e2
  subst e1 e2
  obtain ⟨t', ht', rfl⟩ := List.mem_map.mp ht
  exact ho.classified.targets p' k hp t' ht' ((made_iff ho.proper ho.loads).mpr hm)

include ho in
theorem depends_in {a : Path} {x : TDep} (h : DependsOn (L.job (w.view kind)) ⟨w.fs, names⟩ a x) :
    Db.isExternal x.origin = outside x.name ∧ (kind x.name = true → area x.name = false) := by
  have hd : ∀ p i, Scanned (L.job (w.view kind)) ⟨w.fs, names⟩ p i → Declares i x →
      Db.isExternal x.origin = outside x.name ∧ (kind x.name = true → area x.name = false) :=
    fun p i hs hx => ⟨ho.classified.declared p i x hs hx, ho.classified.noDirs p i x hs hx⟩
  have hlw : ∀ p i t, Scanned (L.job (w.view kind)) ⟨w.fs, names⟩ p i → t ∈ i.targets → LinkedWith (L.job (w.view kind)) ⟨w.fs, names⟩ p t x →
      Db.isExternal x.origin = outside x.name ∧ (kind x.name = true → area x.name = false) := by
    intro p i t hs ht h
    cases h with
    | own h => exact hd p i hs (.inr (.inr ⟨t, ht, h⟩))
    | child _ hk hx _ => exact hd _ _ hk (.inr (.inl hx))
  cases h with
  | use hs hx => exact hd _ _ hs (.inl hx)
  | source hs _ _ =>
    obtain ⟨h1, h2⟩ := ho.classified.found _ _ hs
    exact ⟨by simp only [h2]; rfl, fun _ => h1⟩
  | link hs ht _ h => exact hlw _ _ _ hs ht h
  | ofTarget hs _ ht h => exact hlw _ _ _ hs ht h

include ho in
theorem refers_in {a : Path} {e : Db.Dep Path} (h : Build.Refers (srcList files) a e) :
    Db.isExternal e.origin = outside e.name ∧ (kind e.name = true → area e.name = false) := by
  obtain ⟨x, hx, rfl⟩ := (refers_iff ho.proper ho.loads).mpr h
  exact depends_in ho hx

include ho in
theorem chain_dirs {a q : Path} (h : Build.Chain (srcList files) a q) : kind q = true → area q = false := by
  cases h with
  | single h => exact (refers_in ho h).2
  | tail _ h => exact (refers_in ho h).2

include ho in
/-- What has a record is a file, or outside, or a target. -/
theorem record_in {u : Nat} {q : Path} (h : tree.graph.PathOf u q) (hout : outside q = false) :
    Db.HasFile (srcList files) q ∨ (area q = true ∧ ∃ p i t, (p, i) ∈ srcList files ∧ t ∈ i.targets ∧ q = t.name) := by
  rcases Build.record_external (loadable ho.proper ho.loads) ho.loads.2 h with h | ⟨y, hy, t, ht, rfl⟩ | ⟨y, hy, x, hx, rfl, hext⟩
  · exact .inl h
  · by_cases hf : Db.HasFile (srcList files) t.name
    · exact .inl hf
    · exact .inr ⟨target_in ho hy ht hf, y.1, y.2, t, hy, ht, rfl⟩
  · obtain ⟨p, i, hs, rfl⟩ := (mem_srcList ho.proper ho.loads _).mp hy
    obtain ⟨y, h1, h2, h3⟩ := found_declares hx
    have := ho.classified.declared p i y hs h1
    rw [h2, h3, hext, hout] at this
    cases this

/-- The dependencies, without references. -/
def depsOf (tree : Db.SourceTree Path) (u : Nat) : List TDep := (Db.getUseDepsRecursive tree.graph u).2.map fun x => ⟨x.name, x.origin, x.props⟩

include ho in
theorem mem_depsOf {u : Nat} {a : Path} (hu : tree.graph.PathOf u a) {q : Path} (h : Build.Chain (srcList files) a q) :
    ∃ x ∈ depsOf tree u, x.name = q ∧ Db.isExternal x.origin = outside q := by
  obtain ⟨_, h2, _, h4, _⟩ := Build.deps_exact (loadable ho.proper ho.loads) ho.loads.2 (apart_files ho.proper ho.loads ho.made)
    (no_empty ho.proper ho.loads) ho.acyclic hu
  obtain ⟨e, he, rfl⟩ := List.mem_map.mp ((h2 q).mpr h)
  refine ⟨_, List.mem_map.mpr ⟨e, he, rfl⟩, rfl, ?_⟩
  obtain ⟨b, _, d, hd, hbare⟩ := h4 e he
  have := (refers_in ho hd).1
  simp only [Build.bare, Db.Dep.mk.injEq] at hbare
  rw [hbare.1, hbare.2.1] at this
  exact this

include ho in
theorem depsOf_chain {u : Nat} {a : Path} (hu : tree.graph.PathOf u a) {x : TDep} (h : x ∈ depsOf tree u) :
    Build.Chain (srcList files) a x.name ∧ Db.isExternal x.origin = outside x.name := by
  obtain ⟨_, h2, _, h4, _⟩ := Build.deps_exact (loadable ho.proper ho.loads) ho.loads.2 (apart_files ho.proper ho.loads ho.made)
    (no_empty ho.proper ho.loads) ho.acyclic hu
  obtain ⟨e, he, rfl⟩ := List.mem_map.mp h
  refine ⟨(h2 _).mp (List.mem_map.mpr ⟨e, he, rfl⟩), ?_⟩
  obtain ⟨b, _, d, hd, hbare⟩ := h4 e he
  have := (refers_in ho hd).1
  simp only [Build.bare, Db.Dep.mk.injEq] at hbare
  rw [hbare.1, hbare.2.1] at this
  exact this

/-! ### What is done for a file depends on what is read -/

include ho ho' in
theorem agree {u v : Nat} {a : Path} (hu : tree.graph.PathOf u a) (hv : tree'.graph.PathOf v a) (hka : kind a = false)
    (hfa : Db.HasFile (srcList files) a)
    (hread : ∀ q, kind q = false → (q = a ∨ ∃ x ∈ depsOf tree u, x.name = q ∧ Db.isExternal x.origin = false) → area q = false → w.view kind q = w'.view kind q) :
    Build.Agree (srcList files) (srcList files') a := by
  have hL := loadable ho.proper ho.loads
  have hL' := loadable ho'.proper ho'.loads
  have hA := apart_files ho.proper ho.loads ho.made
  have hA' := apart_files ho'.proper ho'.loads ho'.made
  have hnode : ∀ q, (q = a ∨ Build.Chain (srcList files) a q) → ∃ v, tree.graph.PathOf v q := by
    rintro q (rfl | hq)
    · exact ⟨_, hu⟩
    · obtain ⟨v, _, h⟩ := (Build.chain_exact hL ho.loads.2 hA hu).2 q hq
      exact ⟨v, h⟩
  have hview : ∀ q, (q = a ∨ Build.Chain (srcList files) a q) → kind q = false → area q = false → outside q = false → w.view kind q = w'.view kind q := by
    rintro q (rfl | hq) hk har hout
    · exact hread _ hk (.inl rfl) har
    · obtain ⟨x, hx, hn, he⟩ := mem_depsOf ho hu hq
      exact hread q hk (.inr ⟨x, hx, hn, by rw [he]; exact hout⟩) har
  have hsameAt : ∀ q, (q = a ∨ Build.Chain (srcList files) a q) → kind q = false → area q = false → outside q = false →
      ((w.fs q).isSome ∨ (w'.fs q).isSome) → SameAt kind w w' q := by
    intro q hq hk har hout hex
    have hv := hview q hq hk har hout
    have h1 := congrArg Option.isSome hv
    rw [view_isSome hk, view_isSome hk] at h1
    rcases hex with hex | hex
    · exact ⟨hex, h1 ▸ hex, fun _ => hv⟩
    · exact ⟨h1 ▸ hex, hex, fun _ => hv⟩
  have hsame : ∀ q, (q = a ∨ Build.Chain (srcList files) a q) → (∃ v, tree'.graph.PathOf v q) → ∀ i, (q, i) ∈ srcList files ↔ (q, i) ∈ srcList files' := by
    intro q hq ⟨v, hv⟩ i
    obtain ⟨u', hu'⟩ := hnode q hq
    have key : Db.HasFile (srcList files) q ∨ Db.HasFile (srcList files') q → SameAt kind w w' q := by
      intro hf
      obtain ⟨har, hout, hex⟩ : area q = false ∧ outside q = false ∧ ((w.fs q).isSome ∨ (w'.fs q).isSome) := by
        rcases hf with hf | hf
        · obtain ⟨h1, h2, h3⟩ := found_in ho hf; exact ⟨h1, h2, .inl h3⟩
        · obtain ⟨h1, h2, h3⟩ := found_in ho' hf; exact ⟨h1, h2, .inr h3⟩
      cases hk : kind q with
      | false => exact hsameAt q hq hk har hout hex
      | true =>
        have hf1 : Db.HasFile (srcList files) q := by
          rcases record_in ho hu' hout with h | ⟨h, _⟩
          · exact h
          · rw [har] at h; cases h
        have hf2 : Db.HasFile (srcList files') q := by
          rcases record_in ho' hv hout with h | ⟨h, _⟩
          · exact h
          · rw [har] at h; cases h
        exact ⟨(found_in ho hf1).2.2, (found_in ho' hf2).2.2, fun h => by rw [hk] at h; cases h⟩
    constructor
    · intro h; exact file_same ho ho' h (key (.inl ⟨_, h⟩))
    · intro h; exact file_same ho' ho h (sameAt_symm (key (.inr ⟨_, h⟩)))
  have hsource : ∀ p i t, (p, i) ∈ srcList files → t ∈ i.targets → (t.name = a ∨ Build.Chain (srcList files) a t.name) → ¬ Db.HasFile (srcList files) t.name →
      (p, i) ∈ srcList files' := by
    intro p i t hp ht hq hnf
    have hart := target_in ho hp ht hnf
    have hch : Build.Chain (srcList files) a t.name := by
      rcases hq with h | h
      · rw [h] at hnf; exact absurd hfa hnf
      · exact h
    have hkt : kind t.name = false := by
      cases hk : kind t.name with
      | false => rfl
      | true => have := chain_dirs ho hch hk; rw [hart] at this; cases this
    have hkp : kind p = false := by
      cases hk : kind p with
      | false => rfl
      | true => have := hL.dirs _ hp hk t ht; rw [hkt] at this; cases this
    have hcp : Build.Chain (srcList files) a p := .tail hch (.source hp ht hnf)
    obtain ⟨h1, h2, h3⟩ := found_in ho ⟨_, hp⟩
    exact file_same ho ho' hp (hsameAt p (.inr hcp) hkp h1 h2 (.inl h3))
  have hchain := Build.chain_same hL' ho'.loads.2 hA' hv hsame hsource
  have hnode' : ∀ q, (q = a ∨ Build.Chain (srcList files) a q) → ∃ v, tree'.graph.PathOf v q := by
    rintro q (rfl | hq)
    · exact ⟨_, hv⟩
    · obtain ⟨v', _, h⟩ := (Build.chain_exact hL' ho'.loads.2 hA' hv).2 q (hchain q hq)
      exact ⟨v', h⟩
  refine ⟨fun q hq => hsame q hq (hnode' q hq), fun q hq hnf => ?_⟩
  obtain ⟨u', hu'⟩ := hnode q hq
  cases hout : outside q with
  | true =>
    refine .inr fun p i t hp ht e => ?_
    subst e
    by_cases hf : Db.HasFile (srcList files') t.name
    · have := (found_in ho' hf).2.1; rw [hout] at this; cases this
    · have := ho.classified.apart _ (target_in ho' hp ht hf); rw [hout] at this; cases this
  | false =>
    rcases record_in ho hu' hout with h | ⟨_, h⟩
    · exact absurd h hnf
    · exact .inl h

/-! ### The tasks -/

include ho in
/-- A task of a build, and the file it is for. -/
theorem task_file {tasks : List Nat} (hsel : Selected tree tasks) {t : Nat} (ht : t ∈ tasks) :
    ∃ a i, Scanned (L.job (w.view kind)) ⟨w.fs, names⟩ a i ∧ tree.graph.PathOf t a.normal ∧
      (Build.makeTask tree.graph t).src = a.normal ∧ (Build.makeTask tree.graph t).targets = i.targets.map TTarget.name ∧
      (Build.makeTask tree.graph t).deps = (Db.getUseDepsRecursive tree.graph t).2 ∧
      orderOf files tree t = ⟨a.normal, i.default, i.compiler, i.targets.map TTarget.name, depsOf tree t⟩ := by
  have hL := loadable ho.proper ho.loads
  obtain ⟨files1, files3, hc, hm1, h3, hg, s3⟩ := Build.load_ok hL.sorted ho.loads.2
  have hb : tree.graph.Builds t := by
    rcases hsel with rfl | ⟨src, hok, rfl⟩
    · exact (((Db.C21_all_tasks files3 s3 hg).2 ho.acyclic).1 t).mp ht
    · obtain ⟨root, hroot⟩ : ∃ root, tree.graph.PathOf root src := by
        cases hn : Db.getNode tree.graph src with
        | none => simp [Db.taskListFor, hn] at hok
        | some node => exact ⟨node, ((Db.C07_getNode files3 s3 hg _).1 node).mp hn⟩
      exact ((((Db.C21_single_target files3 s3 hg hroot).2 hok).1 t).mp ht).2
  obtain ⟨p, info, hp, hne⟩ := hb
  rcases Build.record_origin hL ho.loads.2 hp with ⟨i0, hi0, htg, _⟩ | ⟨h, _⟩
  · obtain ⟨a, i, hs, e⟩ := (mem_srcList ho.proper ho.loads _).mp hi0
    injection e with e1 e2
    subst e1 e2
    have hlook : Db.Map.lookup a.normal files = some i :=
      Db.Map.lookup_of_mem (files_sorted ho.proper ho.loads) ((mem_files ho.proper ho.loads _ _).mpr ⟨a, hs, rfl⟩)
    have hn : info.targets.map (fun t => t.name) = i.targets.map TTarget.name := by
      rw [htg]; simp [FileInfo.toSrcInfo, Function.comp_def]
    refine ⟨a, i, hs, ⟨_, hp⟩, by simp [Build.makeTask, hp], by simp only [Build.makeTask, hp]; exact hn, by simp [Build.makeTask, hp], ?_⟩
    simp only [orderOf, hp, hlook, Option.getD_some, hn, depsOf]
  · exact absurd h hne

include ho in
theorem task_of_file {tasks : List Nat} (hsel : Selected tree tasks) {t : Nat} (ht : t ∈ tasks) {u : Nat} (hr : Graph.Reach tree.graph.toGraph t u)
    (hb : tree.graph.Builds u) : u ∈ tasks := by
  have hL := loadable ho.proper ho.loads
  obtain ⟨files1, files3, hc, hm1, h3, hg, s3⟩ := Build.load_ok hL.sorted ho.loads.2
  rcases hsel with rfl | ⟨src, hok, rfl⟩
  · exact (((Db.C21_all_tasks files3 s3 hg).2 ho.acyclic).1 u).mpr hb
  · obtain ⟨root, hroot⟩ : ∃ root, tree.graph.PathOf root src := by
      cases hn : Db.getNode tree.graph src with
      | none => simp [Db.taskListFor, hn] at hok
      | some node => exact ⟨node, ((Db.C07_getNode files3 s3 hg _).1 node).mp hn⟩
    obtain ⟨h1, _⟩ := (Db.C21_single_target files3 s3 hg hroot).2 hok
    exact (h1 u).mpr ⟨((h1 t).mp ht).1.trans hr, hb⟩

include ho in
theorem tasks_sane {tasks : List Nat} (hsel : Selected tree tasks) (workers : Nat) (force : Bool) :
    (Build.ofGraph tree.graph tasks workers force kind true).Sane := by
  have hL := loadable ho.proper ho.loads
  obtain ⟨files1, files3, hc, hm1, h3, hg, s3⟩ := Build.load_ok hL.sorted ho.loads.2
  obtain ⟨hcyc, hrest⟩ := Db.C21_all_tasks files3 s3 hg
  have hac : ∀ u ∈ tasks, ¬ ∃ c, Graph.Reach tree.graph.toGraph u c ∧ Graph.OnCycle tree.graph.toGraph c := by
    rintro u hu ⟨c, _, hcc⟩
    obtain ⟨v, hv, hadj⟩ := hcc
    exact hcyc.mp ho.acyclic ⟨c, (Db.refsMatch_of_ok s3 hg).wellFormed _ _ hadj, v, hv, hadj⟩
  rcases hsel with rfl | ⟨src, hok, rfl⟩
  · exact Build.sane_of_load hL ho.loads.2 (no_empty ho.proper ho.loads) (fun u hu => ((hrest ho.acyclic).1 u).mp hu) hac ((hrest ho.acyclic).2 workers) force true
  · obtain ⟨root, hroot⟩ : ∃ root, tree.graph.PathOf root src := by
      cases hn : Db.getNode tree.graph src with
      | none => simp [Db.taskListFor, hn] at hok
      | some node => exact ⟨node, ((Db.C07_getNode files3 s3 hg _).1 node).mp hn⟩
    obtain ⟨h1, h2⟩ := (Db.C21_single_target files3 s3 hg hroot).2 hok
    exact Build.sane_of_load hL ho.loads.2 (no_empty ho.proper ho.loads) (fun u hu => ((h1 u).mp hu).2) hac (h2 workers) force true

end

/-- What is to be done, given the contents of source files. -/
def ContentPlan (L : Loading V) (kind area outside : Path → Bool) (c : Path → Option V) (b : Build.Build Path) (desc : Nat → Order) : Prop :=
  ∃ w names files tree tasks workers force, Opens L kind area outside w names files tree ∧ (∀ q, area q = false → w.view kind q = c q) ∧
    Selected tree tasks ∧ b = Build.ofGraph tree.graph tasks workers force kind true ∧ desc = orderOf files tree

def project (L : Loading V) (kind area outside : Path → Bool) (r : Tools V kind) : Build.Project r.recipes kind area where
  plan := ContentPlan L kind area outside
  sane := by
    rintro c b desc ⟨w, names, files, tree, tasks, workers, force, ho, _, hsel, rfl, _⟩
    exact tasks_sane ho hsel workers force
  fine := by
    rintro c b desc ⟨w, names, files, tree, tasks, workers, force, ho, _, hsel, rfl, _⟩
    rfl
  kinds := by
    rintro c b desc ⟨w, names, files, tree, tasks, workers, force, ho, _, hsel, rfl, _⟩
    rfl
  inArea := by
    rintro c b desc ⟨w, names, files, tree, tasks, workers, force, ho, _, hsel, rfl, _⟩ t ht p hp hk
    obtain ⟨a, i, hs, _, _, htg, _⟩ := task_file ho hsel ht
    rw [show (Build.ofGraph tree.graph tasks workers force kind true).task t = Build.makeTask tree.graph t from rfl, htg] at hp
    obtain ⟨t', ht', rfl⟩ := List.mem_map.mp hp
    exact ho.classified.targets a i hs t' ht' (ho.proper.separate a i hs t' ht' hk)
  inputs := by
    rintro c b desc ⟨w, names, files, tree, tasks, workers, force, ho, _, hsel, rfl, rfl⟩ t ht q hq
    obtain ⟨a, i, hs, hu, hsrc, _, hdeps, hord⟩ := task_file ho hsel ht
    obtain ⟨hk, hq⟩ := hq
    rw [hord] at hq
    refine ⟨hk, ?_⟩
    rw [show (Build.ofGraph tree.graph tasks workers force kind true).task t = Build.makeTask tree.graph t from rfl, hsrc, hdeps]
    rcases hq with h | ⟨x, hx, h1, h2⟩
    · exact .inl h
    · obtain ⟨e, he, rfl⟩ := List.mem_map.mp hx
      exact .inr ⟨e, he, h1, h2⟩
  closed := by
    rintro c b desc ⟨w, names, files, tree, tasks, workers, force, ho, _, hsel, rfl, rfl⟩ t ht q hq har
    obtain ⟨a, i, hs, hu, hsrc, _, hdeps, hord⟩ := task_file ho hsel ht
    obtain ⟨hk, hq⟩ := hq
    rw [hord] at hq
    have hL := loadable ho.proper ho.loads
    have hA := apart_files ho.proper ho.loads ho.made
    have hgs := graph_sorted ho.proper ho.loads
    rcases hq with h | ⟨x, hx, rfl, h2⟩
    · simp only at h
      rw [h, (ho.classified.found a i hs).1] at har; cases har
    · obtain ⟨hch, hext⟩ := depsOf_chain ho hu hx
      obtain ⟨v, hv, hpv⟩ := (Build.chain_exact hL ho.loads.2 hA hu).2 _ hch
      rcases record_in ho hpv (ho.classified.apart _ har) with h | ⟨_, p, k, t', hp, ht', hn⟩
      · rw [(found_in ho h).1] at har; cases har
      · have hnf : ¬ Db.HasFile (srcList files) t'.name := by
          intro h
          rw [hn, (found_in ho h).1] at har; cases har
        have hcp : Build.Chain (srcList files) a.normal p  := by
          rw [hn] at hch
          exact .tail hch (.source hp ht' hnf)
        obtain ⟨v', hv', hpv'⟩ := (Build.chain_exact hL ho.loads.2 hA hu).2 _ hcp
        obtain ⟨u', info, hu', htg, _⟩ := Build.file_kept hL ho.loads.2 hp
        obtain rfl := Build.path_unique hgs hpv' ⟨_, hu'⟩
        have hb : tree.graph.Builds v' := ⟨_, _, hu', by rw [htg]; exact List.ne_nil_of_mem ht'⟩
        refine ⟨v', task_of_file ho hsel ht ?_ hb, ?_⟩
        · obtain ⟨_, h1, h2⟩ := hv'
          exact h1.tail h2
        · rw [show (Build.ofGraph tree.graph tasks workers force kind true).task v' = Build.makeTask tree.graph v' from rfl]
          simp only [Build.makeTask, hu', htg]
          exact List.mem_map.mpr ⟨t', ht', hn.symm⟩
  only := by
    rintro c b desc c' b' desc' ⟨w, names, files, tree, tasks, workers, force, ho, hv, hsel, rfl, rfl⟩
      ⟨w', names', files', tree', tasks', workers', force', ho', hv', hsel', rfl, rfl⟩ t ht t' ht' p hp hp' hk hread
    obtain ⟨a, i, hs, hu, hsrc, htg, hdeps, hord⟩ := task_file ho hsel ht
    obtain ⟨a', i', hs', hu', hsrc', htg', hdeps', hord'⟩ := task_file ho' hsel' ht'
    rw [show (Build.ofGraph tree.graph tasks workers force kind true).task t = Build.makeTask tree.graph t from rfl, htg] at hp
    rw [show (Build.ofGraph tree'.graph tasks' workers' force' kind true).task t' = Build.makeTask tree'.graph t' from rfl, htg'] at hp'
    obtain ⟨τ, hτ, rfl⟩ := List.mem_map.mp hp
    obtain ⟨τ', hτ', hn⟩ := List.mem_map.mp hp'
    have hka : kind a.normal = false := by
      cases h : kind a.normal with
      | false => rfl
      | true => have := ho.proper.dirs a i hs h τ hτ; rw [hk] at this; cases this
    obtain ⟨har, hout⟩ := ho.classified.found a i hs
    have hread' : ∀ q, kind q = false → (q = a.normal ∨ ∃ x ∈ depsOf tree t, x.name = q ∧ Db.isExternal x.origin = false) → area q = false →
        w.view kind q = w'.view kind q := by
      intro q hkq hq haq
      rw [hv q haq, hv' q haq]
      exact hread q ⟨hkq, by rw [hord]; exact hq⟩ haq
    have hva := hread' a.normal hka (.inl rfl) har
    have hex := reached_exists ho.proper hs.1
    have hex' : (w'.fs a.normal).isSome := by
      rw [← view_isSome hka, ← hva, view_isSome hka]; exact hex
    have hsa := scanned_same ho ho' hs ⟨hex, hex', fun _ => hva⟩
    have hfile' := (mem_srcList ho'.proper ho'.loads _).mpr ⟨a, i, hsa, rfl⟩
    have hfile'' := (mem_srcList ho'.proper ho'.loads _).mpr ⟨a', i', hs', rfl⟩
    have hnf : ¬ Db.HasFile (srcList files') τ.name := by
      intro h
      have h1 := (found_in ho' h).1
      have h2 := ho.classified.targets a i hs τ hτ (ho.proper.separate a i hs τ hτ hk)
      rw [h1] at h2; cases h2
    have hown := Build.owner_unique (loadable ho'.proper ho'.loads) ho'.loads.2 hfile' (t := ⟨τ.name, τ.useDeps.map toDep⟩) (List.mem_map.mpr ⟨τ, hτ, rfl⟩) hfile''
      (t' := ⟨τ'.name, τ'.useDeps.map toDep⟩) (List.mem_map.mpr ⟨τ', hτ', rfl⟩) hn.symm hnf
    have hi := scanned_unique ho'.proper ho'.loads hsa hs' hown.1
    subst hi
    rw [← hown.1] at hu'
    have hag := agree ho ho' hu hu' hka ⟨_, (mem_srcList ho.proper ho.loads _).mpr ⟨a, i, hs, rfl⟩⟩ hread'
    have hd := Build.deps_same (loadable ho.proper ho.loads) (loadable ho'.proper ho'.loads) ho.loads.2 ho'.loads.2 (apart_files ho.proper ho.loads ho.made)
      (apart_files ho'.proper ho'.loads ho'.made) ho.acyclic ho'.acyclic hag hu hu'
    have hd' : depsOf tree t = depsOf tree' t' := by
      have := congrArg (List.map fun x : Db.Dep Path => (⟨x.name, x.origin, x.props⟩ : TDep)) hd
      simpa [List.map_map, Function.comp_def, Build.bare, depsOf] using this
    rw [hord, hord', hown.1, hd']

theorem life_past {r : Tools V kind} {w : World Path V} (h : Life L kind area outside r w) : Build.Past (project L kind area outside r) w := by
  induction h with
  | start h1 h2 h3 => exact .start h1 h2 h3
  | edit _ ha hk ih => exact .edit ih ha hk
  | remove _ ih => exact .remove ih
  | mkdir _ hk ih => exact .mkdir ih hk
  | wait _ ih => exact .wait ih
  | @build w w' w₀ names files tree tasks workers force s _ ho hv hsel hrun ih =>
    exact .build ih ⟨w₀, names, files, tree, tasks, workers, force, ho, hv, hsel, rfl, rfl⟩ hrun

/-- Everything that is read, and is not a target, is there when the build begins. -/
theorem input_exists {w w₀ : World Path V} {names : Path → List Str × Option Str} {files : List (Path × FileInfo)} {tree : Db.SourceTree Path}
    {tasks : List Nat} (ho : Opens L kind area outside w₀ names files tree)
    (hv : ∀ q, area q = false → w₀.view kind q = w.view kind q) (hsel : Selected tree tasks) {t : Nat} (ht : t ∈ tasks) {q : Path}
    (hq : (orderOf files tree t).Input kind q) (har : area q = false) : Build.Exists w.fs q := by
  obtain ⟨a, i, hs, hu, _, _, _, hord⟩ := task_file ho hsel ht
  obtain ⟨hk, hq⟩ := hq
  rw [hord] at hq
  have hex : (w₀.fs q).isSome := by
    rcases hq with h | ⟨x, hx, rfl, h2⟩
    · simp only at h
      rw [h]; exact reached_exists ho.proper hs.1
    · obtain ⟨hch, hext⟩ := depsOf_chain ho hu hx
      obtain ⟨v, _, hpv⟩ := (Build.chain_exact (loadable ho.proper ho.loads) ho.loads.2 (apart_files ho.proper ho.loads ho.made) hu).2 _ hch
      rcases record_in ho hpv (by rw [← hext]; exact h2) with h | ⟨h, _⟩
      · exact (found_in ho h).2.2
      · rw [har] at h; cases h
  have hex' : (w.fs q).isSome := by rw [← view_isSome hk, ← hv q har, view_isSome hk]; exact hex
  exact Option.isSome_iff_exists.mp hex'

/-- Everything that is read is there when the build has ended. -/
theorem sources_exist {r : Tools V kind} {w w' w₀ : World Path V} {names : Path → List Str × Option Str} {files : List (Path × FileInfo)} {tree : Db.SourceTree Path}
    {tasks : List Nat} {workers : Nat} {force : Bool} {s : Build.State Path} (hlife : Life L kind area outside r w) (ho : Opens L kind area outside w₀ names files tree)
    (hv : ∀ q, area q = false → w₀.view kind q = w.view kind q) (hsel : Selected tree tasks)
    (hrun : Performs r.recipes (Build.ofGraph tree.graph tasks workers force kind true) (orderOf files tree) w s w') {t : Nat} (ht : t ∈ tasks) {q : Path}
    (hq : (orderOf files tree t).Input kind q) (har : area q = false) : Build.Exists w'.fs q := by
  have hplan : (project L kind area outside r).plan (w.view kind) (Build.ofGraph tree.graph tasks workers force kind true) (orderOf files tree) :=
    ⟨w₀, names, files, tree, tasks, workers, force, ho, hv, hsel, rfl, rfl⟩
  obtain ⟨_, _, hkeep⟩ := Build.performs_kept (Build.past_kept (life_past hlife)) hplan hrun
  unfold Build.Exists
  rw [(hkeep q hq.1 har).1]
  exact input_exists ho hv hsel ht hq har

/-- What is passed to the recipe of a file. -/
theorem order_facts {w₀ : World Path V} {names : Path → List Str × Option Str} {files : List (Path × FileInfo)} {tree : Db.SourceTree Path} {tasks : List Nat}
    (ho : Opens L kind area outside w₀ names files tree) (hsel : Selected tree tasks) {p : Path} {i : FileInfo}
    (hs : Scanned (L.job (w₀.view kind)) ⟨w₀.fs, names⟩ p i) {u : Nat} (hup : tree.graph.PathOf u p.normal) (hu : u ∈ tasks) :
    (orderOf files tree u).src = p.normal ∧ (orderOf files tree u).default = i.default ∧ (orderOf files tree u).own = i.compiler ∧
      (orderOf files tree u).targets = i.targets.map TTarget.name ∧ (Build.makeTask tree.graph u).targets = i.targets.map TTarget.name ∧
      (∀ b, b ∈ (orderOf files tree u).deps.map TDep.name ↔ Requires (L.job (w₀.view kind)) ⟨w₀.fs, names⟩ p.normal b) ∧
      (∀ info format, requestOf files tree info format u = some ((orderOf files tree u).request info format u)) := by
  obtain ⟨a, k, hs', hu', hsrc, htg, _, hord⟩ := task_file ho hsel hu
  have hpa : a.normal = p.normal := by
    obtain ⟨_, h1⟩ := hu'
    obtain ⟨_, h2⟩ := hup
    rw [h1] at h2
    injection h2 with h2
    injection h2
  have hik := scanned_unique ho.proper ho.loads hs' hs hpa
  subst hik
  obtain ⟨_, h2, _, _, _⟩ := Build.deps_exact (loadable ho.proper ho.loads) ho.loads.2 (apart_files ho.proper ho.loads ho.made)
    (no_empty ho.proper ho.loads) ho.acyclic hup
  refine ⟨by rw [hord]; exact hpa, by rw [hord], by rw [hord], by rw [hord], htg, ?_, ?_⟩
  · intro b
    rw [hord, requires_iff ho.proper ho.loads, ← h2 b]
    simp [depsOf, List.map_map, Function.comp_def]
  · intro info format
    cases hq : requestOf files tree info format u with
    | some q => rw [orderOf_request hq]
    | none =>
      obtain ⟨info', h1⟩ := hup
      have hlook : Db.Map.lookup p.normal files = some k :=
        Db.Map.lookup_of_mem (files_sorted ho.proper ho.loads) ((mem_files ho.proper ho.loads _ _).mpr ⟨p, hs, rfl⟩)
      simp [requestOf, h1, hlook] at hq

/-! ## C85 -/

section
variable {r : Tools V kind} {w w' w₀ : World Path V} {names : Path → List Str × Option Str} {files : List (Path × FileInfo)} {tree : Db.SourceTree Path}
  {tasks : List Nat} {workers : Nat} {force : Bool} {s : Build.State Path}

/-- **C85.** Whatever has happened to a project, when a build succeeds, each target of each file that it is responsible for exists, and its contents are what the recipe
of the file computes, from what it is told about the project as it is now, and from the files that are there now. This holds whether the recipe has been executed or not. -/
theorem C85_incremental (hlife : Life L kind area outside r w) (ho : Opens L kind area outside w₀ names files tree)
    (hv : ∀ q, area q = false → w₀.view kind q = w.view kind q) (hsel : Selected tree tasks)
    (hrun : Performs r.recipes (Build.ofGraph tree.graph tasks workers force kind true) (orderOf files tree) w s w') (hok : s.Succeeded)
    {p : Path} {i : FileInfo} (hs : Scanned (L.job (w₀.view kind)) ⟨w₀.fs, names⟩ p i) {u : Nat} (hup : tree.graph.PathOf u p.normal) (hu : u ∈ tasks)
    {t : TTarget} (ht : t ∈ i.targets) (hk : kind t.name = false) :
    (w'.fs t.name).isSome ∧ ∃ o : Order, o.src = p.normal ∧ o.default = i.default ∧ o.own = i.compiler ∧ o.targets = i.targets.map TTarget.name ∧
      (∀ b, b ∈ o.deps.map TDep.name ↔ Requires (L.job (w₀.view kind)) ⟨w₀.fs, names⟩ p.normal b) ∧
      (∀ info format, requestOf files tree info format u = some (o.request info format u)) ∧ w'.content t.name = r.make o w'.content t.name := by
  have hplan : (project L kind area outside r).plan (w.view kind) (Build.ofGraph tree.graph tasks workers force kind true) (orderOf files tree) :=
    ⟨w₀, names, files, tree, tasks, workers, force, ho, hv, hsel, rfl, rfl⟩
  have hcons := Build.C85_consistent (project L kind area outside r) (life_past hlife) hplan rfl hrun hok
    (fun t ht q hq har => sources_exist hlife ho hv hsel hrun ht hq har)
  obtain ⟨h1, h2, h3, h4, htg, h5, h6⟩ := order_facts ho hsel hs hup hu
  have hmem : t.name ∈ ((Build.ofGraph tree.graph tasks workers force kind true).task u).targets := by
    rw [show (Build.ofGraph tree.graph tasks workers force kind true).task u = Build.makeTask tree.graph u from rfl, htg]
    exact List.mem_map.mpr ⟨t, ht, rfl⟩
  refine ⟨?_, orderOf files tree u, h1, h2, h3, h4, h5, h6, hcons u hu t.name hmem hk⟩
  obtain ⟨as, hx, hfs, _⟩ := hrun
  have := (Build.C13_up_to_date _ (tasks_sane ho hsel workers force) rfl rfl
    (Build.plausible (Build.past_kept (life_past hlife)) rfl) (Build.execContents_exec hx) hok u hu).2 t.name hmem
  rw [hfs]
  exact Option.isSome_iff_exists.mpr this

/-- The task of a file in a build of everything. -/
theorem task_of_scanned (ho : Opens L kind area outside w₀ names files tree) {p : Path} {i : FileInfo}
    (hs : Scanned (L.job (w₀.view kind)) ⟨w₀.fs, names⟩ p i) {t : TTarget} (ht : t ∈ i.targets) :
    ∃ u ∈ (Db.taskListAll tree.graph).2, tree.graph.PathOf u p.normal := by
  have hL := loadable ho.proper ho.loads
  obtain ⟨files1, files3, hc, hm1, h3, hg, s3⟩ := Build.load_ok hL.sorted ho.loads.2
  obtain ⟨u, info, hu, htg, _⟩ := Build.file_kept hL ho.loads.2 ((mem_srcList ho.proper ho.loads _).mpr ⟨p, i, hs, rfl⟩)
  refine ⟨u, (((Db.C21_all_tasks files3 s3 hg).2 ho.acyclic).1 u).mpr ⟨_, _, hu, ?_⟩, _, hu⟩
  rw [htg]
  exact List.ne_nil_of_mem (List.mem_map.mpr ⟨t, ht, rfl⟩)

end

/-- **C85.** Two projects have got the same source files by whatever histories of edits and builds. When everything has been built successfully in both of them, then all targets have the
same contents. One of the histories may be that nothing has happened: then its build is a build from scratch. -/
theorem C85_as_from_scratch {r : Tools V kind}
    {w₁ v₁ w₁' : World Path V} {names₁ : Path → List Str × Option Str} {files₁ : List (Path × FileInfo)} {tree₁ : Db.SourceTree Path} {workers₁ : Nat} {force₁ : Bool}
    {s₁ : Build.State Path} (hlife₁ : Life L kind area outside r w₁) (ho₁ : Opens L kind area outside v₁ names₁ files₁ tree₁)
    (hv₁ : ∀ q, area q = false → v₁.view kind q = w₁.view kind q)
    (hrun₁ : Performs r.recipes (Build.ofGraph tree₁.graph (Db.taskListAll tree₁.graph).2 workers₁ force₁ kind true) (orderOf files₁ tree₁) w₁ s₁ w₁') (hok₁ : s₁.Succeeded)
    {w₂ v₂ w₂' : World Path V} {names₂ : Path → List Str × Option Str} {files₂ : List (Path × FileInfo)} {tree₂ : Db.SourceTree Path} {workers₂ : Nat} {force₂ : Bool}
    {s₂ : Build.State Path} (hlife₂ : Life L kind area outside r w₂) (ho₂ : Opens L kind area outside v₂ names₂ files₂ tree₂)
    (hv₂ : ∀ q, area q = false → v₂.view kind q = w₂.view kind q)
    (hrun₂ : Performs r.recipes (Build.ofGraph tree₂.graph (Db.taskListAll tree₂.graph).2 workers₂ force₂ kind true) (orderOf files₂ tree₂) w₂ s₂ w₂') (hok₂ : s₂.Succeeded)
    (hsources : ∀ q, area q = false → w₁.view kind q = w₂.view kind q)
    {p : Path} {i : FileInfo} (hs : Scanned (L.job (v₁.view kind)) ⟨v₁.fs, names₁⟩ p i) {t : TTarget} (ht : t ∈ i.targets) (hk : kind t.name = false) :
    (w₁'.fs t.name).isSome ∧ (w₂'.fs t.name).isSome ∧ w₁'.content t.name = w₂'.content t.name := by
  have hka : kind p.normal = false := by
    cases h : kind p.normal with
    | false => rfl
    | true => have := ho₁.proper.dirs p i hs h t ht; rw [hk] at this; cases this
  obtain ⟨har, _⟩ := ho₁.classified.found p i hs
  have hview : v₁.view kind p.normal = v₂.view kind p.normal := by rw [hv₁ _ har, hv₂ _ har, hsources _ har]
  have hex := reached_exists ho₁.proper hs.1
  have hex' : (v₂.fs p.normal).isSome := by rw [← view_isSome hka, ← hview, view_isSome hka]; exact hex
  have hs' := scanned_same ho₁ ho₂ hs ⟨hex, hex', fun _ => hview⟩
  obtain ⟨u₁, hu₁, hp₁⟩ := task_of_scanned ho₁ hs ht
  obtain ⟨u₂, hu₂, hp₂⟩ := task_of_scanned ho₂ hs' ht
  have hplan₁ : (project L kind area outside r).plan (w₁.view kind) (Build.ofGraph tree₁.graph (Db.taskListAll tree₁.graph).2 workers₁ force₁ kind true) (orderOf files₁ tree₁) :=
    ⟨v₁, names₁, files₁, tree₁, _, workers₁, force₁, ho₁, hv₁, .inl rfl, rfl, rfl⟩
  have hplan₂ : (project L kind area outside r).plan (w₂.view kind) (Build.ofGraph tree₂.graph (Db.taskListAll tree₂.graph).2 workers₂ force₂ kind true) (orderOf files₂ tree₂) :=
    ⟨v₂, names₂, files₂, tree₂, _, workers₂, force₂, ho₂, hv₂, .inl rfl, rfl, rfl⟩
  have hmem : ∀ {v : World Path V} {names : Path → List Str × Option Str} {files : List (Path × FileInfo)} {tree : Db.SourceTree Path} {workers : Nat} {force : Bool} {u : Nat}
      (_ : Opens L kind area outside v names files tree) (_ : u ∈ (Db.taskListAll tree.graph).2) (_ : tree.graph.PathOf u p.normal)
      (_ : Scanned (L.job (v.view kind)) ⟨v.fs, names⟩ p i),
      t.name ∈ ((Build.ofGraph tree.graph (Db.taskListAll tree.graph).2 workers force kind true).task u).targets := by
    intro v names files tree workers force u ho hu hup hs
    obtain ⟨a, k, hs', hu', _, htg, _, _⟩ := task_file ho (.inl rfl) hu
    have hpa : a.normal = p.normal := by
      obtain ⟨_, h1⟩ := hu'
      obtain ⟨_, h2⟩ := hup
      rw [h1] at h2
      injection h2 with h2
      injection h2
    have hik := scanned_unique ho.proper ho.loads hs' hs hpa
    subst hik
    rw [show (Build.ofGraph tree.graph (Db.taskListAll tree.graph).2 workers force kind true).task u = Build.makeTask tree.graph u from rfl, htg]
    exact List.mem_map.mpr ⟨t, ht, rfl⟩
  refine ⟨(C85_incremental hlife₁ ho₁ hv₁ (.inl rfl) hrun₁ hok₁ hs hp₁ hu₁ ht hk).1, (C85_incremental hlife₂ ho₂ hv₂ (.inl rfl) hrun₂ hok₂ hs' hp₂ hu₂ ht hk).1, ?_⟩
  exact Build.C85_same_as_clean (project L kind area outside r) (life_past hlife₁) hplan₁ rfl hrun₁ hok₁ (life_past hlife₂) hplan₂ rfl hrun₂ hok₂
    (fun t ht q hq har => sources_exist hlife₁ ho₁ hv₁ (.inl rfl) hrun₁ ht hq har) (fun t ht q hq har => sources_exist hlife₂ ho₂ hv₂ (.inl rfl) hrun₂ ht hq har)
    hsources hu₁ hu₂ (hmem ho₁ hu₁ hp₁ hs) (hmem ho₂ hu₂ hp₂ hs') hk

end Maike.Main
