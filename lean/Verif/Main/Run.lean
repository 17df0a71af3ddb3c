import Verif.Build.Origin
import Verif.Tree.ScanTheorems

/-!
# Whole runs

`main` without query options (core/bin/maike.cpp:282-406) scans the source directory, makes a source tree of what it finds, and builds it.
This file puts the models of these parts together: the scanner (`Tree/Scanner.lean`) with the loaders (`Tree/Model.lean`), the database
(`Db/Model.lean`) and the build (`Build/Model.lean`), all of them working on the same file system.
-/

namespace Maike.Main

open Fs Tree Paths
open Maike.Build (FileSys Stat)

/-! ## Model -/

/-- The settings of a run, as they follow from the command line and the configuration, core/bin/maike.cpp:312-362. The contents of source
files are in `loader`, and what recipes report about themselves in `getTags`; both do not change from one run to the next
unless `Job` does. -/
structure Job where
  sourceDir : Path
  targetDir : Path
  recursive : Bool
  nameFilter : Str → Bool
  dirFilter : Str → Bool
  dirCompiler : Kvs.Compiler
  loader : Str → Option (Path → Source)
  resolver : Kvs.Resolver
  getTags : Kvs.Compiler → Path → Option Kvs.Members
  /-- the message of an exception thrown by a loader -/
  message : Path → Str
  workers : Nat

/-- The file system: what exists, and what iteration over a directory yields. Paths are looked up in normal form. The name of a directory may
end with a separator or not; a recipe that makes the directory with one of the names is
followed by `touchDir` for the other one (see `Disk.Ok.slash`). -/
structure Disk where
  fs : FileSys Path
  names : Path → List Str × Option Str

/-- `SourceFileLoaderDelegator`, core/bin/maike.cpp:335-337, on this file system. -/
def Job.env (j : Job) (d : Disk) : Env where
  isDirectory p := Build.isDir d.fs p.normal
  dirCompiler := j.dirCompiler
  loader := j.loader
  resolver := j.resolver
  getTags := j.getTags

/-- The arguments of `DirectoryScanner`, core/source_tree_loader/main.hpp:24-27 and core/bin/maike.cpp:354-362. -/
def Job.world (j : Job) (d : Disk) : World FileInfo where
  root := j.sourceDir
  recursive := j.recursive
  nameFilter := j.nameFilter
  dirFilter := j.dirFilter
  isDir p := .ok (Build.isDir d.fs p.normal)
  names := d.names
  load p := match Tree.load (j.env d) p j.sourceDir j.targetDir with
    | some i => .ok i
    | none => .error (j.message p)

/-- The result of the scan, as it is passed to the functions of core/source_tree_loader/main.cpp:16-20. -/
def srcList (files : List (Path × FileInfo)) : Db.SrcList Path := files.map fun x => (x.1, x.2.toSrcInfo)

/-- `SourceTreeLoader::load`, core/source_tree_loader/main.cpp:7-22, has returned. Some schedule of the scan led to `files`. -/
def Loads (j : Job) (d : Disk) (files : List (Path × FileInfo)) (tree : Db.SourceTree Path) : Prop :=
  (∃ n s, Steps (j.world d) n (Scan.init (j.world d)) s ∧ takeResult s = some (.ok files)) ∧ Db.load (srcList files) = .ok tree

/-- The build of the whole tree, core/db/source_tree.cpp:33-42. -/
def theBuild (j : Job) (tree : Db.SourceTree Path) (force : Bool) (kind : Path → Bool) : Build.Build Path :=
  Build.ofGraph tree.graph (Db.taskListAll tree.graph).2 j.workers force kind true

/-- A run on the file system `d`, at time `now`, has arrived at state `s` of the build. -/
def Runs (j : Job) (force : Bool) (kind : Path → Bool) (d : Disk) (now : Nat) (files : List (Path × FileInfo)) (tree : Db.SourceTree Path)
    (s : Build.State Path) : Prop :=
  Loads j d files tree ∧ (Db.taskListAll tree.graph).1 = .ok ∧
  ∃ as, Build.exec (theBuild j tree force kind) as (Build.init (theBuild j tree force kind) d.fs now) = some s

/-! ## Specification -/

/-- Directories are listed as they are. -/
structure Disk.Ok (d : Disk) : Prop where
  nodup : ∀ p, (d.names p).1.Nodup
  isName : ∀ p, ∀ n ∈ (d.names p).1, IsName n
  listed : ∀ p n, n ∈ (d.names p).1 → (d.fs (p / ⟨false, [n], false⟩).normal).isSome
  complete : ∀ p n, IsNormal p → p ≠ Path.empty → (d.names p).2 = none → IsName n → (d.fs (p / ⟨false, [n], false⟩).normal).isSome → n ∈ (d.names p).1
  slash : ∀ r ns, ns ≠ [] → IsNormal ⟨r, ns, true⟩ → ((d.fs ⟨r, ns, true⟩).isSome ↔ Build.isDir d.fs ⟨r, ns, false⟩ = true)

/-- The file has been found by the scan. -/
def Scanned (j : Job) (d : Disk) (p : Path) (i : FileInfo) : Prop :=
  (j.world d).Reached p ∧ (j.world d).Passes p ∧ Tree.load (j.env d) p j.sourceDir j.targetDir = some i

/-- What the tags, the contents or the recipe of a file say about dependencies. -/
def Declares (i : FileInfo) (x : TDep) : Prop :=
  x ∈ i.useDeps ∨ x ∈ i.childTargetsUseDeps ∨ ∃ t ∈ i.targets, x ∈ t.useDeps

/-- The target is not one of the files that have been found. -/
def Made (j : Job) (d : Disk) (t : TTarget) : Prop := ∀ q k, Scanned j d q k → t.name ≠ q.normal

/-- The second file is needed for the first one: declared as a dependency of it, or the first one is made from the
second one, or this holds in several steps. -/
inductive Needs (j : Job) (d : Disk) : Path → Path → Prop
  | use {p i x} : Scanned j d p i → x ∈ i.useDeps → Needs j d p.normal x.name
  | source {p i t} : Scanned j d p i → t ∈ i.targets → Made j d t → Needs j d t.name p.normal
  | link {p i t x} : Scanned j d p i → t ∈ i.targets → Made j d t → x ∈ t.useDeps → Needs j d t.name x.name
  | trans {a b c} : Needs j d a b → Needs j d b c → Needs j d a c

/-- What is assumed about a run: the source directory exists; no file has a time stamp in the future; `kind` tells which paths are, or are going to be
made as, directories, so what is made from a directory is one; no target is a file of the project; and no name of a target or a dependency is
empty. -/
structure Proper (j : Job) (kind : Path → Bool) (d : Disk) (now : Nat) : Prop where
  disk : d.Ok
  notEmpty : j.sourceDir ≠ Path.empty
  root : (d.fs j.sourceDir.normal).isSome
  past : ∀ p st, kind p = false → d.fs p = some st → st.mtime < now
  kinds : ∀ p st, d.fs p = some st → st.dir = kind p
  dirs : ∀ p i, Scanned j d p i → kind p.normal = true → ∀ t ∈ i.targets, kind t.name = true
  separate : ∀ p i, Scanned j d p i → ∀ t ∈ i.targets, kind t.name = false → ∀ q k, Scanned j d q k → t.name ≠ q.normal
  named : ∀ p i, Scanned j d p i → (∀ t ∈ i.targets, t.name ≠ Path.empty) ∧ ∀ x, Declares i x → x.name ≠ Path.empty

/-- What is made inside of a directory that is scanned is left out by the filters. -/
def Hidden (j : Job) (kind : Path → Bool) (d : Disk) : Prop :=
  ∀ p n, (j.world d).Reached p → (j.world d).Enters p → IsName n →
    let q := p.normal / ⟨false, [n], false⟩
    d.fs q.normal = none → (kind q.normal = true ∨ ∃ p i, Scanned j d p i ∧ ∃ t ∈ i.targets, t.name = q.normal) →
    j.nameFilter n = true ∨ j.dirFilter (q.relativeTo j.sourceDir).str = true

/-! ## From the scan to the database -/

variable {j : Job} {kind : Path → Bool} {d : Disk} {now : Nat}

theorem world_ok (h : Proper j kind d now) : (j.world d).Ok := ⟨h.notEmpty, h.disk.nodup, h.disk.isName⟩

theorem world_load {p : Path} {i : FileInfo} : (j.world d).load p = .ok i ↔ Tree.load (j.env d) p j.sourceDir j.targetDir = some i := by
  simp only [Job.world]
  split <;> simp [*]

/-- Some schedule of the scan led to `files`. -/
def Finds (j : Job) (d : Disk) (files : List (Path × FileInfo)) : Prop :=
  ∃ n s, Steps (j.world d) n (Scan.init (j.world d)) s ∧ takeResult s = some (.ok files)

/-- What has been found is what is passed on. -/
theorem mem_of_finds (hw : (j.world d).Ok) {files : List (Path × FileInfo)} (hl : Finds j d files)
    (k : Path) (i : FileInfo) : (k, i) ∈ files ↔ ∃ p, Scanned j d p i ∧ k = p.normal := by
  obtain ⟨n, s, hs, hr⟩ := hl
  rw [C49_result hw hs hr]
  simp only [Scanned, world_load, and_assoc]

theorem mem_files_of_ok (hw : (j.world d).Ok) {files : List (Path × FileInfo)} {tree : Db.SourceTree Path} (hl : Loads j d files tree)
    (k : Path) (i : FileInfo) : (k, i) ∈ files ↔ ∃ p, Scanned j d p i ∧ k = p.normal := mem_of_finds hw hl.1 k i

theorem mem_files (hp : Proper j kind d now) {files : List (Path × FileInfo)} {tree : Db.SourceTree Path} (hl : Loads j d files tree)
    (k : Path) (i : FileInfo) : (k, i) ∈ files ↔ ∃ p, Scanned j d p i ∧ k = p.normal := mem_files_of_ok (world_ok hp) hl k i

theorem sorted_of_finds (hw : (j.world d).Ok) {files : List (Path × FileInfo)} (hl : Finds j d files) : Db.Map.Sorted files := by
  obtain ⟨n, s, hs, hr⟩ := hl
  have hi := (steps_inv hw hs).sorted
  have : files = s.shared.files := by
    unfold takeResult at hr
    split at hr
    · cases hr
    · split at hr
      · cases hr
      · injection hr with hr; injection hr with hr; exact hr.symm
  rw [this]; exact hi

theorem files_sorted_of_ok (hw : (j.world d).Ok) {files : List (Path × FileInfo)} {tree : Db.SourceTree Path} (hl : Loads j d files tree) :
    Db.Map.Sorted files := sorted_of_finds hw hl.1

theorem files_sorted (hp : Proper j kind d now) {files : List (Path × FileInfo)} {tree : Db.SourceTree Path} (hl : Loads j d files tree) :
    Db.Map.Sorted files := files_sorted_of_ok (world_ok hp) hl

theorem makeTargetName_normal (c : Ctxt) (p : Path) : (makeTargetName c p).normal = makeTargetName c p := normal_normal _

theorem traverse_mem {α β : Type} {f : α → Option β} {l : List α} {l' : List β} (h : traverse f l = some l') :
    ∀ b ∈ l', ∃ a ∈ l, f a = some b := by
  induction l generalizing l' with
  | nil => simp [traverse] at h; subst h; simp
  | cons a l ih =>
    simp only [traverse, Option.bind_eq_some_iff, Option.map_eq_some_iff] at h
    obtain ⟨b, hb, l'', hl, rfl⟩ := h
    intro x hx
    rcases List.mem_cons.mp hx with rfl | hx
    · exact ⟨a, by simp, hb⟩
    · obtain ⟨y, hy, e⟩ := ih hl x hx; exact ⟨y, by simp [hy], e⟩

/-- Where targets of tags come from. -/
theorem getTargets_names {c : Ctxt} {tags : Kvs.Members} {ts : List TTarget} (h : getTargets c tags = some ts) :
    ∀ t ∈ ts, ∃ name, t.name = makeTargetName c (parse name) := by
  have one : ∀ ms t, getTarget c ms = some t → ∃ name, t.name = makeTargetName c (parse name) := by
    intro ms t h
    simp only [getTarget, Option.bind_eq_some_iff, Option.map_eq_some_iff] at h
    obtain ⟨name, _, _, _, _, _, rfl⟩ := h
    exact ⟨_, rfl⟩
  simp only [getTargets, Option.bind_eq_some_iff, Option.map_eq_some_iff] at h
  obtain ⟨t, _, l, hl, more, hmore, rfl⟩ := h
  intro x hx
  rcases List.mem_append.mp hx with hx | hx
  · cases t with
    | none => simp at hl; subst hl; simp at hx
    | some ms =>
      simp only [Option.map_eq_some_iff] at hl
      obtain ⟨y, hy, rfl⟩ := hl
      simp only [List.mem_singleton] at hx
      subst hx
      exact one _ _ hy
  · simp only [getArray, Option.bind_eq_some_iff] at hmore
    obtain ⟨v, _, hv⟩ := hmore
    cases v with
    | none => simp at hv; subst hv; simp at hx
    | some vs =>
      obtain ⟨a, _, ha⟩ := traverse_mem hv x hx
      simp only [Option.bind_eq_some_iff] at ha
      obtain ⟨ms, _, hms⟩ := ha
      exact one _ _ hms

/-- All targets have names made by `makeTargetName`. -/
theorem load_targets {e : Env} {p src tgt : Path} {i : FileInfo} (h : Tree.load e p src tgt = some i) :
    ∀ t ∈ i.targets, ∃ name, t.name = makeTargetName ⟨p, src, tgt⟩ name ∧ ((e.isDirectory p = true ∧ name = filenamePath p) ∨
      e.isDirectory p = false ∧ ∃ s, name = parse s) := by
  unfold Tree.load at h
  dsimp only at h
  split at h
  · rename_i hd
    simp only [Option.some.injEq] at h
    subst h
    intro t ht
    simp only [List.mem_singleton] at ht
    subst ht
    exact ⟨_, rfl, .inl ⟨hd, rfl⟩⟩
  · rename_i hd
    split at h
    · simp only [Option.some.injEq] at h; subst h; simp
    · simp only [loadSourceFile, Option.bind_eq_some_iff, Option.map_eq_some_iff] at h
      obtain ⟨_, _, tags, _, ts, hts, _, _, _, _, own, _, own', _, fs, hfs, _, _, rfl⟩ := h
      intro t ht
      rcases List.mem_append.mp ht with ht | ht
      · obtain ⟨name, hn⟩ := getTargets_names hts t ht
        exact ⟨_, hn, .inr ⟨by simpa using hd, _, rfl⟩⟩
      · split at hfs
        · simp only [Option.bind_eq_some_iff, Option.map_eq_some_iff] at hfs
          obtain ⟨_, _, ts', hts', _, _, _, _, rfl⟩ := hfs
          obtain ⟨name, hn⟩ := getTargets_names hts' t ht
          exact ⟨_, hn, .inr ⟨by simpa using hd, _, rfl⟩⟩
        · simp only [Option.some.injEq] at hfs; subst hfs; simp at ht

/-- The files found by the scan are as the theorems about builds need them. -/
theorem loadable (hp : Proper j kind d now) {files : List (Path × FileInfo)} {tree : Db.SourceTree Path} (hl : Loads j d files tree) :
    Build.Loadable (srcList files) kind := by
  have hmem : ∀ x ∈ srcList files, ∃ p i, Scanned j d p i ∧ x = (p.normal, i.toSrcInfo) := by
    intro x hx
    obtain ⟨⟨k, i⟩, hy, rfl⟩ := List.mem_map.mp hx
    obtain ⟨p, h1, rfl⟩ := (mem_files hp hl _ _).mp hy
    exact ⟨p, i, h1, rfl⟩
  have htgt : ∀ (i : FileInfo), ∀ t ∈ i.toSrcInfo.targets, ∃ t' ∈ i.targets, t.name = t'.name := by
    intro i t ht
    obtain ⟨t', h1, rfl⟩ := List.mem_map.mp ht
    exact ⟨t', h1, rfl⟩
  refine ⟨(files_sorted hp hl).map_val _, ?_, ?_, ?_, ?_, ?_⟩
  · intro x hx
    obtain ⟨p, i, _, rfl⟩ := hmem x hx
    simp only [FileInfo.toSrcInfo, List.append_nil, List.mem_map]
    rintro _ ⟨y, _, rfl⟩
    rfl
  · intro x hx
    obtain ⟨p, i, _, rfl⟩ := hmem x hx
    rfl
  · intro x hx t ht
    obtain ⟨p, i, hs, rfl⟩ := hmem x hx
    obtain ⟨t', ht', e⟩ := htgt i t ht
    obtain ⟨name, hn, _⟩ := load_targets hs.2.2 t' ht'
    rw [e, hn]
    exact makeTargetName_normal _ _
  · intro x hx t ht hk hf
    obtain ⟨p, i, hs, rfl⟩ := hmem x hx
    obtain ⟨t', ht', e⟩ := htgt i t ht
    obtain ⟨info, hinfo⟩ := hf
    obtain ⟨q, k, hq, e'⟩ := hmem _ hinfo
    rw [e] at hk e'
    exact hp.separate p i hs t' ht' hk q k hq (by injection e')
  · intro x hx hk t ht
    obtain ⟨p, i, hs, rfl⟩ := hmem x hx
    obtain ⟨t', ht', e⟩ := htgt i t ht
    rw [e]
    exact hp.dirs p i hs hk t' ht'

/-! ## C70 -/

theorem reached_ne (hw : (j.world d).Ok) {p : Path} (h : (j.world d).Reached p) : p.normal ≠ Path.empty := by
  rw [ne_eq, normal_eq_empty]
  cases h with
  | root => exact hw.root
  | entry _ _ hn => exact relative_ne_empty _ _ ⟨rfl, by simp, by simpa using (hw.isName _ _ hn).2.2.symm⟩

theorem scanned_ne (hp : Proper j kind d now) {p : Path} {i : FileInfo} (h : Scanned j d p i) : p.normal ≠ Path.empty :=
  reached_ne (world_ok hp) h.1

theorem found_declares {i : FileInfo} {x : Db.Dep Path} (h : x ∈ i.toSrcInfo.foundDeps) : ∃ y, Declares i y ∧ y.name = x.name ∧ y.origin = x.origin := by
  simp only [Db.SrcInfo.foundDeps, FileInfo.toSrcInfo, List.mem_append, List.mem_map, List.mem_flatMap] at h
  rcases h with (⟨y, hy, rfl⟩ | ⟨_, ⟨t, ht, rfl⟩, hx⟩) | ⟨y, hy, rfl⟩
  · exact ⟨y, .inl hy, rfl, rfl⟩
  · obtain ⟨y, hy, rfl⟩ := List.mem_map.mp hx
    exact ⟨y, .inr (.inr ⟨t, ht, hy⟩), rfl, rfl⟩
  · exact ⟨y, .inr (.inl hy), rfl, rfl⟩

theorem mem_srcList (hp : Proper j kind d now) {files : List (Path × FileInfo)} {tree : Db.SourceTree Path} (hl : Loads j d files tree)
    (x : Path × Db.SrcInfo Path) : x ∈ srcList files ↔ ∃ p i, Scanned j d p i ∧ x = (p.normal, i.toSrcInfo) := by
  constructor
  · intro hx
    obtain ⟨⟨k, i⟩, hy, rfl⟩ := List.mem_map.mp hx
    obtain ⟨p, h1, rfl⟩ := (mem_files hp hl _ _).mp hy
    exact ⟨p, i, h1, rfl⟩
  · rintro ⟨p, i, h, rfl⟩
    exact List.mem_map.mpr ⟨_, (mem_files hp hl _ _).mpr ⟨p, h, rfl⟩, rfl⟩

/-- No record has an empty name. -/
theorem no_empty (hp : Proper j kind d now) {files : List (Path × FileInfo)} {tree : Db.SourceTree Path} (hl : Loads j d files tree) (u : Nat) :
    ¬ tree.graph.PathOf u Db.PathType.empty := by
  intro hu
  have hm := mem_srcList hp hl
  have key : ∀ q, tree.graph.PathOf u q → q ≠ Path.empty := by
    intro q hq
    rcases Build.record_named (loadable hp hl) hl.2 hq with ⟨i, hi⟩ | ⟨y, hy, t, ht, rfl⟩ | ⟨y, hy, x, hx, rfl⟩
    · obtain ⟨p, i', hs, e⟩ := (hm _).mp hi
      injection e with e _
      rw [e]; exact scanned_ne hp hs
    · obtain ⟨p, i', hs, rfl⟩ := (hm _).mp hy
      obtain ⟨t', ht', rfl⟩ := List.mem_map.mp ht
      exact (hp.named _ _ hs).1 t' ht'
    · obtain ⟨p, i', hs, rfl⟩ := (hm _).mp hy
      obtain ⟨y, h1, h2, _⟩ := found_declares hx
      rw [← h2]; exact (hp.named _ _ hs).2 y h1
  exact key _ hu rfl

theorem graph_sorted (hp : Proper j kind d now) {files : List (Path × FileInfo)} {tree : Db.SourceTree Path} (hl : Loads j d files tree) :
    Db.Map.Sorted tree.graph.files := by
  obtain ⟨_, files3, _, _, _, hg, s3⟩ := Build.load_ok (loadable hp hl).sorted hl.2
  exact Db.sorted_of_keys (Db.C06_resolved _ s3 hg).1 s3

/-- What is needed can be reached in the graph. -/
theorem needs_reach (hp : Proper j kind d now) {files : List (Path × FileInfo)} {tree : Db.SourceTree Path} (hl : Loads j d files tree)
    {a b : Path} (h : Needs j d a b) :
    ∃ u v, tree.graph.PathOf u a ∧ tree.graph.PathOf v b ∧ Graph.ReachPlus tree.graph.toGraph u v := by
  have hm := mem_srcList hp hl
  have hL := loadable hp hl
  have hmade : ∀ t, Made j d t → ¬ Db.HasFile (srcList files) t.name := by
    rintro t ht ⟨i, hi⟩
    obtain ⟨q, k, hq, e⟩ := (hm _).mp hi
    injection e with e _
    exact ht q k hq e
  induction h with
  | @use p i x hs hx =>
    obtain ⟨u, info, h1, _, _, h4⟩ := Build.file_kept hL hl.2 ((hm _).mpr ⟨p, i, hs, rfl⟩)
    obtain ⟨v, h5, h6⟩ := h4 ⟨x.name, x.origin, none, x.properties⟩ (List.mem_map.mpr ⟨x, hx, rfl⟩)
    exact ⟨u, v, ⟨info, h1⟩, h5, u, .refl u, h6⟩
  | @source p i t hs ht hmd =>
    obtain ⟨u, h1, ⟨v, h2, h3⟩, _⟩ := Build.target_kept hL hl.2 ((hm _).mpr ⟨p, i, hs, rfl⟩) (List.mem_map.mpr ⟨t, ht, rfl⟩) (hmade t hmd)
    exact ⟨u, v, h1, h2, u, .refl u, h3⟩
  | @link p i t x hs ht hmd hx =>
    obtain ⟨u, h1, _, h4⟩ := Build.target_kept hL hl.2 ((hm _).mpr ⟨p, i, hs, rfl⟩) (List.mem_map.mpr ⟨t, ht, rfl⟩) (hmade t hmd)
    obtain ⟨v, h5, h6⟩ := h4 ⟨x.name, x.origin, none, x.properties⟩ (List.mem_map.mpr ⟨x, hx, rfl⟩)
    exact ⟨u, v, h1, h5, u, .refl u, h6⟩
  | trans _ _ ih1 ih2 =>
    obtain ⟨u, v, h1, h2, h3⟩ := ih1
    obtain ⟨v', w, g1, g2, g3⟩ := ih2
    have := Build.path_unique (graph_sorted hp hl) h2 g1
    subst this
    obtain ⟨x, hx, hxw⟩ := g3
    exact ⟨u, w, h1, g2, x, h3.toReach.trans hx, hxw⟩

theorem plausible (hp : Proper j kind d now) (tree : Db.SourceTree Path) (force : Bool) : Build.Plausible (theBuild j tree force kind) d.fs now :=
  ⟨hp.past, hp.kinds⟩

/-- Directories are made where they are expected. -/
theorem kinds_kept {b : Build.Build Path} {as : List (Build.Act Path)} {s s' : Build.State Path} (h : Build.exec b as s = some s')
    (hk : ∀ p st, s.fs p = some st → st.dir = b.kind p) : ∀ p st, s'.fs p = some st → st.dir = b.kind p := by
  refine Build.exec_induction (Q := fun s => ∀ p st, s.fs p = some st → st.dir = b.kind p) ?_ hk h
  intro s a s' ih hs
  rcases Build.step_cases hs with ⟨_, _, _, _, _, rfl⟩ | ⟨_, _, _, _, _, rfl⟩ | ⟨_, _, p', _, _, _, _, rfl⟩ | ⟨p', _, hk', rfl⟩ | ⟨_, rfl⟩
  · exact ih
  · exact ih
  · intro p st h
    simp only [Build.update] at h
    split at h
    · rename_i e; injection h with h; subst e; rw [← h]
    · exact ih p st h
  · intro p st h
    simp only [Build.update] at h
    split at h
    · rename_i e; injection h with h; subst e; rw [← h]; exact hk'.symm
    · exact ih p st h
  · exact ih

/-- **C70.** After a run that has succeeded, each target of each file that the scan has found exists. If it is not a directory, then
it is strictly newer than the file that it is made from, and than everything that this file needs, directly or through
other files and targets, apart from directories and from what is declared as external somewhere. -/
theorem C70_end_to_end {force : Bool} {files : List (Path × FileInfo)} {tree : Db.SourceTree Path} {s : Build.State Path}
    (hp : Proper j kind d now) (hr : Runs j force kind d now files tree s) (hs : s.Succeeded) {p : Path} {i : FileInfo}
    (hsc : Scanned j d p i) {t : TTarget} (ht : t ∈ i.targets) :
    Build.Exists s.fs t.name ∧ (kind t.name = false → Build.StrictlyNewer s.fs t.name p.normal ∧
      ∀ q, Needs j d p.normal q → kind q = false →
        (∀ p' i', Scanned j d p' i' → ∀ x, Declares i' x → x.name = q → Db.isExternal x.origin = false) →
        Build.StrictlyNewer s.fs t.name q) := by
  obtain ⟨hl, hok, as, hx⟩ := hr
  have hL := loadable hp hl
  have hm := mem_srcList hp hl
  obtain ⟨u, info, h1, h2, _, _⟩ := Build.file_kept hL hl.2 ((hm _).mpr ⟨p, i, hsc, rfl⟩)
  have ht' : (⟨t.name, t.useDeps.map fun d => ⟨d.name, d.origin, none, d.properties⟩⟩ : Db.TargetInfo Path) ∈ info.targets := by
    rw [h2]; exact List.mem_map.mpr ⟨t, ht, rfl⟩
  obtain ⟨hex, hnew⟩ := Build.C13_source_tree hL hl.2 (no_empty hp hl) hok (plausible hp tree force) hx hs u _ info h1 _ ht'
  have hkinds := kinds_kept hx hp.kinds
  have hdir : ∀ q, kind q = false → Build.isDir s.fs q = false := by
    intro q hq
    unfold Build.isDir
    cases hf : s.fs q with
    | none => rfl
    | some st => exact (hkinds q st hf).trans hq
  refine ⟨hex, fun hk => ?_⟩
  obtain ⟨hsrc, hrest⟩ := hnew (hdir _ hk)
  refine ⟨hsrc, fun q hq hkq hext => ?_⟩
  obtain ⟨u', v, g1, ⟨vinfo, g2⟩, g3⟩ := needs_reach hp hl hq
  have := Build.path_unique (graph_sorted hp hl) g1 ⟨info, h1⟩
  subst this
  refine hrest v q vinfo g3 g2 ?_ (hdir q hkq)
  intro w _ x hxw hxq
  rcases Build.edge_declared hL hl.2 hxw with ⟨y, hy, d₀, hd₀, e1, e2⟩ | ⟨e, _⟩
  · obtain ⟨p', i', hs', rfl⟩ := (hm _).mp hy
    obtain ⟨z, h1, h2, h3⟩ := found_declares hd₀
    have := hext p' i' hs' z h1 (h2.trans (e1.trans hxq))
    rw [h3, e2] at this
    exact this
  · rw [e]; rfl

/-! ## C71 -/

/-- What is there after a build: whatever was there before, directories, and targets. -/
theorem exec_exists {b : Build.Build Path} {as : List (Build.Act Path)} {s s' : Build.State Path} (h : Build.exec b as s = some s') :
    (∀ p, (s.fs p).isSome → (s'.fs p).isSome) ∧
    (∀ p, (s'.fs p).isSome → (s.fs p).isSome ∨ b.kind p = true ∨ ∃ t, p ∈ (b.task t).targets) := by
  refine Build.exec_induction (Q := fun s' => (∀ p, (s.fs p).isSome → (s'.fs p).isSome) ∧
    (∀ p, (s'.fs p).isSome → (s.fs p).isSome ∨ b.kind p = true ∨ ∃ t, p ∈ (b.task t).targets)) ?_ ⟨fun _ => id, fun _ => .inl⟩ h
  intro s a s' ih hs
  rcases Build.step_cases hs with ⟨_, _, _, _, _, rfl⟩ | ⟨_, _, _, _, _, rfl⟩ | ⟨_, t, p', _, _, _, hp', rfl⟩ | ⟨p', _, hk', rfl⟩ | ⟨_, rfl⟩
  · exact ih
  · exact ih
  · simp only [Build.update]
    constructor
    · intro p hp
      split
      · rfl
      · exact ih.1 p hp
    · intro p hp
      split at hp
      · rename_i e; subst e; exact .inr (.inr ⟨t, hp'⟩)
      · exact ih.2 p hp
  · simp only [Build.update]
    constructor
    · intro p hp
      split
      · rfl
      · exact ih.1 p hp
    · intro p hp
      split at hp
      · rename_i e; subst e; exact .inr (.inl hk')
      · exact ih.2 p hp
  · exact ih

/-- What is reached exists. -/
theorem reached_exists (hp : Proper j kind d now) {p : Path} (h : (j.world d).Reached p) : (d.fs p.normal).isSome := by
  cases h with
  | root => exact hp.root
  | entry _ _ hn => exact hp.disk.listed _ _ hn

/-- A scan that has ended normally has listed all directories that it entered completely. -/
theorem loads_complete (hw : (j.world d).Ok) {files : List (Path × FileInfo)} {tree : Db.SourceTree Path} (hl : Loads j d files tree) {p : Path}
    (hr : (j.world d).Reached p) (he : (j.world d).Enters p) : (d.names p.normal).2 = none := by
  obtain ⟨⟨n, s, hs, hres⟩, _⟩ := hl
  cases hn : (d.names p.normal).2 with
  | none => rfl
  | some m =>
    obtain ⟨text, ht⟩ := (C50_throws hw hs hres).mpr ⟨p, m, hr, .names he hn⟩
    cases ht

/-- Two file systems between which a scan sees no difference, as far as paths of the first one are concerned. -/
theorem same_scanned {d₂ : Disk} (hp : Proper j kind d now) (hd₂ : d₂.Ok)
    (hkeep : ∀ p, (d.fs p).isSome → (d₂.fs p).isSome) (hkinds : ∀ p st, d₂.fs p = some st → st.dir = kind p)
    (hnew : ∀ p, (d₂.fs p).isSome → (d.fs p).isSome ∨ kind p = true ∨ ∃ q i, Scanned j d q i ∧ ∃ t ∈ i.targets, t.name = p)
    (hh : Hidden j kind d) (hc : ∀ p, (j.world d).Reached p → (j.world d).Enters p → (d.names p.normal).2 = none)
    (hc₂ : ∀ p, (j.world d₂).Reached p → (j.world d₂).Enters p → (d₂.names p.normal).2 = none) :
    (∀ p i, Scanned j d₂ p i ↔ Scanned j d p i) ∧
    ∀ p, (j.world d₂).Reached p → (j.world d₂).Enters p → (j.world d).Reached p ∧ (j.world d).Enters p := by
  have hw : (j.world d).Ok := world_ok hp
  have hw₂ : (j.world d₂).Ok := ⟨hp.notEmpty, hd₂.nodup, hd₂.isName⟩
  have hdir : ∀ p : Path, (d.fs p).isSome → Build.isDir d₂.fs p = Build.isDir d.fs p := by
    intro p h
    obtain ⟨st, hst⟩ := Option.isSome_iff_exists.mp h
    obtain ⟨st', hst'⟩ := Option.isSome_iff_exists.mp (hkeep p h)
    simp only [Build.isDir, hst, hst', hp.kinds p st hst, hkinds p st' hst']
  have hload : ∀ p : Path, (d.fs p.normal).isSome →
      Tree.load (j.env d₂) p j.sourceDir j.targetDir = Tree.load (j.env d) p j.sourceDir j.targetDir := by
    intro p h
    simp only [Tree.load, Job.env, hdir _ h]
    rfl
  have hpass : ∀ p : Path, (d.fs p.normal).isSome → ((j.world d₂).Passes p ↔ (j.world d).Passes p) := by
    intro p h
    simp only [World.Passes, Job.world, hdir _ h]
  have henter : ∀ p : Path, (d.fs p.normal).isSome → ((j.world d₂).Enters p ↔ (j.world d).Enters p) := by
    intro p h
    have h' : (d.fs p.normal.normal).isSome := by rw [normal_normal]; exact h
    simp only [World.Enters, hpass p h, world_load, hload p h]
    simp only [Job.world, hdir _ h']
  have hforward : ∀ p, (j.world d).Reached p → (j.world d₂).Reached p := by
    intro p h
    induction h with
    | root => exact .root
    | @entry p n hr he hn ih =>
      have he₂ := (henter p (reached_exists hp hr)).mpr he
      refine .entry ih he₂ ?_
      exact hd₂.complete _ _ (normal_isNormal p) (reached_ne hw₂ ih) (hc₂ _ ih he₂) (hp.disk.isName _ _ hn) (hkeep _ (hp.disk.listed _ _ hn))
  have hback : ∀ p, (j.world d₂).Reached p → (j.world d₂).Passes p → (j.world d).Reached p := by
    intro p h
    induction h with
    | root => intro _; exact .root
    | @entry p n hr he hn ih =>
      intro hps
      have hr₁ := ih he.1
      have he₁ := (henter p (reached_exists hp hr₁)).mp he
      have hname := hd₂.isName _ _ hn
      have hex := hd₂.listed _ _ hn
      by_cases hd : (d.fs (p.normal / ⟨false, [n], false⟩).normal).isSome
      · exact .entry hr₁ he₁ (hp.disk.complete _ _ (normal_isNormal p) (reached_ne hw hr₁) (hc _ hr₁ he₁) hname hd)
      · rcases hps with e | ⟨_, hf1, hf2⟩
        · rw [e]; exact .root
        · exfalso
          have hfile : (p.normal / ⟨false, [n], false⟩ : Path).filename = n := by
            rw [entry_eq _ _ hname]
            simp [Path.filename]
          rw [hfile] at hf1
          have hnone : d.fs (p.normal / ⟨false, [n], false⟩).normal = none := by simpa using hd
          have hwhy : kind (p.normal / ⟨false, [n], false⟩).normal = true ∨
              ∃ q i, Scanned j d q i ∧ ∃ t ∈ i.targets, t.name = (p.normal / ⟨false, [n], false⟩).normal :=
            (hnew _ hex).resolve_left hd
          rcases hh p n hr₁ he₁ hname hnone hwhy with h | h
          · exact absurd (hf1.symm.trans h) (by simp)
          · exact absurd (hf2.symm.trans h) (by simp)
  have hscan : ∀ p i, Scanned j d₂ p i ↔ Scanned j d p i := by
    intro p i
    constructor
    · rintro ⟨h1, h2, h3⟩
      have hr := hback p h1 h2
      have hex := reached_exists hp hr
      exact ⟨hr, (hpass p hex).mp h2, (hload p hex).symm.trans h3⟩
    · rintro ⟨h1, h2, h3⟩
      have hex := reached_exists hp h1
      exact ⟨hforward p h1, (hpass p hex).mpr h2, (hload p hex).trans h3⟩
  exact ⟨hscan, fun p hr he => ⟨hback p hr he.1, (henter p (reached_exists hp (hback p hr he.1))).mp he⟩⟩

/-- What is passed on is the same as well. -/
theorem same_scan {d₂ : Disk} (hp : Proper j kind d now) (hd₂ : d₂.Ok)
    (hkeep : ∀ p, (d.fs p).isSome → (d₂.fs p).isSome) (hkinds : ∀ p st, d₂.fs p = some st → st.dir = kind p)
    (hnew : ∀ p, (d₂.fs p).isSome → (d.fs p).isSome ∨ kind p = true ∨ ∃ q i, Scanned j d q i ∧ ∃ t ∈ i.targets, t.name = p)
    (hh : Hidden j kind d) {files files₂ : List (Path × FileInfo)} {tree tree₂ : Db.SourceTree Path}
    (hl : Loads j d files tree) (hl₂ : Loads j d₂ files₂ tree₂) : (files₂ = files ∧ tree₂ = tree) ∧
    (∀ p i, Scanned j d₂ p i ↔ Scanned j d p i) ∧
    ∀ p, (j.world d₂).Reached p → (j.world d₂).Enters p → (j.world d).Reached p ∧ (j.world d).Enters p := by
  have hw : (j.world d).Ok := world_ok hp
  have hw₂ : (j.world d₂).Ok := ⟨hp.notEmpty, hd₂.nodup, hd₂.isName⟩
  obtain ⟨hscan, hent⟩ := same_scanned hp hd₂ hkeep hkinds hnew hh (fun _ => loads_complete hw hl) (fun _ => loads_complete hw₂ hl₂)
  have heq : files₂ = files := by
    apply sorted_ext (files_sorted_of_ok hw₂ hl₂) (files_sorted_of_ok hw hl)
    rintro ⟨k, i⟩
    rw [mem_files_of_ok hw₂ hl₂, mem_files_of_ok hw hl]
    simp only [hscan]
  refine ⟨⟨heq, ?_⟩, hscan, hent⟩
  have := hl₂.2
  rw [heq, hl.2] at this
  exact (Except.ok.inj this).symm

/-- What a run leaves behind. -/
theorem run_leaves {force : Bool} {files : List (Path × FileInfo)} {tree : Db.SourceTree Path} {s : Build.State Path}
    (hp : Proper j kind d now) (hr : Runs j force kind d now files tree s) :
    (∀ p, (d.fs p).isSome → (s.fs p).isSome) ∧ (∀ p st, s.fs p = some st → st.dir = kind p) ∧
    (∀ p, (s.fs p).isSome → (d.fs p).isSome ∨ kind p = true ∨ ∃ q i, Scanned j d q i ∧ ∃ t ∈ i.targets, t.name = p) := by
  obtain ⟨hl, hok, as, hx⟩ := hr
  have hex := exec_exists hx
  refine ⟨hex.1, kinds_kept hx hp.kinds, fun p h => ?_⟩
  rcases hex.2 p h with h | h | ⟨t, ht⟩
  · exact .inl h
  · exact .inr (.inl h)
  · right; right
    obtain ⟨q, i0, ti, _, _, hq, hti, rfl⟩ := Build.builds_origin (loadable hp hl) hl.2 ht
    obtain ⟨q', i, hs, e⟩ := (mem_srcList hp hl _).mp hq
    injection e with _ e
    subst e
    obtain ⟨t', ht', rfl⟩ := List.mem_map.mp hti
    exact ⟨q', i, hs, t', ht', rfl⟩

/-- The second scan finds what the first one found. -/
theorem rescan {force : Bool} {files : List (Path × FileInfo)} {tree : Db.SourceTree Path} {s : Build.State Path}
    (hp : Proper j kind d now) (hr : Runs j force kind d now files tree s) (hh : Hidden j kind d)
    {d₂ : Disk} (hd₂ : d₂.Ok) (hfs : d₂.fs = s.fs) {files₂ : List (Path × FileInfo)} {tree₂ : Db.SourceTree Path}
    (hl₂ : Loads j d₂ files₂ tree₂) : (files₂ = files ∧ tree₂ = tree) ∧ (∀ p i, Scanned j d₂ p i ↔ Scanned j d p i) ∧
    ∀ p, (j.world d₂).Reached p → (j.world d₂).Enters p → (j.world d).Reached p ∧ (j.world d).Enters p := by
  obtain ⟨h1, h2, h3⟩ := run_leaves hp hr
  exact same_scan hp hd₂ (by rw [hfs]; exact h1) (by rw [hfs]; exact h2) (by rw [hfs]; exact h3) hh hr.1 hl₂

/-- What is changed by a build. -/
theorem exec_changes {b : Build.Build Path} {as : List (Build.Act Path)} {s s' : Build.State Path} (h : Build.exec b as s = some s')
    (p : Path) (hk : b.kind p = false) : s'.fs p = s.fs p ∨ ∃ t, p ∈ (b.task t).targets ∧ s'.Executed t := by
  refine Build.exec_induction (Q := fun s' => s'.fs p = s.fs p ∨ ∃ t, p ∈ (b.task t).targets ∧ s'.Executed t) ?_ (.inl rfl) h
  intro s₁ a s' ih hs
  rcases Build.step_cases hs with ⟨_, _, _, _, _, rfl⟩ | ⟨_, t, _, _, hd, rfl⟩ | ⟨_, t, p', _, _, hd, hp', rfl⟩ | ⟨p', _, hk', rfl⟩ | ⟨_, rfl⟩
  · exact ih
  · rcases ih with ih | ⟨u, h1, h2⟩
    · exact .inl ih
    · refine .inr ⟨u, h1, ?_⟩
      have : u ≠ t := by rintro rfl; unfold Build.State.Executed at h2; rw [hd] at h2; cases h2
      unfold Build.State.Executed at h2 ⊢
      rw [← h2]
      exact Build.update_ne _ _ this
  · by_cases e : p = p'
    · subst e; exact .inr ⟨t, hp', hd⟩
    · rcases ih with ih | ⟨u, h1, h2⟩
      · left; rw [← ih]; exact Build.update_ne _ _ e
      · exact .inr ⟨u, h1, h2⟩
  · have e : p ≠ p' := by rintro rfl; rw [hk'] at hk; cases hk
    rcases ih with ih | ⟨u, h1, h2⟩
    · left; rw [← ih]; exact Build.update_ne _ _ e
    · exact .inr ⟨u, h1, h2⟩
  · exact ih

/-- **C71.** A run that follows a successful one, on the file system that the first one has left behind, finds the same files and makes the
same source tree of them. It executes commands only for files that are marked to be rebuilt always, or that depend on one that is. -/
theorem C71_second_run {force : Bool} {files : List (Path × FileInfo)} {tree : Db.SourceTree Path} {s : Build.State Path}
    (hp : Proper j kind d now) (hr : Runs j force kind d now files tree s) (hs : s.Succeeded) (hh : Hidden j kind d)
    {d₂ : Disk} (hd₂ : d₂.Ok) (hfs : d₂.fs = s.fs) {later : Nat} {files₂ : List (Path × FileInfo)} {tree₂ : Db.SourceTree Path}
    {s₂ : Build.State Path} (hr₂ : Runs j false kind d₂ later files₂ tree₂ s₂) :
    files₂ = files ∧ tree₂ = tree ∧ ∀ t, tree.graph.Builds t → s₂.Executed t → ∃ u q i,
      (u = t ∨ Graph.ReachPlus tree.graph.toGraph t u) ∧ tree.graph.PathOf u q.normal ∧ Scanned j d q i ∧ i.policy = .always := by
  obtain ⟨⟨rfl, rfl⟩, _, _⟩ := rescan hp hr hh hd₂ hfs hr₂.1
  refine ⟨rfl, rfl, fun t ht hex => ?_⟩
  obtain ⟨hl, hok, as, hx⟩ := hr
  obtain ⟨_, _, as₂, hx₂⟩ := hr₂
  rw [hfs] at hx₂
  have hL := loadable hp hl
  obtain ⟨u, q, info, h1, h2, hne, h3⟩ := Build.C14_source_tree hL hl.2 (no_empty hp hl) hok (plausible hp tree₂ force) hx hs hx₂ ht hex
  rcases Build.record_origin hL hl.2 h2 with ⟨i0, hi0, _, hpol⟩ | ⟨htg, _⟩
  · obtain ⟨q', i, hsc, e⟩ := (mem_srcList hp hl _).mp hi0
    injection e with e1 e2
    refine ⟨u, q', i, h1, ⟨info, by rw [← e1]; exact h2⟩, hsc, ?_⟩
    rw [h3, e2] at hpol
    exact hpol.symm
  · exact absurd htg hne

/-- **C71.** If no file is marked to be rebuilt always, then the second run executes no command and changes no file. -/
theorem C71_nothing {force : Bool} {files : List (Path × FileInfo)} {tree : Db.SourceTree Path} {s : Build.State Path}
    (hp : Proper j kind d now) (hr : Runs j force kind d now files tree s) (hs : s.Succeeded) (hh : Hidden j kind d)
    (halways : ∀ p i, Scanned j d p i → i.policy ≠ .always)
    {d₂ : Disk} (hd₂ : d₂.Ok) (hfs : d₂.fs = s.fs) {later : Nat} {files₂ : List (Path × FileInfo)} {tree₂ : Db.SourceTree Path}
    {s₂ : Build.State Path} (hr₂ : Runs j false kind d₂ later files₂ tree₂ s₂) :
    (∀ t, tree.graph.Builds t → ¬ s₂.Executed t) ∧ ∀ p, kind p = false → s₂.fs p = s.fs p := by
  obtain ⟨rfl, rfl, h⟩ := C71_second_run hp hr hs hh hd₂ hfs hr₂
  have hno : ∀ t, tree₂.graph.Builds t → ¬ s₂.Executed t := by
    intro t ht hex
    obtain ⟨u, q, i, _, _, hsc, hpol⟩ := h t ht hex
    exact halways q i hsc hpol
  refine ⟨hno, fun p hk => ?_⟩
  obtain ⟨_, _, as₂, hx₂⟩ := hr₂
  rcases exec_changes hx₂ p hk with h | ⟨t, ht, hex⟩
  · rw [h, ← hfs]; rfl
  · refine absurd hex (hno t ?_)
    change p ∈ (Build.makeTask tree₂.graph t).targets at ht
    unfold Build.makeTask at ht
    split at ht
    · cases ht
    · rename_i q info hu
      refine ⟨q, info, hu, ?_⟩
      intro e
      simp [e] at ht

/-- Files are not newer than the clock. -/
theorem past_kept {b : Build.Build Path} (hf : b.fine = true) {as : List (Build.Act Path)} {s s' : Build.State Path}
    (h : Build.exec b as s = some s') (hk : ∀ p st, b.kind p = false → s.fs p = some st → st.mtime < s.clock) :
    ∀ p st, b.kind p = false → s'.fs p = some st → st.mtime < s'.clock := by
  refine Build.exec_induction (Q := fun s => ∀ p st, b.kind p = false → s.fs p = some st → st.mtime < s.clock) ?_ hk h
  intro s a s' ih hs
  rcases Build.step_cases hs with ⟨_, _, _, _, _, rfl⟩ | ⟨_, _, _, _, _, rfl⟩ | ⟨_, _, p', _, _, _, _, rfl⟩ | ⟨p', _, hk', rfl⟩ | ⟨_, rfl⟩
  · exact ih
  · exact ih
  · intro p st hkp h
    simp only [Build.update] at h
    simp only [hf, if_true]
    split at h
    · injection h with h; subst h; exact Nat.lt_succ_self _
    · exact Nat.lt_succ_of_lt (ih p st hkp h)
  · intro p st hkp h
    simp only [Build.update] at h
    split at h
    · rename_i e; subst e; rw [hk'] at hkp; cases hkp
    · exact ih p st hkp h
  · intro p st hkp h
    exact Nat.lt_succ_of_lt (ih p st hkp h)

/-- **C71.** What is assumed about a run still holds after it, so that the theorems apply to any number of runs after each other. -/
theorem C71_again {force : Bool} {files : List (Path × FileInfo)} {tree : Db.SourceTree Path} {s : Build.State Path}
    (hp : Proper j kind d now) (hr : Runs j force kind d now files tree s) (hh : Hidden j kind d)
    {d₂ : Disk} (hd₂ : d₂.Ok) (hfs : d₂.fs = s.fs) {files₂ : List (Path × FileInfo)} {tree₂ : Db.SourceTree Path}
    (hl₂ : Loads j d₂ files₂ tree₂) {later : Nat} (hlater : s.clock ≤ later) : Proper j kind d₂ later ∧ Hidden j kind d₂ := by
  obtain ⟨_, hscan, hback⟩ := rescan hp hr hh hd₂ hfs hl₂
  obtain ⟨hl, hok, as, hx⟩ := hr
  have hex := exec_exists hx
  constructor
  · refine ⟨hd₂, hp.notEmpty, ?_, ?_, ?_, ?_, ?_, ?_⟩
    · rw [hfs]; exact hex.1 _ hp.root
    · rw [hfs]
      intro p st hk h
      exact Nat.lt_of_lt_of_le (past_kept rfl hx hp.past p st hk h) hlater
    · rw [hfs]; exact kinds_kept hx hp.kinds
    · simp only [hscan]; exact hp.dirs
    · simp only [hscan]; exact hp.separate
    · simp only [hscan]; exact hp.named
  · intro p n hr he hn q hnone hwhy
    obtain ⟨hr₁, he₁⟩ := hback p hr he
    refine hh p n hr₁ he₁ hn ?_ ?_
    · have : ¬ (d.fs q.normal).isSome := fun h => by
        have := hex.1 _ h
        rw [← hfs, hnone] at this
        cases this
      simpa using this
    · simpa only [hscan] using hwhy

/-! ## When nothing that is made gets in the way of the next scan -/

/-- Where a path is located that passes the filters, and so do all directories above it. -/
theorem located_passes (hw : (j.world d).Ok) {p : Path} (h : (j.world d).Reached p) (hps : (j.world d).Passes p) :
    ∃ sub, Located (j.world d) p sub ∧ ∀ n ∈ sub, j.nameFilter n = false := by
  induction h with
  | root =>
    refine ⟨[], ⟨by simp, ?_, normal_root _, fun _ => rfl, by simp⟩, by simp⟩
    unfold inside
    simp
  | @entry p n hr he hn ih =>
    obtain ⟨sub, h1, h2⟩ := ih he.1
    have hname := hw.isName _ _ hn
    refine ⟨_, located_entry hw h1 hname, fun m hm => ?_⟩
    rcases List.mem_append.mp hm with hm | hm
    · exact h2 m hm
    · simp only [List.mem_singleton] at hm
      subst hm
      rcases hps with e | ⟨_, hf, _⟩
      · exact absurd e (entry_ne_root hw hr hname)
      · have : (p.normal / ⟨false, [m], false⟩ : Path).filename = m := by rw [entry_eq _ _ hname]; simp [Path.filename]
        rw [this] at hf
        exact hf

/-- **C71.** The condition of the theorems above is met if the name filter leaves out a name, like `__targets`, and everything that is made has
this name among the names of the directories that lead to it. -/
theorem C71_hidden_filtered (hw : (j.world d).Ok) {T : Str} (hT : j.nameFilter T = true) (hsrc : T ∉ j.sourceDir.normal.names)
    (hnew : ∀ q, d.fs q = none → (kind q = true ∨ ∃ p i, Scanned j d p i ∧ ∃ t ∈ i.targets, t.name = q) → T ∈ q.names) :
    Hidden j kind d := by
  intro p n hr he hn q hnone hwhy
  left
  obtain ⟨sub, h1, h2⟩ := located_passes hw hr he.1
  have hT' := hnew _ hnone hwhy
  have hloc := located_entry hw h1 hn
  rw [hloc.normalNames] at hT'
  have : T ∈ j.sourceDir.normal.names ++ (sub ++ [n]) := by
    unfold inside at hT'
    simp only at hT'
    split at hT'
    · exact List.mem_append_right _ hT'
    · exact hT'
  simp only [List.mem_append, List.mem_singleton] at this
  rcases this with h | h | h
  · exact absurd h hsrc
  · rw [h2 T h] at hT; cases hT
  · rw [← h]; exact hT

/-- **C71.** It is met too if everything that is made is located outside of the source directory, and that is not the current directory. -/
theorem C71_hidden_outside (hw : (j.world d).Ok) (hsrc : j.sourceDir.normal.names ≠ [dot])
    (hnew : ∀ q, d.fs q = none → (kind q = true ∨ ∃ p i, Scanned j d p i ∧ ∃ t ∈ i.targets, t.name = q) →
      ¬ j.sourceDir.normal.names <+: q.names) : Hidden j kind d := by
  intro p n hr he hn q hnone hwhy
  exfalso
  obtain ⟨sub, h1, _⟩ := located_passes hw hr he.1
  apply hnew _ hnone hwhy
  rw [(located_entry hw h1 hn).normalNames]
  unfold inside
  simp only
  split
  · rename_i h; exact absurd h.1 hsrc
  · exact List.prefix_append _ _

end Maike.Main
