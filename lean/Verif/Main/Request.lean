import Verif.Build.Edges
import Verif.Main.RunExamples

/-!
# What recipes are told (C79)

The commands that a run executes, and how they follow from what the files of the project declare.
-/

namespace Maike.Main

open Fs Tree Paths
open Maike.Kvs (Json Members Request DepJson)

/-! ## Model -/

/-- A path as it is passed to recipes: `c_str()`. -/
def text (p : Path) : String := String.ofList p.str

/-- What the constructor of `Task` (core/db/task.cpp:5-13) passes to `makeBuildCommand` (core/db/source_file_record.cpp:33-74) for a node of the graph.
Compilers are not part of the records in `Db/Model.lean`, since the functions there pass them along unchanged; they are taken from the result
of the scan. Tasks are made for files with targets only, and these are among the files that have been found. -/
def requestOf (files : List (Path × FileInfo)) (tree : Db.SourceTree Path) (info : Json) (format : Text.LogFormat) (u : Nat) : Option Request :=
  match tree.graph.files[u]? with
  | none => none
  | some (p, s) =>
    match Db.Map.lookup p files with
    | none => none
    | some i => some {
        default := i.default
        own := i.compiler
        path := text p
        id := u
        info := info
        format := format
        targets := s.targets.map fun t => text t.name
        deps := (Db.getUseDepsRecursive tree.graph u).2.map fun x => ⟨text x.name, x.origin, x.props⟩ }

/-- The command of a task: what is executed, and the argument after `compile`. -/
def commandOf (files : List (Path × FileInfo)) (tree : Db.SourceTree Path) (info : Json) (format : Text.LogFormat) (u : Nat) :
    Option (String × Members) :=
  (requestOf files tree info format u).bind Kvs.makeBuildCommand

/-! ## Specification -/

/-- `b` is `a`, or is used by `a` directly or through other files, where each of them has been found by the scan. -/
inductive UsesFound (j : Job) (d : Disk) : Path → Path → Prop
  | refl (a : Path) : UsesFound j d a a
  | step {a p q : Path} {i k : FileInfo} {x : TDep} : UsesFound j d a p.normal → Scanned j d p i → x ∈ i.useDeps → Scanned j d q k → x.name = q.normal →
      UsesFound j d a x.name

/-- What the target `t` of the file `p` is linked with: what is declared for the target, and what files that are
included by `p` declare for everything that is made from a file that includes them, except the target itself. -/
inductive LinkedWith (j : Job) (d : Disk) (p : Path) (t : TTarget) : TDep → Prop
  | own {x : TDep} : x ∈ t.useDeps → LinkedWith j d p t x
  | child {q : Path} {k : FileInfo} {x : TDep} : UsesFound j d p.normal q.normal → Scanned j d q k → x ∈ k.childTargetsUseDeps → x.name ≠ t.name →
      LinkedWith j d p t x

/-- `a` depends on `x.name` directly, with the given origin and properties. -/
inductive DependsOn (j : Job) (d : Disk) : Path → TDep → Prop
  /-- what is declared for the file -/
  | use {p : Path} {i : FileInfo} {x : TDep} : Scanned j d p i → x ∈ i.useDeps → DependsOn j d p.normal x
  /-- a target depends on the file that it is made from -/
  | source {p : Path} {i : FileInfo} {t : TTarget} : Scanned j d p i → t ∈ i.targets → Made j d t → DependsOn j d t.name ⟨p.normal, .project, []⟩
  | link {p : Path} {i : FileInfo} {t : TTarget} {x : TDep} : Scanned j d p i → t ∈ i.targets → Made j d t → LinkedWith j d p t x →
      DependsOn j d t.name x
  /-- files whose loader says so depend on what their targets depend on -/
  | ofTarget {p : Path} {i : FileInfo} {t : TTarget} {x : TDep} : Scanned j d p i → i.useTargetDeps = true → t ∈ i.targets → LinkedWith j d p t x →
      DependsOn j d p.normal x

/-- `a` depends on `b`, directly or through other files. -/
inductive Requires (j : Job) (d : Disk) : Path → Path → Prop
  | single {a : Path} {x : TDep} : DependsOn j d a x → Requires j d a x.name
  | tail {a b : Path} {x : TDep} : Requires j d a b → DependsOn j d b x → Requires j d a x.name

/-- Targets of files that depend on what their targets depend on are not among the files that have been found. -/
def Apart (j : Job) (d : Disk) : Prop := ∀ p i, Scanned j d p i → i.useTargetDeps = true → ∀ t ∈ i.targets, Made j d t

/-- The JSON value for a dependency. -/
def depValue (x : TDep) : Json := (DepJson.mk (text x.name) x.origin x.properties).toJson

/-! ## Proof -/

variable {j : Job} {kind : Path → Bool} {d : Disk} {now : Nat}

/-- A dependency before it has been resolved. -/
def toDep (x : TDep) : Db.Dep Path := ⟨x.name, x.origin, none, x.properties⟩

theorem toDep_bare (x : TDep) : Build.bare (toDep x) = toDep x := rfl

/-- The files are those that have been found. -/
def Covers (j : Job) (d : Disk) (files : List (Path × FileInfo)) : Prop :=
  ∀ x, x ∈ srcList files ↔ ∃ p i, Scanned j d p i ∧ x = (p.normal, i.toSrcInfo)

section
variable {files : List (Path × FileInfo)} (hm : Covers j d files)
include hm

theorem covers_hasFile_iff {b : Path} : Db.HasFile (srcList files) b ↔ ∃ q k, Scanned j d q k ∧ b = q.normal := by
  constructor
  · rintro ⟨i, hi⟩
    obtain ⟨q, k, hq, e⟩ := (hm _).mp hi
    injection e with e _
    exact ⟨q, k, hq, e⟩
  · rintro ⟨q, k, hq, rfl⟩
    exact ⟨_, (hm _).mpr ⟨q, k, hq, rfl⟩⟩

theorem covers_made_iff {t : TTarget} : Made j d t ↔ ¬ Db.HasFile (srcList files) t.name := by
  rw [covers_hasFile_iff hm]
  constructor
  · rintro h ⟨q, k, hq, e⟩; exact h q k hq e
  · intro h q k hq e; exact h ⟨q, k, hq, e⟩

theorem covers_usesFound_iff {a b : Path} : UsesFound j d a b ↔ Build.Uses (srcList files) a b := by
  constructor
  · intro h
    induction h with
    | refl => exact .refl _
    | @step p q i k x _ hs hx hq he ih =>
      exact .step (d := toDep x) ih ((hm _).mpr ⟨p, i, hs, rfl⟩) (List.mem_map.mpr ⟨x, hx, rfl⟩)
        ((covers_hasFile_iff hm).mpr ⟨q, k, hq, he⟩)
  · intro h
    induction h with
    | refl => exact .refl _
    | step _ hi hd hf ih =>
      obtain ⟨p, i', hs, e⟩ := (hm _).mp hi
      injection e with e1 e2
      subst e1 e2
      obtain ⟨x, hx, rfl⟩ := List.mem_map.mp hd
      obtain ⟨q, k, hq, he⟩ := (covers_hasFile_iff hm).mp hf
      exact .step (x := x) ih hs hx hq he

theorem covers_linkedWith_iff {p : Path} {t : TTarget} {e : Db.Dep Path} :
    (∃ x, LinkedWith j d p t x ∧ e = toDep x) ↔ Build.LinkDep (srcList files) p.normal ⟨t.name, t.useDeps.map toDep⟩ e := by
  constructor
  · rintro ⟨x, h, rfl⟩
    cases h with
    | own h => exact .own (List.mem_map.mpr ⟨x, h, rfl⟩)
    | @child q k _ h1 h2 h3 h4 =>
      exact .child ((covers_usesFound_iff hm).mp h1) ((hm _).mpr ⟨q, k, h2, rfl⟩) (List.mem_map.mpr ⟨x, h3, rfl⟩) h4
  · intro h
    cases h with
    | own h =>
      obtain ⟨x, hx, rfl⟩ := List.mem_map.mp h
      exact ⟨x, .own hx, rfl⟩
    | child h1 h2 h3 h4 =>
      obtain ⟨q, k, hq, e⟩ := (hm _).mp h2
      injection e with e1 e2
      subst e1 e2
      obtain ⟨x, hx, rfl⟩ := List.mem_map.mp h3
      exact ⟨x, .child ((covers_usesFound_iff hm).mpr h1) hq hx h4, rfl⟩

theorem covers_refers_iff {a : Path} {e : Db.Dep Path} :
    (∃ x, DependsOn j d a x ∧ e = toDep x) ↔ Build.Refers (srcList files) a e := by
  constructor
  · rintro ⟨x, h, rfl⟩
    cases h with
    | @use p i _ hs hx => exact .use ((hm _).mpr ⟨p, i, hs, rfl⟩) (List.mem_map.mpr ⟨x, hx, rfl⟩)
    | @source p i t hs ht hmd =>
      exact .source (t := ⟨t.name, t.useDeps.map toDep⟩) ((hm _).mpr ⟨p, i, hs, rfl⟩) (List.mem_map.mpr ⟨t, ht, rfl⟩)
        ((covers_made_iff hm).mp hmd)
    | @link p i t _ hs ht hmd h =>
      exact .link (t := ⟨t.name, t.useDeps.map toDep⟩) ((hm _).mpr ⟨p, i, hs, rfl⟩) (List.mem_map.mpr ⟨t, ht, rfl⟩)
        ((covers_made_iff hm).mp hmd) ((covers_linkedWith_iff hm).mp ⟨x, h, rfl⟩)
    | @ofTarget p i t _ hs hu ht h =>
      exact .ofTarget (t := ⟨t.name, t.useDeps.map toDep⟩) ((hm _).mpr ⟨p, i, hs, rfl⟩) hu (List.mem_map.mpr ⟨t, ht, rfl⟩)
        ((covers_linkedWith_iff hm).mp ⟨x, h, rfl⟩)
  · intro h
    cases h with
    | use h1 h2 =>
      obtain ⟨p, i, hs, e⟩ := (hm _).mp h1
      injection e with e1 e2
      subst e1 e2
      obtain ⟨x, hx, rfl⟩ := List.mem_map.mp h2
      exact ⟨x, .use hs hx, rfl⟩
    | source h1 h2 h3 =>
      obtain ⟨p, i, hs, e⟩ := (hm _).mp h1
      injection e with e1 e2
      subst e1 e2
      obtain ⟨t, ht, rfl⟩ := List.mem_map.mp h2
      exact ⟨_, .source hs ht ((covers_made_iff hm).mpr h3), rfl⟩
    | link h1 h2 h3 h4 =>
      obtain ⟨p, i, hs, e⟩ := (hm _).mp h1
      injection e with e1 e2
      subst e1 e2
      obtain ⟨t, ht, rfl⟩ := List.mem_map.mp h2
      obtain ⟨x, hx, rfl⟩ := (covers_linkedWith_iff hm).mpr h4
      exact ⟨_, .link hs ht ((covers_made_iff hm).mpr h3) hx, rfl⟩
    | ofTarget h1 h2 h3 h4 =>
      obtain ⟨p, i, hs, e⟩ := (hm _).mp h1
      injection e with e1 e2
      subst e1 e2
      obtain ⟨t, ht, rfl⟩ := List.mem_map.mp h3
      obtain ⟨x, hx, rfl⟩ := (covers_linkedWith_iff hm).mpr h4
      exact ⟨_, .ofTarget hs h2 ht hx, rfl⟩

theorem covers_requires_iff {a b : Path} : Requires j d a b ↔ Build.Chain (srcList files) a b := by
  constructor
  · intro h
    induction h with
    | @single x h => exact .single (d := toDep x) ((covers_refers_iff hm).mp ⟨_, h, rfl⟩)
    | @tail b x _ h ih => exact .tail (d := toDep x) ih ((covers_refers_iff hm).mp ⟨_, h, rfl⟩)
  · intro h
    induction h with
    | single h =>
      obtain ⟨x, hx, rfl⟩ := (covers_refers_iff hm).mpr h
      exact .single (x := x) hx
    | tail _ h ih =>
      obtain ⟨x, hx, rfl⟩ := (covers_refers_iff hm).mpr h
      exact .tail (x := x) ih hx

theorem covers_apart (hap : Apart j d) : ∀ x ∈ srcList files, x.2.useTargetDeps = true → ∀ t ∈ x.2.targets, ¬ Db.HasFile (srcList files) t.name := by
  intro x hx hu t ht
  obtain ⟨p, i, hs, rfl⟩ := (hm _).mp hx
  obtain ⟨t', ht', rfl⟩ := List.mem_map.mp ht
  exact (covers_made_iff hm).mp (hap p i hs hu t' ht')

end

section
variable (hp : Proper j kind d now) {files : List (Path × FileInfo)} {tree : Db.SourceTree Path} (hl : Loads j d files tree)
include hp hl

theorem scanned_unique {p q : Path} {i k : FileInfo} (h1 : Scanned j d p i) (h2 : Scanned j d q k) (he : p.normal = q.normal) : i = k := by
  have h1' := (mem_files hp hl _ _).mpr ⟨p, h1, rfl⟩
  have h2' := (mem_files hp hl _ _).mpr ⟨q, h2, rfl⟩
  rw [he] at h1'
  exact (files_sorted hp hl).unique h1' h2'

theorem hasFile_iff {b : Path} : Db.HasFile (srcList files) b ↔ ∃ q k, Scanned j d q k ∧ b = q.normal := covers_hasFile_iff (mem_srcList hp hl)

theorem made_iff {t : TTarget} : Made j d t ↔ ¬ Db.HasFile (srcList files) t.name := covers_made_iff (mem_srcList hp hl)

theorem refers_iff {a : Path} {e : Db.Dep Path} :
    (∃ x, DependsOn j d a x ∧ e = toDep x) ↔ Build.Refers (srcList files) a e := covers_refers_iff (mem_srcList hp hl)

theorem requires_iff {a b : Path} : Requires j d a b ↔ Build.Chain (srcList files) a b := covers_requires_iff (mem_srcList hp hl)

theorem apart_files (hap : Apart j d) : ∀ x ∈ srcList files, x.2.useTargetDeps = true → ∀ t ∈ x.2.targets, ¬ Db.HasFile (srcList files) t.name :=
  covers_apart (mem_srcList hp hl) hap

/-- **C79.** The graph that is made of a project has exactly the dependencies that its files declare. -/
theorem C79_dependencies (hap : Apart j d) {u : Nat} {a : Path} (hu : tree.graph.PathOf u a) (x : TDep) :
    (∃ e ∈ tree.graph.toGraph.edges u, e.name = x.name ∧ e.origin = x.origin ∧ e.props = x.properties) ↔ DependsOn j d a x := by
  have key := Build.edges_exact (loadable hp hl) hl.2 (apart_files hp hl hap) hu (toDep x)
  have e1 : ∀ e : Db.Dep Path, Build.bare e = Build.bare (toDep x) ↔ e.name = x.name ∧ e.origin = x.origin ∧ e.props = x.properties := by
    intro e; simp [Build.bare, toDep]
  simp only [e1] at key
  rw [key]
  constructor
  · rintro ⟨e, he, h1, h2, h3⟩
    obtain ⟨y, hy, rfl⟩ := (refers_iff hp hl).mpr he
    simp only [toDep] at h1 h2 h3
    have : y = x := by cases x; cases y; simp_all
    rw [← this]; exact hy
  · intro h
    exact ⟨toDep x, (refers_iff hp hl).mp ⟨x, h, rfl⟩, rfl, rfl, rfl⟩

/-- **C79.** For each file that has been found and has targets, there is a task. Its command
tells the recipe the name of the file, the names of all of its targets, and everything that it depends on, directly or
through other files: each of these once and after whatever it depends on itself, with the origin and the properties from
one of the declarations that led to it. Nothing else is passed as a dependency, and no file depends on itself. -/
theorem C79_command (hap : Apart j d) (hok : (Db.taskListAll tree.graph).1 = .ok) {p : Path} {i : FileInfo} (hs : Scanned j d p i) (hi : i.targets ≠ [])
    (info : Json) (format : Text.LogFormat) :
    ∃ u ∈ (Db.taskListAll tree.graph).2, tree.graph.PathOf u p.normal ∧ ∃ q, requestOf files tree info format u = some q ∧
      q.default = i.default ∧ q.own = i.compiler ∧
      commandOf files tree info format u = Kvs.makeBuildCommand q ∧
      ∀ exe opts, commandOf files tree info format u = some (exe, opts) →
        Kvs.lookup "source_file" opts = some (.str (text p.normal)) ∧
        Kvs.lookup "targets" opts = some (.arr (i.targets.map fun t => .str (text t.name))) ∧
        ∃ ds : List TDep, Kvs.lookup "dependencies" opts = some (.arr (ds.map depValue)) ∧
          (ds.map TDep.name).Nodup ∧ (∀ b, b ∈ ds.map TDep.name ↔ Requires j d p.normal b) ∧
          (∀ l₁ x l₂, ds = l₁ ++ x :: l₂ → ∀ b, Requires j d x.name b → b ∈ l₁.map TDep.name) ∧
          (∀ x ∈ ds, ∃ b, (b = p.normal ∨ Requires j d p.normal b) ∧ DependsOn j d b x) ∧
          p.normal ∉ ds.map TDep.name := by
  have hL := loadable hp hl
  have hmem := (mem_srcList hp hl _).mpr ⟨p, i, hs, rfl⟩
  obtain ⟨u, si, hu, htg, _, _⟩ := Build.file_kept hL hl.2 hmem
  have hfile := (mem_files hp hl _ _).mpr ⟨p, hs, rfl⟩
  have hlook : Db.Map.lookup p.normal files = some i := Db.Map.lookup_of_mem (files_sorted hp hl) hfile
  obtain ⟨files1, files3, hc, hm1, h3, hg, s3⟩ := Build.load_ok hL.sorted hl.2
  obtain ⟨hcyc, hrest⟩ := Db.C21_all_tasks files3 s3 hg
  obtain ⟨htm, _⟩ := hrest hok
  have hne : si.targets ≠ [] := by
    rw [htg]
    intro h
    exact hi (List.map_eq_nil_iff.mp h)
  have htask := (htm u).mpr ⟨p.normal, si, hu, hne⟩
  obtain ⟨h1, h2, h3', h4, h5⟩ := Build.deps_exact hL hl.2 (apart_files hp hl hap) (no_empty hp hl) hok ⟨si, hu⟩
  have hreq : requestOf files tree info format u = some {
      default := i.default, own := i.compiler, path := text p.normal, id := u, info := info, format := format
      targets := si.targets.map fun t => text t.name
      deps := (Db.getUseDepsRecursive tree.graph u).2.map fun x => ⟨text x.name, x.origin, x.props⟩ } := by
    simp only [requestOf, hu, hlook]
  refine ⟨u, htask, ⟨si, hu⟩, _, hreq, rfl, rfl, by simp [commandOf, hreq], ?_⟩
  intro exe opts ho
  simp only [commandOf, hreq, Option.bind_some] at ho
  obtain ⟨r1, r2, ⟨js, r3, r4, r5⟩, _⟩ := Kvs.C34_request _ _ _ ho
  refine ⟨r1, ?_, (Db.getUseDepsRecursive tree.graph u).2.map (fun e => ⟨e.name, e.origin, e.props⟩), ?_, ?_, ?_, ?_, ?_, ?_⟩
  · rw [r2, htg]
    simp [FileInfo.toSrcInfo, List.map_map, Function.comp_def]
  · rw [r3]
    congr 2
    apply List.ext_getElem?
    intro k
    by_cases hk : k < (Db.getUseDepsRecursive tree.graph u).2.length
    · rw [r5 k (by simpa using hk)]
      simp [List.getElem?_eq_getElem hk, depValue]
    · rw [List.getElem?_eq_none (by simp only [List.length_map] at r4; omega),
        List.getElem?_eq_none (by simp only [List.length_map]; omega)]
  · simpa [List.map_map, Function.comp_def] using h1
  · intro b
    rw [requires_iff hp hl, ← h2 b]
    simp [List.map_map, Function.comp_def]
  · intro l₁ x l₂ he b hb
    obtain ⟨m₁, m₂, hm, rfl, hm2⟩ := List.map_eq_append_iff.mp he
    obtain ⟨e, m₃, rfl, rfl, rfl⟩ := List.map_eq_cons_iff.mp hm2
    have := h3' m₁ e m₃ hm b ((requires_iff hp hl).mp hb)
    simpa [List.map_map, Function.comp_def] using this
  · intro x hx
    obtain ⟨e, he, rfl⟩ := List.mem_map.mp hx
    obtain ⟨b, hb, e', he', hbe⟩ := h4 e he
    obtain ⟨y, hy, rfl⟩ := (refers_iff hp hl).mpr he'
    refine ⟨b, hb.imp_right (requires_iff hp hl).mpr, ?_⟩
    have : y = ⟨e.name, e.origin, e.props⟩ := by
      simp only [Build.bare, toDep, Db.Dep.mk.injEq] at hbe
      obtain ⟨e1, e2, _, e3⟩ := hbe
      cases y; simp_all
    rw [← this]; exact hy
  · intro hmem'
    refine h5 ((h2 p.normal).mp ?_)
    simpa [List.map_map, Function.comp_def] using hmem'

/-- **C79.** There are no other commands. -/
theorem C79_tasks (hok : (Db.taskListAll tree.graph).1 = .ok) {u : Nat} (hu : u ∈ (Db.taskListAll tree.graph).2) :
    ∃ p i, Scanned j d p i ∧ i.targets ≠ [] ∧ tree.graph.PathOf u p.normal := by
  have hL := loadable hp hl
  obtain ⟨files1, files3, hc, hm1, h3, hg, s3⟩ := Build.load_ok hL.sorted hl.2
  obtain ⟨hcyc, hrest⟩ := Db.C21_all_tasks files3 s3 hg
  obtain ⟨htm, _⟩ := hrest hok
  obtain ⟨a, si, hu', hne⟩ := (htm u).mp hu
  rcases Build.record_origin hL hl.2 hu' with ⟨i0, hi0, ht, _⟩ | ⟨h, _⟩
  · obtain ⟨p, i, hs, e⟩ := (mem_srcList hp hl _).mp hi0
    injection e with e1 e2
    refine ⟨p, i, hs, ?_, ?_⟩
    · intro h
      refine hne ?_
      rw [ht, e2]
      simp [FileInfo.toSrcInfo, h]
    · rw [← e1]; exact ⟨si, hu'⟩
  · exact absurd h hne

end

/-- **C79.** After a run that has succeeded, each target that is not a directory is strictly newer than everything that its recipe has been told about, apart from
directories and from what one of the declarations involved says is external. -/
theorem C79_newer {force : Bool} {files : List (Path × FileInfo)} {tree : Db.SourceTree Path} {s : Build.State Path}
    (hp : Proper j kind d now) (hr : Runs j force kind d now files tree s) (hs : s.Succeeded) (hap : Apart j d) {p : Path} {i : FileInfo}
    (hsc : Scanned j d p i) {t : TTarget} (ht : t ∈ i.targets) (hk : kind t.name = false) {q : Path} (hq : Requires j d p.normal q) (hkq : kind q = false)
    (hext : ∀ a x, (a = p.normal ∨ Requires j d p.normal a) → DependsOn j d a x → x.name = q → Db.isExternal x.origin = false) :
    Build.StrictlyNewer s.fs t.name q := by
  obtain ⟨hl, hok, as, hx⟩ := hr
  have hL := loadable hp hl
  obtain ⟨u, info, h1, h2, _, _⟩ := Build.file_kept hL hl.2 ((mem_srcList hp hl _).mpr ⟨p, i, hsc, rfl⟩)
  have ht' : (⟨t.name, t.useDeps.map toDep⟩ : Db.TargetInfo Path) ∈ info.targets := by
    rw [h2]; exact List.mem_map.mpr ⟨t, ht, rfl⟩
  obtain ⟨_, hnew⟩ := Build.C13_source_tree hL hl.2 (no_empty hp hl) hok (plausible hp tree force) hx hs u _ info h1 _ ht'
  have hkinds := kinds_kept hx hp.kinds
  have hdir : ∀ q, kind q = false → Build.isDir s.fs q = false := by
    intro q hq
    unfold Build.isDir
    cases hf : s.fs q with
    | none => rfl
    | some st => exact (hkinds q st hf).trans hq
  have hch := Build.chain_exact hL hl.2 (apart_files hp hl hap) ⟨info, h1⟩
  obtain ⟨v, hv, vinfo, hqv⟩ := hch.2 q ((requires_iff hp hl).mp hq)
  refine (hnew (hdir _ hk)).2 v q vinfo hv hqv ?_ (hdir q hkq)
  intro w hw e he hen
  have hwb : ∃ b, (b = p.normal ∨ Requires j d p.normal b) ∧ tree.graph.PathOf w b := by
    cases hw with
    | refl => exact ⟨_, .inl rfl, info, h1⟩
    | tail g1 g2 =>
      obtain ⟨b, hb, hpb⟩ := hch.1 w ⟨_, g1, g2⟩
      exact ⟨b, .inr ((requires_iff hp hl).mpr hb), hpb⟩
  obtain ⟨b, hb, hpb⟩ := hwb
  exact hext b ⟨e.name, e.origin, e.props⟩ hb ((C79_dependencies hp hl hap hpb _).mp ⟨e, he, rfl, rfl, rfl⟩) hen

end Maike.Main
