import Verif.Main.Request

/-!
# Example: what recipes are told

A project with a library of one object file, `b.cpp` with the interface `b.h`, and a test `t.test` that includes the interface. The interface
names the object file with `dependencies_extra`, so that the test is linked with it.
-/

namespace Maike.Main.RequestExample

open Fs Tree Paths
open Maike.Build (FileSys Stat)
open Maike.Kvs (Json Members)

/-- A file system with the given files. -/
def fsOf (l : List (Path × Stat)) : FileSys Path := fun p => l.lookup p

theorem fsOf_mem {l : List (Path × Stat)} {p : Path} {st : Stat} (h : fsOf l p = some st) : (p, st) ∈ l := by
  unfold fsOf at h
  induction l with
  | nil => cases h
  | cons a l ih =>
    obtain ⟨q, s⟩ := a
    simp only [List.lookup] at h
    split at h
    · rename_i e
      have : p = q := by simpa using e
      injection h with h
      subst this h
      simp
    · exact List.mem_cons_of_mem _ (ih h)

def cpp : Source where
  default := { recipe := "cc.py", origin := some .system }
  useTargetDeps := false
  found := some [⟨parse ['b', '.', 'h'], .project, []⟩]
  tags := some [("target", .obj [("name", .str "b.o")])]

def header : Source where
  default := { recipe := "cc.py", origin := some .system }
  useTargetDeps := false
  found := some []
  tags := some [("dependencies_extra", .arr [.obj [("ref", .str "b.o"), ("rel", .str "implementation")]])]

/-- Links what it compiles, so it uses the dependencies of its target. -/
def test : Source where
  default := { recipe := "cc.py", origin := some .system, config := [("actions", .arr [.str "link"])] }
  useTargetDeps := true
  found := some [⟨parse ['b', '.', 'h'], .project, []⟩]
  tags := some [("target", .obj [("name", .str "t")])]

def job : Job where
  sourceDir := parse ['.']
  targetDir := parse ['_', '_', 't']
  recursive := true
  nameFilter n := ['_', '_'].isPrefixOf n
  dirFilter _ := false
  dirCompiler := { recipe := "mkdir.py", origin := some .system }
  loader e := if e = ['.', 'c', 'p', 'p'] then some fun _ => cpp
    else if e = ['.', 'h'] then some fun _ => header
    else if e = ['.', 't', 'e', 's', 't'] then some fun _ => test
    else none
  resolver := { get := fun _ => none }
  getTags _ _ := none
  message _ := []
  workers := 1

def stats : List (Path × Stat) :=
  [(parse ['.'], ⟨1, true⟩), (parse ['b', '.', 'c', 'p', 'p'], ⟨2, false⟩), (parse ['b', '.', 'h'], ⟨3, false⟩),
   (parse ['t', '.', 't', 'e', 's', 't'], ⟨4, false⟩)]

def dirs : List Path := [parse ['.'], parse ['_', '_', 't'], parse ['_', '_', 't', '/']]

def kind (p : Path) : Bool := decide (p ∈ dirs)

def disk : Disk := diskOf (fsOf stats) (stats.map Prod.fst)

theorem all : ∀ p, ((fsOf stats) p).isSome → p ∈ stats.map Prod.fst := by
  intro p hp
  obtain ⟨st, hst⟩ := Option.isSome_iff_exists.mp hp
  exact List.mem_map.mpr ⟨_, fsOf_mem hst, rfl⟩

theorem disk_ok : disk.Ok := diskOf_ok (by decide +kernel) all (slash_of all (by decide +kernel))

def files : List (Path × FileInfo) := (scan job disk 60).shared.files

def tree : Db.SourceTree Path := treeOf files

theorem loads : Loads job disk files tree :=
  loads_of 60 (by decide +kernel) (by decide +kernel) (treeOf_ok (by decide +kernel))

theorem proper : Proper job kind disk 10 := by
  refine proper_of disk_ok (by decide +kernel) (by decide +kernel) ?_ ?_ loads (by decide +kernel) (by decide +kernel) (by decide +kernel)
  · intro p st _ h
    have : ∀ x ∈ stats, x.2.mtime < 10 := by decide +kernel
    exact this _ (fsOf_mem h)
  · intro p st h
    have : ∀ x ∈ stats, x.2.dir = kind x.1 := by decide +kernel
    exact this _ (fsOf_mem h)

theorem apart : Apart job disk := by
  intro p i hs hu t ht q k hq
  have : ∀ x ∈ files, x.2.useTargetDeps = true → ∀ t ∈ x.2.targets, ∀ y ∈ files, t.name ≠ y.1 := by decide +kernel
  exact this _ ((mem_files proper loads _ _).mpr ⟨p, hs, rfl⟩) hu t ht _ ((mem_files proper loads _ _).mpr ⟨q, hq, rfl⟩)

theorem acyclic : (Db.taskListAll tree.graph).1 = .ok := by decide +kernel

/-- The hypotheses of `C79_command` are met for the test. -/
theorem scanned : ∃ p i, Scanned job disk p i ∧ p.normal = parse ['t', '.', 't', 'e', 's', 't'] ∧ i.targets ≠ [] := by
  have h : ∃ x ∈ files, x.1 = parse ['t', '.', 't', 'e', 's', 't'] ∧ x.2.targets ≠ [] := by decide +kernel
  obtain ⟨⟨k, i⟩, hx, h1, h2⟩ := h
  obtain ⟨p, hs, e⟩ := (mem_files proper loads _ _).mp hx
  exact ⟨p, i, hs, e.symm.trans h1, h2⟩

/-- The object file is passed to the recipe of the test, and the recipe is told that it is an implementation. -/
example : ∃ u ∈ (Db.taskListAll tree.graph).2, tree.graph.files[u]?.map Prod.fst = some (parse ['t', '.', 't', 'e', 's', 't']) ∧
    (⟨parse ['_', '_', 't', '/', 'b', '.', 'o'], .generated, ["rel".toList]⟩ : Path × Db.Origin × List Str) ∈
      (Db.getUseDepsRecursive tree.graph u).2.map (fun e => (e.name, e.origin, e.props.map fun x => x.1.toList)) := by
  decide +kernel

/-- This follows from what the files declare, too. -/
example : ∃ p i, Scanned job disk p i ∧ ∃ x, DependsOn job disk p.normal x ∧ x.name = parse ['_', '_', 't', '/', 'b', '.', 'o'] := by
  have h : ∃ x ∈ files, x.2.useTargetDeps = true ∧ ∃ t ∈ x.2.targets, ∃ y ∈ x.2.useDeps, ∃ z ∈ files, z.1 = y.name ∧
      ∃ c ∈ z.2.childTargetsUseDeps, c.name = parse ['_', '_', 't', '/', 'b', '.', 'o'] ∧ c.name ≠ t.name := by decide +kernel
  obtain ⟨⟨k, i⟩, hx, hu, t, ht, y, hy, ⟨k', i'⟩, hz, e, c, hc, e1, e2⟩ := h
  obtain ⟨p, hs, rfl⟩ := (mem_files proper loads _ _).mp hx
  obtain ⟨q, hq, rfl⟩ := (mem_files proper loads _ _).mp hz
  refine ⟨p, i, hs, c, .ofTarget hs hu ht (.child ?_ hq hc e2), e1⟩
  have := UsesFound.step (.refl p.normal) hs hy hq e.symm
  rw [← e] at this
  exact this

end Maike.Main.RequestExample
