import Verif.Main.Linked
import Verif.Main.RequestExamples

/-!
# Examples of programs that are linked

A project with two object files, where `a.c` includes `b.h`, and a test that includes `a.h` only. Interfaces name
the object files that implement them. With `plain`, `a.c` depends on the other object file too, without saying
what it is.
-/

namespace Maike.Main.LinkedExample

open Fs Tree Paths
open Maike.Build (FileSys Stat)
open Maike.Kvs (Json Members)
open RequestExample (fsOf fsOf_mem)
open Maike.Recipes (linkInputs)

def incl (s : Str) : TDep := ⟨parse s, .project, []⟩

def cc : Kvs.Compiler := { recipe := "cc.py", origin := some .system }

def implementedBy (name : String) : Option Members :=
  some [("dependencies_extra", .arr [.obj [("ref", .str name), ("rel", .str "implementation")]])]

def sourceOf (plain : Bool) (p : Path) : Source :=
  let n := p.filename
  if n = ['a', '.', 'c'] then
    ⟨cc, false, some [incl ['a', '.', 'h'], incl ['b', '.', 'h']], some ([("target", .obj [("name", .str "a.o")])] ++
      if plain then [("dependencies", .arr [.obj [("ref", .str "b.o")]])] else [])⟩
  else if n = ['a', '.', 'h'] then ⟨cc, false, some [], implementedBy "a.o"⟩
  else if n = ['b', '.', 'c'] then ⟨cc, false, some [incl ['b', '.', 'h']], some [("target", .obj [("name", .str "b.o")])]⟩
  else if n = ['b', '.', 'h'] then ⟨cc, false, some [], implementedBy "b.o"⟩
  else ⟨cc, true, some [incl ['a', '.', 'h']], some [("target", .obj [("name", .str "t")])]⟩

def job (plain : Bool) : Job where
  sourceDir := parse ['.']
  targetDir := parse ['_', '_', 't']
  recursive := true
  nameFilter n := ['_', '_'].isPrefixOf n
  dirFilter _ := false
  dirCompiler := { recipe := "mkdir.py", origin := some .system }
  loader e := if e = [] then none else some (sourceOf plain)
  resolver := { get := fun _ => none }
  getTags _ _ := none
  message _ := []
  workers := 1

def stats : List (Path × Stat) :=
  (parse ['.'], ⟨1, true⟩) :: [['a', '.', 'c'], ['a', '.', 'h'], ['b', '.', 'c'], ['b', '.', 'h'], ['t', '.', 't']].map fun n => (parse n, ⟨2, false⟩)

def dirs : List Path := [parse ['.'], parse ['_', '_', 't'], parse ['_', '_', 't', '/']]

def kind (p : Path) : Bool := decide (p ∈ dirs)

def disk : Disk := diskOf (fsOf stats) (stats.map Prod.fst)

theorem all : ∀ p, ((fsOf stats) p).isSome → p ∈ stats.map Prod.fst := by
  intro p hp
  obtain ⟨st, hst⟩ := Option.isSome_iff_exists.mp hp
  exact List.mem_map.mpr ⟨_, fsOf_mem hst, rfl⟩

theorem disk_ok : disk.Ok := diskOf_ok (by decide +kernel) all (slash_of all (by decide +kernel))

def files (plain : Bool) : List (Path × FileInfo) := (scan (job plain) disk 80).shared.files

def tree (plain : Bool) : Db.SourceTree Path := treeOf (files plain)

theorem loads : ∀ plain, Loads (job plain) disk (files plain) (tree plain)
  | true => loads_of 80 (by decide +kernel) (by decide +kernel) (treeOf_ok (by decide +kernel))
  | false => loads_of 80 (by decide +kernel) (by decide +kernel) (treeOf_ok (by decide +kernel))

theorem past : ∀ p st, kind p = false → disk.fs p = some st → st.mtime < 10 := by
  intro p st _ h
  have : ∀ x ∈ stats, x.2.mtime < 10 := by decide +kernel
  exact this _ (fsOf_mem h)

theorem kinds : ∀ p st, disk.fs p = some st → st.dir = kind p := by
  intro p st h
  have : ∀ x ∈ stats, x.2.dir = kind x.1 := by decide +kernel
  exact this _ (fsOf_mem h)

theorem proper : ∀ plain, Proper (job plain) kind disk 10
  | true => proper_of disk_ok (by decide +kernel) (by decide +kernel) past kinds (loads true) (by decide +kernel) (by decide +kernel) (by decide +kernel)
  | false => proper_of disk_ok (by decide +kernel) (by decide +kernel) past kinds (loads false) (by decide +kernel) (by decide +kernel) (by decide +kernel)

theorem apart (plain : Bool) : Apart (job plain) disk := by
  intro p i hs hu t ht q k hq
  have : ∀ x ∈ files plain, x.2.useTargetDeps = true → ∀ t ∈ x.2.targets, ∀ y ∈ files plain, t.name ≠ y.1 := by
    cases plain <;> decide +kernel
  exact this _ ((mem_files (proper plain) (loads plain) _ _).mpr ⟨p, hs, rfl⟩) hu t ht _ ((mem_files (proper plain) (loads plain) _ _).mpr ⟨q, hq, rfl⟩)

theorem acyclic : ∀ plain, (Db.taskListAll (tree plain).graph).1 = .ok
  | true => by decide +kernel
  | false => by decide +kernel

/-- No library is known. -/
def noPkg : Recipes.Pkg := ⟨fun _ => none, fun _ => none, fun _ => none⟩

/-- What the linker gets for the test. -/
def inputs (plain : Bool) : Option (List Str) :=
  (commandOf (files plain) (tree plain) .null .plainText 11).bind fun x => (Recipes.linkInputs noPkg x.2).map fun l => l.map String.toList

theorem inputs_eq : inputs false = some [['_', '_', 't', '/', 'a', '.', 'o'], ['_', '_', 't', '/', 'b', '.', 'o']] := by decide +kernel
theorem inputs_plain : inputs true = some [['_', '_', 't', '/', 'a', '.', 'o']] := by decide +kernel

def aObj : Path := parse ['_', '_', 't', '/', 'a', '.', 'o']
def bObj : Path := parse ['_', '_', 't', '/', 'b', '.', 'o']

/-- Everything that is declared anywhere, and the sources of targets. -/
def declarations (plain : Bool) : List TDep :=
  (files plain).flatMap fun x => x.2.useDeps ++ x.2.childTargetsUseDeps ++ x.2.targets.flatMap TTarget.useDeps ++ [⟨x.1, .project, []⟩]

theorem mem_declarations {plain : Bool} {p : Path} {x : TDep} (h : Declared (job plain) disk p x) : x ∈ declarations plain := by
  have hm : ∀ {p i}, Scanned (job plain) disk p i → (p.normal, i) ∈ files plain := fun h => (mem_files (proper plain) (loads plain) _ _).mpr ⟨_, h, rfl⟩
  have key : ∀ {p i}, Scanned (job plain) disk p i → ∀ {x}, x ∈ i.useDeps ++ i.childTargetsUseDeps ++ i.targets.flatMap TTarget.useDeps ++ [⟨p.normal, .project, []⟩] →
      x ∈ declarations plain := fun h _ hx => List.mem_flatMap.mpr ⟨_, hm h, hx⟩
  have hlink : ∀ {p i t x}, Scanned (job plain) disk p i → t ∈ i.targets → LinkedWith (job plain) disk p t x → x ∈ declarations plain := by
    intro p i t x hs ht h
    cases h with
    | own h => exact key hs (by simp only [List.mem_append, List.mem_flatMap]; exact .inl (.inr ⟨t, ht, h⟩))
    | child _ hq h _ => exact key hq (by simp [h])
  obtain ⟨b, _, h⟩ := h
  cases h with
  | use h1 h2 => exact key h1 (by simp [h2])
  | source h1 h2 h3 => exact key h1 (by simp)
  | link h1 h2 h3 h4 => exact hlink h1 h2 h4
  | ofTarget h1 h2 h3 h4 => exact hlink h1 h3 h4

theorem tidy (plain : Bool) {p : Path} (x : TDep) (h : Declared (job plain) disk p x) : Tidy x := by
  have : ∀ x ∈ declarations plain, Tidy x := by
    unfold Tidy
    cases plain <;> decide +kernel
  exact this x (mem_declarations h)

/-- The test. -/
theorem scanned (plain : Bool) : ∃ p i, Scanned (job plain) disk p i ∧ p.normal = parse ['t', '.', 't'] ∧ i.targets ≠ [] ∧ i.useTargetDeps = true ∧
    (∀ t ∈ i.targets, t.name ≠ aObj) ∧ ∃ x ∈ i.useDeps, x.name = parse ['a', '.', 'h'] := by
  have h : ∃ x ∈ files plain, x.1 = parse ['t', '.', 't'] ∧ x.2.targets ≠ [] ∧ x.2.useTargetDeps = true ∧ (∀ t ∈ x.2.targets, t.name ≠ aObj) ∧
      ∃ y ∈ x.2.useDeps, y.name = parse ['a', '.', 'h'] := by
    cases plain <;> decide +kernel
  obtain ⟨⟨k, i⟩, hx, h1, h2⟩ := h
  obtain ⟨p, hs, e⟩ := (mem_files (proper plain) (loads plain) _ _).mp hx
  exact ⟨p, i, hs, e.symm.trans h1, h2⟩

theorem header (plain : Bool) {n : Str} {b : Path} (h : ∃ x ∈ files plain, x.1 = parse n ∧ ∃ y ∈ x.2.childTargetsUseDeps, y.name = b ∧ Implementation y) :
    ∃ q k, Scanned (job plain) disk q k ∧ q.normal = parse n ∧ ∃ y ∈ k.childTargetsUseDeps, y.name = b ∧ Implementation y := by
  obtain ⟨⟨_, i⟩, hx, h1, h2⟩ := h
  obtain ⟨p, hs, e⟩ := (mem_files (proper plain) (loads plain) _ _).mp hx
  exact ⟨p, i, hs, e.symm.trans h1, h2⟩

/-- The test requires the first object file, since it includes its interface. -/
theorem test_a (plain : Bool) {p : Path} {i : FileInfo} (hs : Scanned (job plain) disk p i) (hu : i.useTargetDeps = true) (hi : i.targets ≠ [])
    (hn : ∀ t ∈ i.targets, t.name ≠ aObj) {x : TDep} (hx : x ∈ i.useDeps) (hxn : x.name = parse ['a', '.', 'h']) : Requires (job plain) disk p.normal aObj := by
  obtain ⟨q, k, hq, e, y, hy, rfl', _⟩ := header plain (n := ['a', '.', 'h']) (b := aObj) (by unfold Implementation; cases plain <;> decide +kernel)
  obtain ⟨t, ht⟩ := List.exists_mem_of_ne_nil _ hi
  have hinc := UsesFound.step (.refl p.normal) hs hx hq (hxn.trans e.symm)
  rw [hxn, ← e] at hinc
  have := Requires.single (.ofTarget hs hu ht (.child hinc hq hy (by rw [rfl']; exact (hn t ht).symm)))
  rw [rfl'] at this
  exact this

/-- The first object file requires the second one, since its source includes the interface. -/
theorem a_b (plain : Bool) : ∃ y, DependsOn (job plain) disk aObj y ∧ y.name = bObj ∧ Implementation y := by
  obtain ⟨q, k, hq, e, y, hy, rfl', him⟩ := header plain (n := ['b', '.', 'h']) (b := bObj) (by unfold Implementation; cases plain <;> decide +kernel)
  have h : ∃ x ∈ files plain, ∃ t ∈ x.2.targets, t.name = aObj ∧ ∃ y ∈ x.2.useDeps, y.name = parse ['b', '.', 'h'] := by cases plain <;> decide +kernel
  obtain ⟨⟨_, i⟩, hx, t, ht, htn, z, hz, hzn⟩ := h
  obtain ⟨p, hs, rfl⟩ := (mem_files (proper plain) (loads plain) _ _).mp hx
  have hinc := UsesFound.step (.refl p.normal) hs hz hq (hzn.trans e.symm)
  rw [hzn, ← e] at hinc
  have hmade : Made (job plain) disk t := by
    intro q k hq
    have : ∀ y ∈ files plain, aObj ≠ y.1 := by cases plain <;> decide +kernel
    rw [htn]
    exact this _ ((mem_files (proper plain) (loads plain) _ _).mpr ⟨q, hq, rfl⟩)
  refine ⟨y, ?_, rfl', him⟩
  have := DependsOn.link hs ht hmade (.child hinc hq hy (by rw [rfl', htn]; decide +kernel))
  rw [htn] at this
  exact this

theorem path (plain : Bool) : (tree plain).graph.PathOf 11 (parse ['t', '.', 't']) := by
  have h : ((tree plain).graph.files[11]?.map Prod.fst) = some (parse ['t', '.', 't']) := by cases plain <;> decide +kernel
  obtain ⟨⟨_, info⟩, h1, rfl⟩ := Option.map_eq_some_iff.mp h
  exact ⟨info, h1⟩

/-- The hypotheses of C81 are met: the test is linked with both object files, in the order that is needed. -/
example : ∃ exe opts args, commandOf (files false) (tree false) .null .plainText 11 = some (exe, opts) ∧ Recipes.linkInputs noPkg opts = some args ∧
    Recipes.Before args (text aObj) (text bObj) := by
  obtain ⟨p, i, hs, e, hi, hu, hn, x, hx, hxn⟩ := scanned false
  have ha := test_a false hs hu hi hn hx hxn
  obtain ⟨y, hy, rfl', him⟩ := a_b false
  have hab := Requires.single hy
  have hb := Requires.tail ha hy
  rw [rfl'] at hab hb
  have himpl : ∀ b ∈ [aObj, bObj], ∀ x, Declared (job false) disk p x → x.name = b → Implementation x := by
    have : ∀ b ∈ [aObj, bObj], ∀ x ∈ declarations false, x.name = b → Implementation x := by unfold Implementation; decide +kernel
    exact fun b hb x hx => this b hb x (mem_declarations hx)
  have hpkg : ∀ x, Declared (job false) disk p x → x.origin = .pkgConfig → (noPkg.libs (text x.name)).isSome ∧ (noPkg.libdirs (text x.name)).isSome := by
    intro x hx ho
    have : ∀ x ∈ declarations false, x.origin ≠ .pkgConfig := by decide +kernel
    exact absurd ho (this x (mem_declarations hx))
  have hu' : (tree false).graph.PathOf 11 p.normal := by rw [e]; exact path false
  have hc : (commandOf (files false) (tree false) .null .plainText 11).isSome = true := by decide +kernel
  obtain ⟨⟨exe, opts⟩, hc⟩ := Option.isSome_iff_exists.mp hc
  obtain ⟨args, h1, _⟩ := C81_linked_partial (proper false) (loads false) (apart false) (acyclic false) hs hi (tidy false) hu' .null .plainText hc noPkg hpkg
  refine ⟨exe, opts, args, hc, h1, ?_⟩
  refine C81_order_partial (proper false) (loads false) (apart false) (acyclic false) hs hi (tidy false) hu' .null .plainText hc ?_ ?_ h1
    ⟨ha, himpl _ (by simp)⟩ ⟨hb, himpl _ (by simp)⟩ (by decide +kernel) hab
  · rintro name s ⟨out, h | h, _⟩ <;> cases h
  · have hmem : ∀ a, Requires (job false) disk p.normal a → a ∈ (declarations false).map TDep.name := by
      intro a h
      have : ∀ a, Requires (job false) disk p.normal a → ∃ x, Declared (job false) disk p x ∧ x.name = a := by
        intro a h
        cases h with
        | single h => exact ⟨_, ⟨_, .inl rfl, h⟩, rfl⟩
        | tail h1 h2 => exact ⟨_, ⟨_, .inr h1, h2⟩, rfl⟩
      obtain ⟨x, hx, rfl⟩ := this a h
      exact List.mem_map.mpr ⟨x, mem_declarations hx, rfl⟩
    have hdec : ∀ a ∈ (declarations false).map TDep.name, ∀ b ∈ (declarations false).map TDep.name, a.str = b.str → a = b := by decide +kernel
    intro a b ha hb h
    refine hdec a (hmem a ha) b (hmem b hb) ?_
    rw [← text_toList, ← text_toList, h]

/-- The same for a library that is made from this file. -/
example : ∃ exe opts t members, commandOf (files false) (tree false) .null .plainText 11 = some (exe, opts) ∧
    Recipes.archiveCommand "ar" opts = some ("ar" :: "rcs" :: t :: members) ∧ text aObj ∈ members ∧ text bObj ∈ members := by
  obtain ⟨p, i, hs, e, hi, hu, hn, x, hx, hxn⟩ := scanned false
  have ha := test_a false hs hu hi hn hx hxn
  obtain ⟨y, hy, rfl', him⟩ := a_b false
  have hb := Requires.tail ha hy
  rw [rfl'] at hb
  have himpl : ∀ b ∈ [aObj, bObj], ∀ x, Declared (job false) disk p x → x.name = b → Implementation x := by
    have : ∀ b ∈ [aObj, bObj], ∀ x ∈ declarations false, x.name = b → Implementation x := by unfold Implementation; decide +kernel
    exact fun b hb x hx => this b hb x (mem_declarations hx)
  have hc : (commandOf (files false) (tree false) .null .plainText 11).isSome = true := by decide +kernel
  obtain ⟨⟨exe, opts⟩, hc⟩ := Option.isSome_iff_exists.mp hc
  obtain ⟨t, members, _, h1, _, h2, _⟩ := C81_archive_partial (proper false) (loads false) (apart false) (acyclic false) hs hi (tidy false)
    (by rw [e]; exact path false) .null .plainText hc "ar"
  exact ⟨exe, opts, _, members, hc, h1, h2 _ ⟨ha, himpl _ (by simp)⟩, h2 _ ⟨hb, himpl _ (by simp)⟩⟩

/-- **C81 is false** if another declaration does not say what the dependency is. The properties that are passed to the recipe are those of the declaration by
which the file has been reached first. Here the test requires an object file, and a header says that it is an implementation; but the linker does not get it. -/
theorem C81_false : ∃ j kind d now files tree p i u exe opts, Proper j kind d now ∧ Loads j d files tree ∧ Apart j d ∧ (Db.taskListAll tree.graph).1 = .ok ∧
    Scanned j d p i ∧ i.targets ≠ [] ∧ (∀ x, Declared j d p x → Tidy x) ∧ tree.graph.PathOf u p.normal ∧
    commandOf files tree .null .plainText u = some (exe, opts) ∧ ∃ args, linkInputs noPkg opts = some args ∧
    ∃ x, Declared j d p x ∧ Implementation x ∧ Requires j d p.normal x.name ∧ text x.name ∉ args := by
  obtain ⟨p, i, hs, e, hi, hu, hn, x, hx, hxn⟩ := scanned true
  have ha := test_a true hs hu hi hn hx hxn
  obtain ⟨y, hy, rfl', him⟩ := a_b true
  have hin := inputs_plain
  obtain ⟨⟨exe, opts⟩, hc, hin⟩ := Option.bind_eq_some_iff.mp hin
  obtain ⟨args, h1, h2⟩ := Option.map_eq_some_iff.mp hin
  refine ⟨_, _, _, _, _, _, p, i, 11, exe, opts, proper true, loads true, apart true, acyclic true, hs, hi, tidy true, by rw [e]; exact path true, hc,
    args, h1, y, ⟨aObj, .inr ha, hy⟩, him, .tail ha hy, ?_⟩
  intro hmem
  have : (text y.name).toList ∈ args.map String.toList := List.mem_map.mpr ⟨_, hmem, rfl⟩
  rw [h2, rfl', text_toList] at this
  exact absurd this (by decide +kernel)

end Maike.Main.LinkedExample
