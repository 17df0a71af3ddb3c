import Verif.Main.Compiled

/-!
# An example of a file that is compiled with another one in front of it
-/

namespace Maike.Main.CompiledExample

open Fs Tree Paths
open Maike.Build (FileSys Stat)
open Maike.Kvs (Json Members)
open RequestExample (fsOf fsOf_mem)

def cc : Kvs.Compiler :=
  { recipe := "cxx_compiler.py", origin := some .system, config := [("backend", .str "g++"), ("cflags", .arr []), ("iquote", .arr [])] }

def sourceOf (p : Path) : Source :=
  if p.filename = ['a', '.', 'c'] then
    ⟨cc, false, some [], some [("target", .obj [("name", .str "a.o")]), ("dependencies", .arr [.obj [("ref", .str "pre.h"), ("origin", .str "project"), ("rel", .str "include")]])]⟩
  else ⟨cc, false, some [], some []⟩

def job : Job where
  sourceDir := parse ['.']
  targetDir := parse ['_', '_', 't']
  recursive := true
  nameFilter n := ['_', '_'].isPrefixOf n
  dirFilter _ := false
  dirCompiler := { recipe := "mkdir.py", origin := some .system }
  loader e := if e = [] then none else some sourceOf
  resolver := { get := fun _ => none }
  getTags _ _ := none
  message _ := []
  workers := 1

def stats : List (Path × Stat) :=
  (parse ['.'], ⟨1, true⟩) :: [['a', '.', 'c'], ['p', 'r', 'e', '.', 'h']].map fun n => (parse n, ⟨2, false⟩)

def dirs : List Path := [parse ['.'], parse ['_', '_', 't'], parse ['_', '_', 't', '/']]

def kind (p : Path) : Bool := decide (p ∈ dirs)

def disk : Disk := diskOf (fsOf stats) (stats.map Prod.fst)

theorem all : ∀ p, ((fsOf stats) p).isSome → p ∈ stats.map Prod.fst := by
  intro p hp
  obtain ⟨st, hst⟩ := Option.isSome_iff_exists.mp hp
  exact List.mem_map.mpr ⟨_, fsOf_mem hst, rfl⟩

theorem disk_ok : disk.Ok := diskOf_ok (by decide +kernel) all (slash_of all (by decide +kernel))

def files : List (Path × FileInfo) := (scan job disk 80).shared.files

def tree : Db.SourceTree Path := treeOf files

theorem loads : Loads job disk files tree := loads_of 80 (by decide +kernel) (by decide +kernel) (treeOf_ok (by decide +kernel))

theorem past : ∀ p st, kind p = false → disk.fs p = some st → st.mtime < 10 := by
  intro p st _ h
  have : ∀ x ∈ stats, x.2.mtime < 10 := by decide +kernel
  exact this _ (fsOf_mem h)

theorem kinds : ∀ p st, disk.fs p = some st → st.dir = kind p := by
  intro p st h
  have : ∀ x ∈ stats, x.2.dir = kind x.1 := by decide +kernel
  exact this _ (fsOf_mem h)

theorem proper : Proper job kind disk 10 :=
  proper_of disk_ok (by decide +kernel) (by decide +kernel) past kinds loads (by decide +kernel) (by decide +kernel) (by decide +kernel)

theorem apart : Apart job disk := by
  intro p i hs hu t ht q k hq
  have : ∀ x ∈ files, x.2.useTargetDeps = true → ∀ t ∈ x.2.targets, ∀ y ∈ files, t.name ≠ y.1 := by decide +kernel
  exact this _ ((mem_files proper loads _ _).mpr ⟨p, hs, rfl⟩) hu t ht _ ((mem_files proper loads _ _).mpr ⟨q, hq, rfl⟩)

theorem acyclic : (Db.taskListAll tree.graph).1 = .ok := by decide +kernel

/-- Everything that is declared anywhere, and the sources of targets. -/
def declarations : List TDep :=
  files.flatMap fun x => x.2.useDeps ++ x.2.childTargetsUseDeps ++ x.2.targets.flatMap TTarget.useDeps ++ if x.2.targets = [] then [] else [⟨x.1, .project, []⟩]

theorem mem_declarations {p : Path} {x : TDep} (h : Declared job disk p x) : x ∈ declarations := by
  have hm : ∀ {p i}, Scanned job disk p i → (p.normal, i) ∈ files := fun h => (mem_files proper loads _ _).mpr ⟨_, h, rfl⟩
  have key : ∀ {p i}, Scanned job disk p i → ∀ {x}, x ∈ i.useDeps ++ i.childTargetsUseDeps ++ i.targets.flatMap TTarget.useDeps ++
      (if i.targets = [] then [] else [⟨p.normal, .project, []⟩]) → x ∈ declarations := fun h _ hx => List.mem_flatMap.mpr ⟨_, hm h, hx⟩
  have hlink : ∀ {p i t x}, Scanned job disk p i → t ∈ i.targets → LinkedWith job disk p t x → x ∈ declarations := by
    intro p i t x hs ht h
    cases h with
    | own h => exact key hs (by simp only [List.mem_append, List.mem_flatMap]; exact .inl (.inr ⟨t, ht, h⟩))
    | child _ hq h _ => exact key hq (by simp [h])
  obtain ⟨b, _, h⟩ := h
  cases h with
  | use h1 h2 => exact key h1 (by simp [h2])
  | source h1 h2 h3 => exact key h1 (by simp [List.ne_nil_of_mem h2])
  | link h1 h2 h3 h4 => exact hlink h1 h2 h4
  | ofTarget h1 h2 h3 h4 => exact hlink h1 h3 h4

def info : Json := .obj [("start_time", .int 0), ("build_id", .str "0"), ("target_dir", .str "__t"), ("source_dir", .str ".")]

def command : Option (String × Members) := commandOf files tree info .plainText 3

/-- The hypotheses of C83_dependencies_partial are met: `pre.h` is included when `a.c` is compiled. -/
example : ∃ exe opts args, command = some (exe, opts) ∧ Recipes.compileCommand Recipes.CompileExample.env opts = some args ∧ "-include" ++ text (parse ['p', 'r', 'e', '.', 'h']) ∈ args := by
  have h : ∃ x ∈ files, x.1 = parse ['a', '.', 'c'] ∧ x.2.targets ≠ [] ∧ ∃ y ∈ x.2.useDeps, y.name = parse ['p', 'r', 'e', '.', 'h'] := by decide +kernel
  obtain ⟨⟨k, i⟩, hx, h1, h2, y, hy, e⟩ := h
  obtain ⟨p, hs, rfl⟩ := (mem_files proper loads _ _).mp hx
  simp only at h1
  have hc : (command.bind fun x => Recipes.compileCommand Recipes.CompileExample.env x.2).isSome = true := by decide +kernel
  obtain ⟨args, ha⟩ := Option.isSome_iff_exists.mp hc
  obtain ⟨⟨exe, opts⟩, hc, ha⟩ := Option.bind_eq_some_iff.mp ha
  refine ⟨exe, opts, args, hc, ha, ?_⟩
  have hu : tree.graph.PathOf 3 p.normal := by
    have h : (tree.graph.files[3]?.map Prod.fst) = some (parse ['a', '.', 'c']) := by decide +kernel
    obtain ⟨⟨_, info⟩, h1', rfl⟩ := Option.map_eq_some_iff.mp h
    rw [h1]
    exact ⟨info, h1'⟩
  have hreq : Requires job disk p.normal (parse ['p', 'r', 'e', '.', 'h']) := e ▸ .single (.use hs hy)
  have htidy : ∀ x ∈ declarations, Tidy x := by unfold Tidy; decide +kernel
  have hincl : ∀ x ∈ declarations, x.name = parse ['p', 'r', 'e', '.', 'h'] → Included x := by unfold Included; decide +kernel
  exact (C83_dependencies_partial proper loads apart acyclic hs h2 (fun x hx => htidy x (mem_declarations hx)) hu info .plainText hc ha hreq).1
    fun x hx => hincl x (mem_declarations hx)

end Maike.Main.CompiledExample
