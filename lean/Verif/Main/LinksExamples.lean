import Verif.Main.Links
import Verif.Main.RunExamples

/-!
# Examples for C111: a directory with two names, and a directory that contains itself
-/

namespace Maike.Main

open Fs Tree Paths

namespace LinksExample

/-- A file system that is given by a list of places. -/
def linksOf (l : List (List Str × Node)) (cwd : List Str) : Tree.Links where
  node a := List.lookup a l
  entries a := l.filterMap fun x => match x.1 with
    | n :: b => if b = a then some n else none
    | [] => none
  cwd := cwd
  limit := 40

theorem lookup_mem {l : List (List Str × Node)} {a : List Str} {x : Node} (h : List.lookup a l = some x) : (a, x) ∈ l := by
  induction l with
  | nil => simp at h
  | cons y l ih =>
    obtain ⟨b, y⟩ := y
    rw [List.lookup_cons] at h
    split at h
    · rename_i e
      simp only [beq_iff_eq] at e
      simp only [Option.some.injEq] at h
      rw [e, h]; simp
    · exact List.mem_cons_of_mem _ (ih h)

theorem lookup_isSome {l : List (List Str × Node)} {a : List Str} {x : Node} (h : (a, x) ∈ l) : (List.lookup a l).isSome := by
  induction l with
  | nil => simp at h
  | cons y l ih =>
    obtain ⟨b, y⟩ := y
    rw [List.lookup_cons]
    split
    · rfl
    · rename_i e
      rcases List.mem_cons.mp h with e' | h
      · injection e' with e1 e2
        simp [e1] at e
      · exact ih h

theorem linksOf_entries {l : List (List Str × Node)} {cwd a : List Str} {n : Str} : n ∈ (linksOf l cwd).entries a ↔ ∃ x, (n :: a, x) ∈ l := by
  simp only [linksOf, List.mem_filterMap]
  constructor
  · rintro ⟨⟨b, x⟩, h1, h2⟩
    cases b with
    | nil => cases h2
    | cons m b =>
      simp only [Option.ite_none_right_eq_some, Option.some.injEq] at h2
      obtain ⟨rfl, rfl⟩ := h2
      exact ⟨x, h1⟩
  · rintro ⟨x, h⟩
    exact ⟨_, h, by simp⟩

theorem linksOf_ok {l : List (List Str × Node)} {cwd : List Str} (hl : (l.map (·.1)).Nodup) (hn : ∀ x ∈ l, ∀ n ∈ x.1, IsName n) : (linksOf l cwd).Ok where
  nodup a := by
    show (l.filterMap _).Nodup
    clear hn
    induction l with
    | nil => simp
    | cons y l ih =>
      simp only [List.map_cons, List.nodup_cons] at hl
      rw [List.filterMap_cons]
      split
      · exact ih hl.2
      · rename_i n hm
        refine List.nodup_cons.mpr ⟨fun hmem => hl.1 ?_, ih hl.2⟩
        obtain ⟨b, y⟩ := y
        cases b with
        | nil => cases hm
        | cons m b =>
          simp only [Option.ite_none_right_eq_some, Option.some.injEq] at hm
          obtain ⟨rfl, rfl⟩ := hm
          obtain ⟨x, hx⟩ := linksOf_entries (cwd := cwd).mp hmem
          exact List.mem_map.mpr ⟨_, hx, rfl⟩
  isName a n h := by
    obtain ⟨x, hx⟩ := linksOf_entries.mp h
    exact hn _ hx n (by simp)
  listed a n _ := by
    rw [linksOf_entries]
    constructor
    · rintro ⟨x, hx⟩
      exact ⟨hn _ hx n (by simp), lookup_isSome hx⟩
    · rintro ⟨_, h⟩
      obtain ⟨x, hx⟩ := Option.isSome_iff_exists.mp h
      exact ⟨x, lookup_mem hx⟩

theorem linksOf_finite {l : List (List Str × Node)} {cwd : List Str} : (linksOf l cwd).Finite := by
  obtain ⟨D, hD⟩ : ∃ D, ∀ x ∈ l, x.1.length ≤ D := by
    induction l with
    | nil => exact ⟨0, by simp⟩
    | cons y l ih =>
      obtain ⟨D, hD⟩ := ih
      refine ⟨max y.1.length D, fun x hx => ?_⟩
      rcases List.mem_cons.mp hx with rfl | hx
      · omega
      · have := hD x hx; omega
  refine ⟨D, fun a ha => ?_⟩
  obtain ⟨x, hx⟩ := Option.isSome_iff_exists.mp ha
  exact hD _ (lookup_mem hx)

def p : Str := "p".toList
def src : Str := "src".toList
def lib : Str := "lib".toList
def acpp : Str := "a.cpp".toList

/-! ## A directory with two names -/

/-- `/p/src/a.cpp` and a link from `/p/lib` to `src`. -/
def places : List (List Str × Node) :=
  [([], .dir), ([p], .dir), ([src, p], .dir), ([acpp, src, p], .file), ([lib, p], .link ⟨false, [src], false⟩)]

def twice : Tree.Links := linksOf places [p]

theorem twice_ok : twice.Ok := linksOf_ok (by decide +kernel) (by decide +kernel)

theorem twice_rooted : Rooted twice := by
  refine ⟨by decide +kernel, by decide +kernel, fun n a h => ?_⟩
  obtain ⟨x, hx⟩ := Option.isSome_iff_exists.mp h
  have hm : (n :: a, x) ∈ places := lookup_mem hx
  have key : ∀ y ∈ places, y.1 ≠ [] → twice.node y.1.tail = some .dir := by decide +kernel
  exact key _ hm (by simp)

def rank (a : List Str) : Nat := if a = [] ∨ a = [p] then 1 else 0

theorem twice_ranked : Ranked twice rank := by
  refine ⟨fun a => ?_, fun n a h => ?_, fun n a t h => ?_⟩
  · show rank a ≤ 40
    unfold rank
    split <;> omega
  · obtain ⟨x, hx⟩ := Option.isSome_iff_exists.mp h
    have hm : (n :: a, x) ∈ places := lookup_mem hx
    have key : ∀ y ∈ places, rank y.1 ≤ rank y.1.tail := by decide +kernel
    exact key _ hm
  · have hm : (n :: a, Node.link t) ∈ places := lookup_mem h
    have key : ∀ y ∈ places, (match y.2 with | .link _ => true | _ => false) = true → y = ([lib, p], .link ⟨false, [src], false⟩) := by decide +kernel
    have e := key _ hm rfl
    simp only [Prod.mk.injEq, List.cons.injEq, Node.link.injEq] at e
    obtain ⟨⟨rfl, rfl⟩, rfl⟩ := e
    have hr : twice.resolve 0 [p] [src] = .ok (0, [src, p]) := by rfl
    exact ⟨0, [src, p], ((C111_resolve _ _ _ _ _).mp hr).2, by decide +kernel⟩

theorem twice_whole : Whole twice := C111_whole twice_ok twice_ranked

def job : Job := { exampleJob with sourceDir := parse ['.'] }

theorem job_normal : IsNormal job.sourceDir := by
  have : job.sourceDir = ⟨false, [dot], false⟩ := by decide +kernel
  rw [this]
  exact .dot

def twiceWorld : World FileInfo := linkWorld job twice fun _ => []

def found : Scan FileInfo := drive twiceWorld 60 (Scan.init twiceWorld)

/-- Hypotheses of `C111_same` and `C111_disk`: both scans end, and give the same result. -/
example : ∃ files, takeResult found = some (.ok files) ∧
    ∀ n s r, Steps (job.world (linkDisk twice fun _ => 1)) n (Scan.init (job.world (linkDisk twice fun _ => 1))) s → takeResult s = some r → r = .ok files := by
  obtain ⟨n, hn⟩ := drive_steps twiceWorld 60 (Scan.init twiceWorld)
  have h : takeResult found = some (.ok found.shared.files) := by
    have hc : found.shared.counter = 0 := by decide +kernel
    have he : found.shared.errlog = [] := by decide +kernel
    simp [takeResult, hc, he]
  refine ⟨_, h, fun n' s r hs hr => ?_⟩
  exact ((C111_same twice_ok twice_rooted twice_whole job_normal (by decide +kernel) hn hs h hr).1 _).mp rfl

/-- The file has two names, and is to be compiled twice, to different targets. -/
theorem two_names : (found.shared.files.filter fun x => x.2.targets.any fun t => t.name.filename = "a.o".toList).map (fun x => (x.1.str, x.2.targets.map fun t => t.name.str)) =
    [("lib/a.cpp".toList, ["__t/lib/a.o".toList]), ("src/a.cpp".toList, ["__t/src/a.o".toList])] := by decide +kernel

/-! ## A directory that contains itself -/

def self : Str := "self".toList

/-- `/p/src/self` is a link to the directory it is in. -/
def loopPlaces : List (List Str × Node) := [([], .dir), ([p], .dir), ([src, p], .dir), ([self, src, p], .link ⟨false, [dot], false⟩)]

def loop : Tree.Links := linksOf loopPlaces [p]

theorem loop_ok : loop.Ok := linksOf_ok (by decide +kernel) (by decide +kernel)

def loopWorld : World FileInfo := linkWorld job loop fun _ => "Too many levels of symbolic links".toList

/-- `C111_ends` and `C111_cycle`: the scan can be completed, and it always fails. -/
theorem loop_fails : (∃ n s, Steps loopWorld n (Scan.init loopWorld) s ∧ takeResult s ≠ none) ∧
    ∀ n s, Steps loopWorld n (Scan.init loopWorld) s → takeResult s ≠ none → ∃ text, takeResult s = some (.error text) := by
  have hr : loopWorld.root ≠ Path.empty := by decide +kernel
  constructor
  · obtain ⟨m, t, h1, h2⟩ := (C111_ends loop_ok linksOf_finite linkWorld_sees hr).2 0 _ (.refl : Steps loopWorld 0 (Scan.init loopWorld) _)
    exact ⟨m, t, h1, h2⟩
  · intro n s hs hend
    have h0 : loopWorld.Enters loopWorld.root := ⟨.inl rfl, ⟨_, show loopWorld.load loopWorld.root = .ok _ from rfl⟩, by rfl⟩
    have h1 := World.Reached.entry .root h0 (n := src) (by decide +kernel)
    have hp : ∀ q : Path, q.filename ∈ [self, src] → loopWorld.Passes q := by
      intro q hq
      right
      refine ⟨.inl rfl, ?_, rfl⟩
      have key : ∀ x ∈ [self, src], ['_', '_'].isPrefixOf x = false := by decide +kernel
      exact key _ hq
    have hat : loop.At (loopWorld.root.normal / ⟨false, [src], false⟩).normal 0 [src, p] := by
      refine ⟨by decide +kernel, ?_⟩
      have e : steps (loopWorld.root.normal / ⟨false, [src], false⟩).normal = [src] := by decide +kernel
      have hroot : (loopWorld.root.normal / ⟨false, [src], false⟩).normal.root = false := by decide +kernel
      rw [e, hroot]
      exact ((C111_resolve 0 _ _ 0 _).mp (show loop.resolve 0 [p] [src] = .ok (0, [src, p]) by rfl)).2
    have hback : loop.Leads 1 [src, p] [self] [src, p] :=
      ((C111_resolve 1 _ _ 0 _).mp (show loop.resolve 1 [src, p] [self] = .ok (0, [src, p]) by rfl)).2
    exact C111_cycle loop_ok linkWorld_sees hr h1 (hp _ (by decide +kernel)) hat (ns := [self]) (by simp) (by decide +kernel)
      (fun q _ hq => hp q (by simp only [List.mem_singleton] at hq; simp [hq])) hback hs hend

/-! ## A link followed by `..` -/

def d : Str := "d".toList
def link : Str := "link".toList
def real : Str := "real".toList
def bcpp : Str := "b.cpp".toList

/-- `/p/link` leads to `/p/d/real`. There are `/p/d/src/b.cpp` and `/p/src/a.cpp`. -/
def upPlaces : List (List Str × Node) :=
  [([], .dir), ([p], .dir), ([d, p], .dir), ([real, d, p], .dir), ([link, p], .link ⟨false, [d, real], false⟩), ([src, d, p], .dir), ([bcpp, src, d, p], .file), ([src, p], .dir),
    ([acpp, src, p], .file)]

def up : Tree.Links := linksOf upPlaces [p]

def upJob : Job := { exampleJob with sourceDir := ⟨false, [link, dotdot, src], false⟩ }

def upWorld : World FileInfo := linkWorld upJob up fun _ => []

def upFound : Scan FileInfo := drive upWorld 60 (Scan.init upWorld)

/-- **C111, why the source directory is supposed to be in normal form.** `..` after a link is cancelled before the link is looked at, so `link/../src` is scanned as `src`, although
the system takes it to be another directory: `b.cpp` is in that directory, and `a.cpp` is found. -/
theorem C111_dotdot : (∃ k, up.lookup upJob.sourceDir = .ok (k, [src, d, p])) ∧ up.entries [src, d, p] = [bcpp] ∧
    ∃ files, takeResult upFound = some (.ok files) ∧ files.map (fun x => x.1.str) = ["src".toList, "src/a.cpp".toList] := by
  refine ⟨⟨39, rfl⟩, by decide +kernel, upFound.shared.files, ?_, by decide +kernel⟩
  have hc : upFound.shared.counter = 0 := by decide +kernel
  have he : upFound.shared.errlog = [] := by decide +kernel
  simp [takeResult, hc, he]

end LinksExample

end Maike.Main
