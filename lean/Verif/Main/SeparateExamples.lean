import Verif.Main.Separate
import Verif.Main.IncrementalExamples

/-!
# Example: two runs with different target directories (C117)

The project of `IncrementalExamples.lean`. One run makes `__t/a.o`, the other ones make `__u/a.o`.
-/

namespace Maike.Main.SeparateExample

open Fs Tree Paths
open Maike.Build (World Stat Fleet FAct)
open IncrementalExample (outside contents stats)
open RequestExample (fsOf fsOf_mem)

def dir (c : Char) : Path := parse ['_', '_', c]

def obj (c : Char) : Path := parse ['_', '_', c, '/', 'a', '.', 'o']

def dirs : List Path := RequestExample.dirs ++ [parse ['_', '_', 'u'], parse ['_', '_', 'u', '/']]

def kind (p : Path) : Bool := decide (p ∈ dirs)

def loading (c : Char) : Loading Nat := { IncrementalExample.loading with base := { IncrementalExample.loading.base with targetDir := dir c } }

def area (c : Char) (q : Path) : Bool := decide (q.names.head? = some ['_', '_', c])

/-- Adds up what it reads. -/
def tools : Tools Nat kind where
  make o c _ := if kind o.src = false then ((o.deps.filter fun x => !kind x.name && !Db.isExternal x.origin).map fun x => c x.name).sum + c o.src + 1 else 0
  pure := by
    intro o c c' p h
    have h1 : kind o.src = false → c o.src = c' o.src := fun hk => h _ ⟨hk, .inl rfl⟩
    have h2 : (o.deps.filter fun x => !kind x.name && !Db.isExternal x.origin).map (fun x => c x.name) =
        (o.deps.filter fun x => !kind x.name && !Db.isExternal x.origin).map (fun x => c' x.name) := by
      refine List.map_congr_left fun x hx => ?_
      obtain ⟨hx, hk⟩ := List.mem_filter.mp hx
      simp only [Bool.and_eq_true, Bool.not_eq_true'] at hk
      exact h _ ⟨hk.1, .inr ⟨x, hx, rfl, hk.2⟩⟩
    split
    · rename_i hk; rw [h1 hk, h2]
    · rfl

/-- The source file includes the header. -/
def w : World Path Nat := ⟨fsOf stats, 10, contents 3 7⟩

/-- All paths that there can be. -/
def paths : List Path := dirs ++ [parse ['a', '.', 'c', 'p', 'p'], parse ['b', '.', 'h'], obj 't', obj 'u']

def files (c : Char) : List (Path × FileInfo) := (scan ((loading c).job (w.view kind)) (diskOf w.fs paths) 60).shared.files

def memberOf (files : List (Path × FileInfo)) : Member Nat where
  w₀ := w
  names := (diskOf w.fs paths).names
  files := files
  tree := treeOf files
  tasks := (Db.taskListAll (treeOf files).graph).2
  workers := 1
  force := false

theorem selected (files : List (Path × FileInfo)) : Selected (memberOf files).tree (memberOf files).tasks := by
  unfold Selected memberOf; exact .inl rfl

theorem all (p : Path) (h : (w.fs p).isSome) : p ∈ paths := by
  obtain ⟨st, hst⟩ := Option.isSome_iff_exists.mp h
  have : ∀ x ∈ stats, x.1 ∈ paths := by decide +kernel
  exact this _ (fsOf_mem hst)

theorem past (p : Path) (st : Stat) (_ : kind p = false) (h : w.fs p = some st) : st.mtime < w.clock := by
  have : ∀ x ∈ stats, x.2.mtime < 10 := by decide +kernel
  exact this _ (fsOf_mem h)

theorem kinds (p : Path) (st : Stat) (h : w.fs p = some st) : st.dir = kind p := by
  have : ∀ x ∈ stats, x.2.dir = kind x.1 := by decide +kernel
  exact this _ (fsOf_mem h)

theorem disjoint {c : Char} (q : Path) (h : area c q = true) : outside q = false := by
  cases ho : outside q with
  | false => rfl
  | true =>
    have : ∀ q ∈ [parse ['c', 'c', '.', 'p', 'y'], parse ['m', 'k', 'd', 'i', 'r', '.', 'p', 'y']], q.names.head? ≠ some ['_', '_', c] := by
      have : ∀ q ∈ [parse ['c', 'c', '.', 'p', 'y'], parse ['m', 'k', 'd', 'i', 'r', '.', 'p', 'y']], (q.names.head?.bind List.head?) ≠ some '_' := by decide +kernel
      intro q hq e
      exact this q hq (by rw [e]; rfl)
    exact absurd (of_decide_eq_true h) (this q (by simpa [outside] using ho))

theorem opensT : Opens (loading 't') kind (area 't') outside w (diskOf w.fs paths).names (files 't') (treeOf (files 't')) :=
  opens_of 60 rfl all (by decide +kernel) (by decide +kernel) (by decide +kernel) (by decide +kernel) (by decide +kernel) (by decide +kernel)
    (by decide +kernel) (by decide +kernel) past kinds (by decide +kernel) (by decide +kernel) (by decide +kernel) (by decide +kernel)
    (by decide +kernel) (by decide +kernel) disjoint (by decide +kernel) (by decide +kernel)

theorem opensU : Opens (loading 'u') kind (area 'u') outside w (diskOf w.fs paths).names (files 'u') (treeOf (files 'u')) :=
  opens_of 60 rfl all (by decide +kernel) (by decide +kernel) (by decide +kernel) (by decide +kernel) (by decide +kernel) (by decide +kernel)
    (by decide +kernel) (by decide +kernel) past kinds (by decide +kernel) (by decide +kernel) (by decide +kernel) (by decide +kernel)
    (by decide +kernel) (by decide +kernel) disjoint (by decide +kernel) (by decide +kernel)

theorem noneT : ∀ y ∈ files 't', area 'u' y.1 = false := by decide +kernel

theorem madeU : ∀ y ∈ files 'u', ∀ t ∈ y.2.targets, ∀ z ∈ files 'u', t.name ≠ z.1 := by decide +kernel

attribute [irreducible] files

/-- The directory of run `i`. -/
def which : Nat → Char
  | 0 => 't'
  | _ => 'u'

def x (i : Nat) : Member Nat := memberOf (files (which i))

theorem joins : ∀ i, Joins (loading (which i)) kind (area (which i)) outside w (x i)
  | 0 => ⟨opensT, fun _ _ => rfl, selected _⟩
  | _ + 1 => ⟨opensU, fun _ _ => rfl, selected _⟩

theorem life : SharedLife (loading 't') kind (area 't') outside tools w := by
  refine .start (fun p hp _ => ?_) past kinds
  cases hf : w.fs p with
  | none => rfl
  | some st =>
    have : ∀ x ∈ stats, area 't' x.1 = false := by decide +kernel
    rw [this _ (fsOf_mem hf)] at hp; cases hp

theorem sourcesT (p : Path) (k : FileInfo) (hs : Scanned ((loading 't').job (w.view kind)) ⟨w.fs, (diskOf w.fs paths).names⟩ p k) : area 'u' p.normal = false :=
  noneT _ ((mem_files opensT.proper opensT.loads _ _).mpr ⟨p, hs, rfl⟩)

theorem targetsU (p : Path) (k : FileInfo) (hs : Scanned ((loading 'u').job (w.view kind)) ⟨w.fs, (diskOf w.fs paths).names⟩ p k) (t : TTarget) (ht : t ∈ k.targets) :
    Made ((loading 'u').job (w.view kind)) ⟨w.fs, (diskOf w.fs paths).names⟩ t :=
  fun q k' hq => madeU _ ((mem_files opensU.proper opensU.loads _ _).mpr ⟨p, hs, rfl⟩) t ht _ ((mem_files opensU.proper opensU.loads _ k').mpr ⟨q, hq, rfl⟩)

theorem divided : Divided (fun i => loading (which i)) kind (fun i => area (which i)) x 0 where
  areas
    | 0, hj, _, _ => absurd rfl hj
    | _ + 1, _, p, hp => by
      have hp : p.names.head? = some ['_', '_', 't'] := of_decide_eq_true hp
      simp [which, area, hp]
  sources
    | 0, hj => absurd rfl hj
    | _ + 1, _ => sourcesT
  made
    | 0, hj => absurd rfl hj
    | _ + 1, _ => targetsU

def builds (i : Nat) : Build.Build Path := (x i).build kind

def orders (i : Nat) : Nat → Order := orderOf (x i).files (x i).tree

def isWrite (p : Path) : Build.Act Path → Bool
  | .write _ q => decide (q = p)
  | _ => false

/-- What run 1 does: it makes its directory, and begins to write its target. -/
def first : List (FAct Path Nat) :=
  ((Build.auto (builds 1) 60 (Build.init (builds 1) w.fs w.clock)).takeWhile fun a => !isWrite (obj 'u') a).map (.act 1) ++ [.tear 1 0 (obj 'u') 99]

def middle : Option (Fleet Path Nat) := Fleet.exec tools.recipes builds orders first (.start builds w)

/-- Then run 0 does everything. -/
def acts : List (FAct Path Nat) :=
  first ++ ((middle.map fun F => Build.auto (builds 0) 60 (F.state 0)).getD []).map (.act 0)

def after : Option (Fleet Path Nat) := Fleet.exec tools.recipes builds orders acts (.start builds w)

theorem result : after.any (fun F => decide ((F.state 0).sched.pc = .returned 2) && decide (F.content (obj 't') = 11) && decide (F.content (obj 'u') = 99)) = true := by decide +kernel

theorem noTouch : ∀ a ∈ acts, (match a with | .act i (.touchDir _) => decide (i ≠ 0) | .tear i _ _ _ => decide (i = 0) | _ => false) = false := by decide +kernel

/-- The hypotheses of `C117_directories` are met, by runs that have loaded the same project with different target directories. Run 1 has been interrupted while it was writing `__u/a.o`; this does no harm to
`__t/a.o`, which contains the numbers in both files, and one. -/
theorem C117_example : ∃ F, after = some F ∧ F.content (obj 't') = 11 ∧ F.content (obj 'u') = 99 ∧ Build.Consistent tools.recipes (builds 0) (orders 0) F.content := by
  have h := result
  cases hF : after with
  | none => rw [hF] at h; cases h
  | some F =>
    rw [hF] at h
    simp only [Option.any_some, Bool.and_eq_true, decide_eq_true_eq] at h
    refine ⟨F, rfl, h.1.2, h.2, (C117_directories (L := fun i => loading (which i)) (area := fun i => area (which i)) (x := x) (as := acts) (n := 0) life joins divided (fun j p hj ha _ => ?_) (fun k p v ha => ?_) hF
      ⟨2, h.1.1⟩).1⟩
    · have := noTouch _ ha
      simp [hj] at this
    · have := noTouch _ ha
      simp at this

end Maike.Main.SeparateExample
