import Verif.Main.Incremental
import Verif.Main.RequestExamples

/-!
# Example: an incremental build

A project with a source file `a.cpp` and a header `b.h`. Contents are numbers: if the number in `a.cpp` is not zero, it includes `b.h`. After a first build, both files
are edited, and there is a second build. It gives the same result as a build of the edited files from scratch.
-/

namespace Maike.Main

open Fs Tree Paths
open Maike.Build (World FileSys Stat Performs)

/-! ## Checking hypotheses with lists -/

theorem parents_of {fs : FileSys Path} {l : List Path} (hall : ∀ p, (fs p).isSome → p ∈ l)
    (h : ∀ q ∈ l, (fs q).isSome → ∀ t : Bool, ∀ p ∈ [(⟨q.root, q.names.dropLast, t⟩ : Path), ⟨q.root, [dot], t⟩], p.normal = p → p ≠ Path.empty →
      (p / ⟨false, [q.filename], false⟩ : Path).normal = q → Build.isDir fs p = true) :
    ∀ p n, IsNormal p → p ≠ Path.empty → IsName n → (fs (p / ⟨false, [n], false⟩ : Path).normal).isSome → Build.isDir fs p = true := by
  intro p n hp hne hn hex
  have hq := hall _ hex
  have hf := filename_entry p hp hne n hn
  obtain ⟨h1, h2⟩ := normal_inside p hp hne [n] (by simpa using hn)
  refine h _ hq hex p.trailing p ?_ (normal_eq_self hp) hne (by rw [hf])
  rw [h1, h2]
  obtain ⟨r, ns, t⟩ := p
  simp only [inside]
  split
  · rename_i e; simp only [e.1]; simp
  · simp

/-- Everything at once. -/
theorem opens_of {V : Type} {L : Loading V} {kind area outside : Path → Bool} {w : World Path V} {l : List Path} (k : Nat)
    {files : List (Path × FileInfo)} (hfiles : files = (scan (L.job (w.view kind)) (diskOf w.fs l) k).shared.files)
    (hall : ∀ p, (w.fs p).isSome → p ∈ l) (hnodup : l.Nodup)
    (hslash : ∀ p ∈ l, p.names ≠ [] → (Path.normal { p with trailing := true } = { p with trailing := true }) →
      ((w.fs { p with trailing := true }).isSome ↔ Build.isDir w.fs { p with trailing := false } = true))
    (hc : (scan (L.job (w.view kind)) (diskOf w.fs l) k).shared.counter = 0) (he : (scan (L.job (w.view kind)) (diskOf w.fs l) k).shared.errlog = [])
    (hload : (Db.load (srcList files)).toOption.isSome = true) (hac : (Db.taskListAll (treeOf files).graph).1 = .ok)
    (hne : L.base.sourceDir ≠ Path.empty) (hroot : (w.fs L.base.sourceDir.normal).isSome)
    (hpast : ∀ p st, kind p = false → w.fs p = some st → st.mtime < w.clock) (hkinds : ∀ p st, w.fs p = some st → st.dir = kind p)
    (h1 : ∀ x ∈ files, kind x.1 = true → ∀ t ∈ x.2.targets, kind t.name = true)
    (h2 : ∀ x ∈ files, ∀ t ∈ x.2.targets, kind t.name = false → ∀ y ∈ files, t.name ≠ y.1)
    (h3 : ∀ x ∈ files, (∀ t ∈ x.2.targets, t.name ≠ Path.empty ∧ ∀ y ∈ t.useDeps, y.name ≠ Path.empty) ∧
      ∀ y ∈ x.2.useDeps ++ x.2.childTargetsUseDeps, y.name ≠ Path.empty)
    (h4 : ∀ x ∈ files, x.2.useTargetDeps = true → ∀ t ∈ x.2.targets, ∀ y ∈ files, t.name ≠ y.1)
    (h5 : ∀ x ∈ files, area x.1 = false ∧ outside x.1 = false)
    (h6 : ∀ x ∈ files, ∀ t ∈ x.2.targets, t.name ∉ files.map Prod.fst → area t.name = true)
    (h7 : ∀ q, area q = true → outside q = false)
    (h8 : ∀ x ∈ files, ∀ y ∈ x.2.useDeps ++ x.2.childTargetsUseDeps ++ x.2.targets.flatMap TTarget.useDeps,
      Db.isExternal y.origin = outside y.name ∧ (kind y.name = true → area y.name = false))
    (h9 : ∀ q ∈ l, (w.fs q).isSome → ∀ t : Bool, ∀ p ∈ [(⟨q.root, q.names.dropLast, t⟩ : Path), ⟨q.root, [dot], t⟩], p.normal = p → p ≠ Path.empty →
      (p / ⟨false, [q.filename], false⟩ : Path).normal = q → Build.isDir w.fs p = true) :
    Opens L kind area outside w (diskOf w.fs l).names files (treeOf files) := by
  have hl : Loads (L.job (w.view kind)) (diskOf w.fs l) files (treeOf files) := by
    rw [hfiles]; exact loads_of k hc he (treeOf_ok (by rw [← hfiles]; exact hload))
  have hp : Proper (L.job (w.view kind)) kind (diskOf w.fs l) w.clock :=
    proper_of (diskOf_ok hnodup hall (slash_of hall hslash)) hne hroot hpast hkinds hl h1 h2 h3
  have hm : ∀ p i, Scanned (L.job (w.view kind)) (diskOf w.fs l) p i → (p.normal, i) ∈ files := fun p i h => (mem_files hp hl _ _).mpr ⟨p, h, rfl⟩
  have hd : ∀ p i x, Scanned (L.job (w.view kind)) (diskOf w.fs l) p i → Declares i x →
      Db.isExternal x.origin = outside x.name ∧ (kind x.name = true → area x.name = false) := by
    intro p i x hs hx
    refine h8 _ (hm p i hs) x ?_
    simp only [List.mem_append, List.mem_flatMap]
    rcases hx with hx | hx | ⟨t, ht, hx⟩
    · exact .inl (.inl hx)
    · exact .inl (.inr hx)
    · exact .inr ⟨t, ht, hx⟩
  refine ⟨hp, ?_, ⟨fun p i hs => h5 _ (hm p i hs), ?_, h7, fun p i x hs hx => (hd p i x hs hx).1, fun p i x hs hx => (hd p i x hs hx).2, parents_of hall h9⟩, hl, hac⟩
  · intro p i hs hu t ht q k hq
    exact h4 _ (hm p i hs) hu t ht _ (hm q k hq)
  · intro p i hs t ht hmade
    refine h6 _ (hm p i hs) t ht fun h => ?_
    obtain ⟨⟨b, k⟩, hx, e⟩ := List.mem_map.mp h
    obtain ⟨q, hq, rfl⟩ := (mem_files hp hl _ _).mp hx
    exact hmade q k hq e.symm

/-- What a build leaves behind. -/
def after {V D : Type} (r : Build.Recipes Path V D) (b : Build.Build Path) (desc : Nat → D) (as : List (Build.Act Path)) (w : World Path V) : Build.State Path × World Path V :=
  match Build.execContents r b desc as (Build.init b w.fs w.clock) w.content with
  | some (s, c) => (s, ⟨s.fs, s.clock, c⟩)
  | none => (Build.init b w.fs w.clock, w)

theorem after_performs {V D : Type} {r : Build.Recipes Path V D} {b : Build.Build Path} {desc : Nat → D} {as : List (Build.Act Path)} {w : World Path V}
    (h : (Build.exec b as (Build.init b w.fs w.clock)).isSome = true) : Performs r b desc w (after r b desc as w).1 (after r b desc as w).2 := by
  have key : ∀ (as : List (Build.Act Path)) (s : Build.State Path) (c : Path → V), (Build.exec b as s).isSome = true →
      (Build.execContents r b desc as s c).isSome = true := by
    intro as
    induction as with
    | nil => intro s c _; rfl
    | cons a as ih =>
      intro s c h
      simp only [Build.exec] at h
      simp only [Build.execContents]
      cases hs : Build.step b a s with
      | none => rw [hs] at h; cases h
      | some s' => rw [hs] at h; exact ih _ _ h
  obtain ⟨⟨s, c⟩, hx⟩ := Option.isSome_iff_exists.mp (key _ _ w.content h)
  exact ⟨as, by simp only [after, hx], by simp only [after, hx], by simp only [after, hx]⟩

namespace IncrementalExample

open RequestExample (fsOf fsOf_mem)

/-- The source file: `v` is what it contains. -/
def cpp (v : Nat) : Source where
  default := { recipe := "cc.py", origin := some .system }
  useTargetDeps := false
  found := some (if v = 0 then [] else [⟨parse ['b', '.', 'h'], .project, []⟩])
  tags := some [("target", .obj [("name", .str "a.o")])]

def header : Source where
  default := { recipe := "cc.py", origin := some .system }
  useTargetDeps := false
  found := some []
  tags := some []

def loading : Loading Nat where
  base := { RequestExample.job with loader := fun _ => none }
  read e := if e = ['.', 'c', 'p', 'p'] then some fun _ v => cpp v
    else if e = ['.', 'h'] then some fun _ _ => header
    else none
  tags _ _ _ := none

def kind : Path → Bool := RequestExample.kind

def area (q : Path) : Bool := decide (q.names.head? = some ['_', '_', 't'])

def outside (q : Path) : Bool := decide (q ∈ [parse ['c', 'c', '.', 'p', 'y'], parse ['m', 'k', 'd', 'i', 'r', '.', 'p', 'y']])

/-- Adds up what it reads. -/
def tools : Tools Nat kind where
  make o c _ := if kind o.src = false then ((o.deps.filter fun x => !kind x.name && !Db.isExternal x.origin).map fun x => c x.name).sum + c o.src + 1 else 0
  pure := by
    intro o c c' p h
    have h1 : kind o.src = false → c o.src = c' o.src := fun hk => h _ ⟨hk, .inl rfl⟩
    have h2 : (o.deps.filter fun x => !kind x.name && !Db.isExternal x.origin).map (fun x => c x.name) =
        (o.deps.filter fun x => !kind x.name && !Db.isExternal x.origin).map (fun x => c' x.name) := by
      refine List.map_congr_left fun x hx => ?_
      obtain ⟨hx, hk⟩ := List.mem_filter.mp hx
      simp only [Bool.and_eq_true, Bool.not_eq_true'] at hk
      exact h _ ⟨hk.1, .inr ⟨x, hx, rfl, hk.2⟩⟩
    split
    · rename_i hk; rw [h1 hk, h2]
    · rfl

def stats : List (Path × Stat) :=
  [(parse ['.'], ⟨1, true⟩), (parse ['a', '.', 'c', 'p', 'p'], ⟨2, false⟩), (parse ['b', '.', 'h'], ⟨3, false⟩)]

def contents (a b : Nat) (p : Path) : Nat :=
  if p = parse ['a', '.', 'c', 'p', 'p'] then a else if p = parse ['b', '.', 'h'] then b else 0

/-- Source files only. -/
def fresh (a b : Nat) : World Path Nat := ⟨fsOf stats, 10, contents a b⟩

/-- All paths that there can be. -/
def paths : List Path := RequestExample.dirs ++ [parse ['a', '.', 'c', 'p', 'p'], parse ['b', '.', 'h'], parse ['_', '_', 't', '/', 'a', '.', 'o']]

def filesOf (w : World Path Nat) : List (Path × FileInfo) := (scan (loading.job (w.view kind)) (diskOf w.fs paths) 60).shared.files

def buildOf (w : World Path Nat) : Build.Build Path :=
  Build.ofGraph (treeOf (filesOf w)).graph (Db.taskListAll (treeOf (filesOf w)).graph).2 1 false kind true

/-- A schedule; the directory that is made is known by two names. -/
def actsOf (w : World Path Nat) : List (Build.Act Path) :=
  Build.auto (buildOf w) 60 (Build.init (buildOf w) w.fs w.clock) ++ [.touchDir (parse ['_', '_', 't'])]

def built (w : World Path Nat) : Build.State Path × World Path Nat := after tools.recipes (buildOf w) (orderOf (filesOf w) (treeOf (filesOf w))) (actsOf w) w

theorem fresh_all (a b : Nat) (p : Path) (h : ((fresh a b).fs p).isSome) : p ∈ paths := by
  obtain ⟨st, hst⟩ := Option.isSome_iff_exists.mp h
  have : ∀ x ∈ stats, x.1 ∈ paths := by decide +kernel
  exact this _ (fsOf_mem hst)

theorem fresh_past (a b : Nat) (p : Path) (st : Stat) (_ : kind p = false) (h : (fresh a b).fs p = some st) : st.mtime < (fresh a b).clock := by
  have : ∀ x ∈ stats, x.2.mtime < 10 := by decide +kernel
  exact this _ (fsOf_mem h)

theorem fresh_kinds (a b : Nat) (p : Path) (st : Stat) (h : (fresh a b).fs p = some st) : st.dir = kind p := by
  have : ∀ x ∈ stats, x.2.dir = kind x.1 := by decide +kernel
  exact this _ (fsOf_mem h)

theorem disjoint (q : Path) (h : area q = true) : outside q = false := by
  cases ho : outside q with
  | false => rfl
  | true =>
    have : ∀ q ∈ [parse ['c', 'c', '.', 'p', 'y'], parse ['m', 'k', 'd', 'i', 'r', '.', 'p', 'y']], area q = false := by decide +kernel
    rw [this q (by simpa [outside] using ho)] at h; cases h

theorem life_fresh (a b : Nat) : Life loading kind area outside tools (fresh a b) := by
  refine .start (fun p hp _ => ?_) (fresh_past a b) (fresh_kinds a b)
  cases hf : (fresh a b).fs p with
  | none => rfl
  | some st =>
    have : ∀ x ∈ stats, area x.1 = false := by decide +kernel
    rw [this _ (fsOf_mem hf)] at hp; cases hp

/-- The first build: the source file does not include the header. -/
def w₁ : World Path Nat := fresh 0 5

theorem opens₁ : Opens loading kind area outside w₁ (diskOf w₁.fs paths).names (filesOf w₁) (treeOf (filesOf w₁)) :=
  opens_of 60 rfl (fresh_all 0 5) (by decide +kernel) (by decide +kernel) (by decide +kernel) (by decide +kernel) (by decide +kernel) (by decide +kernel)
    (by decide +kernel) (by decide +kernel) (fresh_past 0 5) (fresh_kinds 0 5) (by decide +kernel) (by decide +kernel) (by decide +kernel) (by decide +kernel)
    (by decide +kernel) (by decide +kernel) disjoint (by decide +kernel) (by decide +kernel)

theorem performs₁ : Performs tools.recipes (buildOf w₁) (orderOf (filesOf w₁) (treeOf (filesOf w₁))) w₁ (built w₁).1 (built w₁).2 :=
  after_performs (by decide +kernel)

/-- Both files are edited. -/
def w₂ : World Path Nat := ((built w₁).2.edit (parse ['a', '.', 'c', 'p', 'p']) 3).edit (parse ['b', '.', 'h']) 7

theorem life₂ : Life loading kind area outside tools w₂ :=
  .edit (.edit (.build (life_fresh 0 5) opens₁ (fun _ _ => rfl) (.inl rfl) performs₁) (by decide +kernel) (by decide +kernel)) (by decide +kernel) (by decide +kernel)

/-- Where files are after a build. -/
theorem built_all {w : World Path Nat} (ho : Opens loading kind area outside w (diskOf w.fs paths).names (filesOf w) (treeOf (filesOf w)))
    (hw : ∀ p, (w.fs p).isSome → p ∈ paths) (hp : Performs tools.recipes (buildOf w) (orderOf (filesOf w) (treeOf (filesOf w))) w (built w).1 (built w).2)
    (ht : ∀ x ∈ filesOf w, ∀ t ∈ x.2.targets, t.name ∈ paths) : ∀ p, ((built w).2.fs p).isSome → p ∈ paths := by
  obtain ⟨as, hx, hfs, _⟩ := hp
  rw [hfs]
  refine all_of_run (force := false) ho.proper ⟨ho.loads, ho.acyclic, as, Build.execContents_exec hx⟩ hw (fun p hk => ?_) ht
  have : p ∈ RequestExample.dirs := by simpa [kind, RequestExample.kind] using hk
  exact List.mem_append_left _ this

theorem all₂ : ∀ p, (w₂.fs p).isSome → p ∈ paths := by
  intro p h
  by_cases h1 : p = parse ['b', '.', 'h']
  · rw [h1]; decide +kernel
  · by_cases h2 : p = parse ['a', '.', 'c', 'p', 'p']
    · rw [h2]; decide +kernel
    · simp only [w₂, World.edit, Build.update_ne _ _ h1, Build.update_ne _ _ h2] at h
      exact built_all opens₁ (fresh_all 0 5) performs₁ (by decide +kernel) p h

theorem kept₂ : Build.Kept (project loading kind area outside tools) w₂ := Build.past_kept (life_past life₂)

theorem opens₂ : Opens loading kind area outside w₂ (diskOf w₂.fs paths).names (filesOf w₂) (treeOf (filesOf w₂)) :=
  opens_of 60 rfl all₂ (by decide +kernel) (by decide +kernel) (by decide +kernel) (by decide +kernel) (by decide +kernel) (by decide +kernel)
    (by decide +kernel) (by decide +kernel) kept₂.past kept₂.kinds (by decide +kernel) (by decide +kernel) (by decide +kernel) (by decide +kernel)
    (by decide +kernel) (by decide +kernel) disjoint (by decide +kernel) (by decide +kernel)

theorem performs₂ : Performs tools.recipes (buildOf w₂) (orderOf (filesOf w₂) (treeOf (filesOf w₂))) w₂ (built w₂).1 (built w₂).2 :=
  after_performs (by decide +kernel)

/-- The edited files, without any targets. -/
def w₃ : World Path Nat := fresh 3 7

theorem opens₃ : Opens loading kind area outside w₃ (diskOf w₃.fs paths).names (filesOf w₃) (treeOf (filesOf w₃)) :=
  opens_of 60 rfl (fresh_all 3 7) (by decide +kernel) (by decide +kernel) (by decide +kernel) (by decide +kernel) (by decide +kernel) (by decide +kernel)
    (by decide +kernel) (by decide +kernel) (fresh_past 3 7) (fresh_kinds 3 7) (by decide +kernel) (by decide +kernel) (by decide +kernel) (by decide +kernel)
    (by decide +kernel) (by decide +kernel) disjoint (by decide +kernel) (by decide +kernel)

theorem performs₃ : Performs tools.recipes (buildOf w₃) (orderOf (filesOf w₃) (treeOf (filesOf w₃))) w₃ (built w₃).1 (built w₃).2 :=
  after_performs (by decide +kernel)

/-- The source files are the same. -/
theorem same (q : Path) (h : area q = false) : w₂.view kind q = w₃.view kind q := by
  by_cases hq : q ∈ paths
  · have : ∀ q ∈ paths, area q = false → w₂.view kind q = w₃.view kind q := by decide +kernel
    exact this q hq h
  · have e1 : w₂.fs q = none := by
      cases hf : w₂.fs q with
      | none => rfl
      | some _ => exact absurd (all₂ q (by rw [hf]; rfl)) hq
    have e2 : w₃.fs q = none := by
      cases hf : w₃.fs q with
      | none => rfl
      | some _ => exact absurd (fresh_all 3 7 q (by change (w₃.fs q).isSome = true; rw [hf]; rfl)) hq
    simp [World.view, e1, e2]

/-- The source file, as the scan finds it. -/
theorem scanned : ∃ p i, Scanned (loading.job (w₂.view kind)) ⟨w₂.fs, (diskOf w₂.fs paths).names⟩ p i ∧ p.normal = parse ['a', '.', 'c', 'p', 'p'] ∧
    ∃ t ∈ i.targets, t.name = parse ['_', '_', 't', '/', 'a', '.', 'o'] := by
  have h : ∃ x ∈ filesOf w₂, x.1 = parse ['a', '.', 'c', 'p', 'p'] ∧ ∃ t ∈ x.2.targets, t.name = parse ['_', '_', 't', '/', 'a', '.', 'o'] := by decide +kernel
  obtain ⟨⟨k, i⟩, hx, h1, h2⟩ := h
  obtain ⟨p, hs, e⟩ := (mem_files opens₂.proper opens₂.loads _ _).mp hx
  exact ⟨p, i, hs, e.symm.trans h1, h2⟩

/-- The hypotheses of `C85_as_from_scratch` are met. -/
example : (built w₂).2.content (parse ['_', '_', 't', '/', 'a', '.', 'o']) = (built w₃).2.content (parse ['_', '_', 't', '/', 'a', '.', 'o']) := by
  obtain ⟨p, i, hs, _, t, ht, e⟩ := scanned
  have := (C85_as_from_scratch life₂ opens₂ (fun _ _ => rfl) performs₂ ⟨2, by decide +kernel⟩ (life_fresh 3 7) opens₃ (fun _ _ => rfl) performs₃ ⟨2, by decide +kernel⟩ same hs ht
    (by rw [e]; decide +kernel)).2.2
  rw [e] at this
  exact this

/-- What the target contains: first the number in `a.cpp`, then the numbers in both files, and one. -/
example : (built w₁).2.content (parse ['_', '_', 't', '/', 'a', '.', 'o']) = 1 ∧ (built w₂).2.content (parse ['_', '_', 't', '/', 'a', '.', 'o']) = 11 := by decide +kernel

/-! ## Files with old time stamps -/

/-- After the first build, `a.cpp` is replaced, by a file that has the same time stamp. -/
def w₄ : World Path Nat := { (built w₁).2 with content := Build.update (built w₁).2.content (parse ['a', '.', 'c', 'p', 'p']) 3 }

theorem life₁' : Life loading kind area outside tools (built w₁).2 := .build (life_fresh 0 5) opens₁ (fun _ _ => rfl) (.inl rfl) performs₁

theorem kept₁' : Build.Kept (project loading kind area outside tools) (built w₁).2 := Build.past_kept (life_past life₁')

theorem all₄ : ∀ p, (w₄.fs p).isSome → p ∈ paths := by
  unfold w₄
  dsimp only
  exact built_all opens₁ (fresh_all 0 5) performs₁ (by decide +kernel)

theorem past₄ : ∀ p st, kind p = false → w₄.fs p = some st → st.mtime < w₄.clock := by
  unfold w₄
  dsimp only
  exact kept₁'.past

theorem kinds₄ : ∀ p st, w₄.fs p = some st → st.dir = kind p := by
  unfold w₄
  dsimp only
  exact kept₁'.kinds

theorem opens₄ : Opens loading kind area outside w₄ (diskOf w₄.fs paths).names (filesOf w₄) (treeOf (filesOf w₄)) :=
  opens_of 60 rfl all₄ (by decide +kernel) (by decide +kernel) (by decide +kernel) (by decide +kernel)
    (by decide +kernel) (by decide +kernel) (by decide +kernel) (by decide +kernel) past₄ kinds₄ (by decide +kernel) (by decide +kernel) (by decide +kernel)
    (by decide +kernel) (by decide +kernel) (by decide +kernel) disjoint (by decide +kernel) (by decide +kernel)

/-- **C85.** Time stamps of edited files have to be new: if a file is replaced by a different one with an old time stamp, the next build may succeed without making its target again. -/
theorem C85_old_time_stamp : ∃ (w : World Path Nat) (c : Path → Nat) (names : Path → List Str × Option Str) (files : List (Path × FileInfo)) (tree : Db.SourceTree Path)
    (s : Build.State Path) (w' : World Path Nat) (u : Nat) (p : Path), Life loading kind area outside tools w ∧ (∀ q, area q = true → c q = w.content q) ∧
    Opens loading kind area outside { w with content := c } names files tree ∧
    Performs tools.recipes (Build.ofGraph tree.graph (Db.taskListAll tree.graph).2 1 false kind true) (orderOf files tree) { w with content := c } s w' ∧ s.Succeeded ∧
    u ∈ (Db.taskListAll tree.graph).2 ∧ p ∈ (orderOf files tree u).targets ∧ kind p = false ∧ w'.content p ≠ tools.make (orderOf files tree u) w'.content p := by
  refine ⟨(built w₁).2, _, _, _, _, (built w₄).1, (built w₄).2, 3, parse ['_', '_', 't', '/', 'a', '.', 'o'], life₁', ?_, opens₄, after_performs (by decide +kernel), ⟨2, by decide +kernel⟩,
    by decide +kernel, by decide +kernel, by decide +kernel, by decide +kernel⟩
  intro q hq
  refine Build.update_ne _ _ ?_
  rintro rfl
  exact absurd hq (by decide +kernel)

end IncrementalExample

end Maike.Main
