import Verif.Main.Histories
import Verif.Main.IncrementalExamples
import Verif.Main.SerialExamples
import Verif.Build.HistoriesExamples

/-!
# Example: a build in which the compiler fails, an edit, and another build (C95)

The project of `CompiledExamples.lean`. In the first build, the compiler writes something and fails. What it has written is removed, `a.c` is edited, and there is another build. It gives the same result
as a build of the edited file from scratch.
-/

namespace Maike.Main.HistoryExample

open Fs Tree Paths
open Maike.Build (World FileSys Stat CState XState xinit xexec xtrace PAct leave)
open CompiledExample ProcessesExample
open RequestExample (fsOf fsOf_mem)
open SerialExample (aC eff known_of make)

def loading : Loading Nat where
  base := { job with loader := fun _ => none }
  read e := if e = [] then none else some fun p _ => sourceOf p
  tags _ _ _ := none

def area (q : Path) : Bool := decide (q.names.head? = some ['_', '_', 't'])

def outside (q : Path) : Bool := decide (q ∈ [parse "cxx_compiler.py".toList, parse ['m', 'k', 'd', 'i', 'r', '.', 'p', 'y']])

theorem disjoint (q : Path) (h : area q = true) : outside q = false := by
  cases ho : outside q with
  | false => rfl
  | true =>
    have : ∀ q ∈ [parse "cxx_compiler.py".toList, parse ['m', 'k', 'd', 'i', 'r', '.', 'p', 'y']], area q = false := by decide +kernel
    rw [this q (by simpa [outside] using ho)] at h; cases h

/-- What the compiler computes. -/
def recipes : Tools Nat kind where
  make o c _ := if kind o.src = false then c o.src + 1 else 0
  pure := by
    intro o c c' p h
    split
    · rename_i hk; rw [h _ ⟨hk, .inl rfl⟩]
    · rfl

/-- Source files only. -/
def fresh (v : Nat) : World Path Nat := ⟨fsOf stats, 10, fun p => if p = aC then v else 0⟩

/-- All paths that there can be. -/
def paths : List Path := dirs ++ [aC, parse ['p', 'r', 'e', '.', 'h'], aObj]

def filesOf (w : World Path Nat) : List (Path × FileInfo) := (scan (loading.job (w.view kind)) (diskOf w.fs paths) 80).shared.files

def treeOf' (w : World Path Nat) : Db.SourceTree Path := treeOf (filesOf w)

def buildOf (w : World Path Nat) : Build.Build Path :=
  Build.ofGraph (treeOf' w).graph (Db.taskListAll (treeOf' w).graph).2 1 false kind true

def scripts (w : World Path Nat) : Nat → Recipes.Script := scriptOf recipe (filesOf w) (treeOf' w) info .plainText

def run (w : World Path Nat) (as : List (PAct Path × Nat)) : Option (XState Path Nat) :=
  let x := xinit (buildOf w) w.fs w.clock w.content
  xexec (buildOf w) tools (scripts w) SerialExample.reads make (fun _ => []) (fun _ _ => 0)
    (xtrace (buildOf w) tools (scripts w) SerialExample.reads make (fun _ => []) (fun _ _ => 0) 0 as 60 x) x

/-- What is there after a build. -/
def built (w : World Path Nat) (as : List (PAct Path × Nat)) : World Path Nat :=
  match run w as with
  | some x => leave (buildOf w) x.base.base x.content
  | none => w

/-- The compiler does what `recipes` says. -/
theorem makes {files : List (Path × FileInfo)} {tree : Db.SourceTree Path} (hlike : Like files tree) {w : World Path Nat} {names : Path → List Str × Option Str}
    (ho : Opens loading kind area outside w names files tree) : Makes recipes eff recipe info .plainText files tree (Db.taskListAll tree.graph).2 := by
  intro u hu exe opts hc c c' hm p hp hk
  obtain ⟨a, i, hs, hpu, hi⟩ := task_file ho (.inl rfl) hu
  obtain ⟨h1, _, _, h4, _⟩ := order_facts ho (.inl rfl) hs hpu hu
  rcases hlike.tasks _ hu with rfl | rfl
  · have : ∀ t ∈ i.targets, kind t.name = true := by
      refine ho.proper.dirs a i hs ?_
      obtain ⟨si, hsi⟩ := hpu
      have := hlike.directory
      rw [hsi] at this
      simp only [Option.map_some, Option.some.injEq] at this
      exact this
    rw [h4] at hp
    obtain ⟨t, ht, rfl⟩ := List.mem_map.mp hp
    rw [this t ht] at hk; cases hk
  · obtain ⟨h1', ha, src, target, h2, h3, h4', h6, n1, n2⟩ := hlike.ofCompiler hc
    rw [h1'] at hm
    have hl : ∀ as, Recipes.compileCommand Recipes.CompileExample.env opts = some as → eff.Looks (fun _ => True) [target] ∧
        eff.Looks (fun _ => True) (["clang-tidy", src, "--", "-Wno-unknown-warning-option"] ++ as) := by
      intro as ha'
      rw [ha] at ha'
      cases ha'
      exact ⟨⟨by simp [Build.Tools.Harmless, tools, n1], fun _ _ => trivial⟩, ⟨by simp only [Build.Tools.Harmless, tools, n2, if_false], fun _ _ => trivial⟩⟩
    obtain ⟨as, d, ha', hr, _, rfl⟩ := Build.makes_compiler h2 h3 h4' hl hm
    rw [ha] at ha'
    cases ha'
    have hsrc : a.normal = aC := by
      obtain ⟨si, hsi⟩ := hpu
      have := hlike.source
      rw [hsi] at this
      simpa [aC] using this
    have hp' : p = aObj := by
      rw [h4] at hp
      obtain ⟨t, ht, rfl⟩ := List.mem_map.mp hp
      exact hlike.only _ ((mem_files ho.proper ho.loads _ _).mpr ⟨a, hs, rfl⟩) hsrc t ht
    have hka : kind aC = false := by decide +kernel
    have := hr rfl p (by rw [hp']; simp [tools])
    rw [this]
    simp only [recipes, h1, hsrc, hka, if_true, SerialExample.reads, make, List.map_cons, List.map_nil, List.sum_cons, List.sum_nil, Nat.add_zero]

abbrev Opened (w : World Path Nat) : Prop := Opens loading kind area outside w (diskOf w.fs paths).names (filesOf w) (treeOf' w)

/-- A build of everything. -/
abbrev Built (w : World Path Nat) (s : CState Path Nat) (w' : World Path Nat) : Prop :=
  Executes loading kind area outside recipes eff recipe w w (diskOf w.fs paths).names (filesOf w) (treeOf' w) (Db.taskListAll (treeOf' w).graph).2 1 false info .plainText s w'

theorem built_of {w : World Path Nat} (ho : Opened w) (hlike : Like (filesOf w) (treeOf' w)) {as : List (PAct Path × Nat)} {x : XState Path Nat} (h : run w as = some x) :
    (∃ s, Built w s (leave (buildOf w) x.base.base x.content) ∧ s.base = x.base) ∧ ∃ as', Build.exec (buildOf w) as' (Build.init (buildOf w) w.fs w.clock) = some x.base.base := by
  obtain ⟨s, h1, h2, h3⟩ := Build.xexec_cexec h
  have hu := uses_of hlike ho.proper ho.loads ho.made
  have hk := known_of hlike ho.proper ho.loads ho.made
  have hkn := (run_known (force := false) ho.proper ho.loads ho.acyclic hu hk 1).1
  have hsane : (buildOf w).Sane := (project loading kind area outside recipes).sane ⟨w, _, _, _, _, 1, false, ho, fun _ _ => rfl, .inl rfl, rfl, rfl⟩
  refine ⟨⟨s, ⟨ho, fun _ _ => rfl, .inl rfl, hu, hk, makes hlike ho, ⟨_, h1⟩, ?_⟩, h2⟩, ?_⟩
  · rw [← h2, ← h3]
    exact Build.leave_leaves hsane rfl hkn ⟨ho.proper.past, ho.proper.kinds⟩ h1
  · rw [← h2]
    exact Build.C88_refines (buildOf w) tools (scripts w) hsane.topological hkn.promise ho.proper.kinds (Build.cexec_pexec h1)

theorem fresh_all (v : Nat) (p : Path) (h : ((fresh v).fs p).isSome) : p ∈ paths := by
  obtain ⟨st, hst⟩ := Option.isSome_iff_exists.mp h
  have : ∀ x ∈ stats, x.1 ∈ paths := by decide +kernel
  exact this _ (fsOf_mem hst)

theorem fresh_past (v : Nat) (p : Path) (st : Stat) (_ : kind p = false) (h : (fresh v).fs p = some st) : st.mtime < (fresh v).clock := by
  have : ∀ x ∈ stats, x.2.mtime < 10 := by decide +kernel
  exact this _ (fsOf_mem h)

theorem fresh_kinds (v : Nat) (p : Path) (st : Stat) (h : (fresh v).fs p = some st) : st.dir = kind p := by
  have : ∀ x ∈ stats, x.2.dir = kind x.1 := by decide +kernel
  exact this _ (fsOf_mem h)

theorem life_fresh (v : Nat) : RealLife loading kind area outside recipes eff recipe (fresh v) := by
  refine .start (fun p hp _ => ?_) (fresh_past v) (fresh_kinds v)
  cases hf : (fresh v).fs p with
  | none => rfl
  | some st =>
    have : ∀ x ∈ stats, area x.1 = false := by decide +kernel
    rw [this _ (fsOf_mem hf)] at hp; cases hp

/-! ## The first build -/

def w₁ : World Path Nat := fresh 41

theorem opens₁ : Opened w₁ :=
  opens_of 80 rfl (fresh_all 41) (by decide +kernel) (by decide +kernel) (by decide +kernel) (by decide +kernel) (by decide +kernel) (by decide +kernel)
    (by decide +kernel) (by decide +kernel) (fresh_past 41) (fresh_kinds 41) (by decide +kernel) (by decide +kernel) (by decide +kernel) (by decide +kernel)
    (by decide +kernel) (by decide +kernel) disjoint (by decide +kernel) (by decide +kernel)

theorem like₁ : Like (filesOf w₁) (treeOf' w₁) :=
  ⟨by decide +kernel, by decide +kernel, by decide +kernel, by decide +kernel, by decide +kernel, by decide +kernel, by decide +kernel, by decide +kernel, by decide +kernel, by decide +kernel⟩

/-- The compiler writes something and fails. -/
def fails : List (PAct Path × Nat) :=
  List.map (fun a : PAct Path => (a, 99)) ([.sched .main, .sched .main, .sched .main, .sched .take, .check 0, .mkdir 0 .made, .sched (.work 0 .success), .sched (.work 0 .success), .sched (.work 0 .success)] ++
    List.replicate 6 (.sched .main) ++ [.sched .take, .check 0, .output 0 aObj, .ended 0 (some 1), .sched (.work 0 .failure)])

/-- What the compiler has written is not there any more. -/
example : (run w₁ fails).map (fun x => (x.base.base.fs aObj).isSome) = some true ∧ (built w₁ fails).fs aObj = none := by decide +kernel

/-- The directory is known by two names, and `a.c` is edited. -/
def w₂ : World Path Nat := ((built w₁ fails).mkdir (parse ['_', '_', 't'])).edit aC 7

theorem life₂ : RealLife loading kind area outside recipes eff recipe w₂ := by
  refine .edit (.mkdir ?_ (by decide +kernel)) (by decide +kernel) (by decide +kernel)
  unfold built
  split
  · rename_i x hx
    obtain ⟨⟨s, h, _⟩, _⟩ := built_of opens₁ like₁ hx
    exact .build (life_fresh 41) h
  · exact life_fresh 41

theorem kept₂ : Build.Kept (project loading kind area outside recipes) w₂ := Build.realPast_kept (realLife_past life₂)

/-! ## The second build -/

theorem dirs_paths (p : Path) (hk : kind p = true) : p ∈ paths :=
  List.mem_append_left _ (of_decide_eq_true hk)

theorem all₂ : ∀ p, (w₂.fs p).isSome → p ∈ paths := by
  intro p h
  by_cases h1 : p = aC
  · rw [h1]; decide +kernel
  · by_cases h2 : p = parse ['_', '_', 't']
    · rw [h2]; decide +kernel
    · simp only [w₂, World.edit, World.mkdir, Build.update_ne _ _ h1, Build.update_ne _ _ h2] at h
      unfold built at h
      split at h
      · rename_i x hx
        obtain ⟨_, as', hx'⟩ := built_of opens₁ like₁ hx
        refine all_of_run (force := false) opens₁.proper ⟨opens₁.loads, opens₁.acyclic, as', hx'⟩ (fresh_all 41) dirs_paths (by decide +kernel) p ?_
        simp only [leave] at h
        split at h
        · cases h
        · exact h
      · exact fresh_all 41 p h

theorem opens₂ : Opened w₂ :=
  opens_of 80 rfl all₂ (by decide +kernel) (by decide +kernel) (by decide +kernel) (by decide +kernel) (by decide +kernel) (by decide +kernel)
    (by decide +kernel) (by decide +kernel) kept₂.past kept₂.kinds (by decide +kernel) (by decide +kernel) (by decide +kernel) (by decide +kernel)
    (by decide +kernel) (by decide +kernel) disjoint (by decide +kernel) (by decide +kernel)

theorem like₂ : Like (filesOf w₂) (treeOf' w₂) :=
  ⟨by decide +kernel, by decide +kernel, by decide +kernel, by decide +kernel, by decide +kernel, by decide +kernel, by decide +kernel, by decide +kernel, by decide +kernel, by decide +kernel⟩

/-! ## The build from scratch -/

/-- The edited file, without any targets. -/
def w₃ : World Path Nat := fresh 7

theorem opens₃ : Opened w₃ :=
  opens_of 80 rfl (fresh_all 7) (by decide +kernel) (by decide +kernel) (by decide +kernel) (by decide +kernel) (by decide +kernel) (by decide +kernel)
    (by decide +kernel) (by decide +kernel) (fresh_past 7) (fresh_kinds 7) (by decide +kernel) (by decide +kernel) (by decide +kernel) (by decide +kernel)
    (by decide +kernel) (by decide +kernel) disjoint (by decide +kernel) (by decide +kernel)

theorem like₃ : Like (filesOf w₃) (treeOf' w₃) :=
  ⟨by decide +kernel, by decide +kernel, by decide +kernel, by decide +kernel, by decide +kernel, by decide +kernel, by decide +kernel, by decide +kernel, by decide +kernel, by decide +kernel⟩

theorem same (q : Path) (h : area q = false) : w₂.view kind q = w₃.view kind q := by
  by_cases hq : q ∈ paths
  · have : ∀ q ∈ paths, area q = false → w₂.view kind q = w₃.view kind q := by decide +kernel
    exact this q hq h
  · have e1 : w₂.fs q = none := by
      cases hf : w₂.fs q with
      | none => rfl
      | some _ => exact absurd (all₂ q (by rw [hf]; rfl)) hq
    have e2 : w₃.fs q = none := by
      cases hf : w₃.fs q with
      | none => rfl
      | some _ => exact absurd (fresh_all 7 q (by change (w₃.fs q).isSome = true; rw [hf]; rfl)) hq
    simp [World.view, e1, e2]

theorem scanned : ∃ p i, Scanned (loading.job (w₂.view kind)) ⟨w₂.fs, (diskOf w₂.fs paths).names⟩ p i ∧ p.normal = aC ∧ ∃ t ∈ i.targets, t.name = aObj := by
  have h : ∃ x ∈ filesOf w₂, x.1 = aC ∧ ∃ t ∈ x.2.targets, t.name = aObj := by decide +kernel
  obtain ⟨⟨k, i⟩, hx, h1, h2⟩ := h
  obtain ⟨p, hs, e⟩ := (mem_files opens₂.proper opens₂.loads _ _).mp hx
  exact ⟨p, i, hs, e.symm.trans h1, h2⟩

theorem succeeds {w : World Path Nat} (ho : Opened w) (hlike : Like (filesOf w) (treeOf' w))
    (h : (run w []).map (fun x => (x.base.base.sched.pc, x.content aObj)) = some (.returned 2, 8)) : ∃ s w', Built w s w' ∧ s.base.base.Succeeded ∧ w'.content aObj = 8 := by
  obtain ⟨x, h1, h2⟩ := Option.map_eq_some_iff.mp h
  obtain ⟨⟨s, h3, h4⟩, _⟩ := built_of ho hlike h1
  simp only [Prod.mk.injEq] at h2
  exact ⟨s, _, h3, ⟨2, by rw [h4]; exact h2.1⟩, h2.2⟩

/-- The hypotheses of C95_incremental and C95_as_from_scratch are met. -/
example : ∃ s₂ w₂' s₃ w₃', Built w₂ s₂ w₂' ∧ Built w₃ s₃ w₃' ∧ w₂'.content aObj = 8 ∧ w₂'.content aObj = w₃'.content aObj ∧
    ∃ o : Order, o.src = aC ∧ w₂'.content aObj = recipes.make o w₂'.content aObj := by
  obtain ⟨p, i, hs, hp, t, ht, e⟩ := scanned
  obtain ⟨s₂, w₂', h1, h2, h3⟩ := succeeds opens₂ like₂ (by decide +kernel)
  obtain ⟨s₃, w₃', h1', h2', _⟩ := succeeds opens₃ like₃ (by decide +kernel)
  have hk : kind t.name = false := by rw [e]; decide +kernel
  have hx := (C95_as_from_scratch life₂ h1 h2 (life_fresh 7) h1' h2' same hs ht hk).2.2
  obtain ⟨u, hu, hup⟩ := task_of_scanned opens₂ hs ht
  obtain ⟨_, o, ho, _, _, _, _, _, hm⟩ := C95_incremental life₂ h1 h2 hs hup hu ht hk
  rw [e] at hx hm
  exact ⟨s₂, w₂', s₃, w₃', h1, h1', h3, hx, o, ho.trans hp, hm⟩

end Maike.Main.HistoryExample
