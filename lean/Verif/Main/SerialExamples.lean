import Verif.Main.Serial
import Verif.Main.ProcessesExamples
import Verif.Build.SerialExamples

/-!
# A run with contents (C94)
-/

namespace Maike.Main.SerialExample

open Fs Tree Paths
open Maike.Kvs (Json Members)
open Maike.Build (Tools Effects XState xinit xauto xexec)
open Maike.Recipes (Script compileCommand targetsOf)
open CompiledExample ProcessesExample

def aC : Path := parse ['a', '.', 'c']

/-- The compiler reads `a.c`; other programs read nothing. -/
def reads (as : List String) : List Path := if as = args then [aC] else []

def make (_ : List String) (vs : List Nat) (_ : Path) : Nat := vs.sum + 1

def eff : Effects Path Nat tools := .ofFun tools reads make (fun _ => []) (fun _ _ => 0)

def content : Path → Nat := fun p => if p = aC then 41 else 0

def build (force : Bool) (n : Nat) : Build.Build Path := (theBuild job tree force kind).withWorkers n

def script : Nat → Script := scriptOf recipe files tree info .plainText

def start (force : Bool) (n : Nat) : XState Path Nat := xinit (build force n) disk.fs 10 content

def trace (force : Bool) (n : Nat) : List (Build.PAct Path × Nat) := xauto (build force n) tools script reads make (fun _ => []) (fun _ _ => 0) 0 60 (start force n)

def final (force : Bool) (n : Nat) : Option (XState Path Nat) := xexec (build force n) tools script reads make (fun _ => []) (fun _ _ => 0) (trace force n) (start force n)

theorem possible {force : Bool} {n : Nat} (h : (final force n).map (fun x => (x.base.base.sched.pc, x.content aObj)) = some (.returned 2, 42)) :
    ∃ s, RunsOn job force kind tools eff recipe info .plainText disk content 10 files tree n s ∧ s.base.base.Succeeded ∧ s.content aObj = 42 := by
  obtain ⟨x, h1, h2⟩ := Option.map_eq_some_iff.mp h
  obtain ⟨s, h3, h4, h5⟩ := Build.xexec_cexec h1
  simp only [Prod.mk.injEq] at h2
  exact ⟨s, ⟨loads, acyclic, _, h3⟩, ⟨2, by rw [h4]; exact h2.1⟩, by rw [h5]; exact h2.2⟩

theorem known_of {files : List (Path × FileInfo)} {tree : Db.SourceTree Path} (hlike : Like files tree) {j : Job} {disk : Disk} {now : Nat} (proper : Proper j kind disk now)
    (loads : Loads j disk files tree) (apart : Apart j disk) : ReadsKnown j kind eff recipe info .plainText disk files tree := by
  intro p i hs hi u hu exe opts hc
  obtain ⟨v, hv, hpv, _⟩ := C79_command proper loads apart hlike.acyclic hs hi info .plainText
  obtain rfl := Build.path_unique (graph_sorted proper loads) hpv hu
  rcases hlike.tasks _ hv with rfl | rfl
  · rw [(hlike.ofMaker hc).1]
    exact .directoryMaker
  · obtain ⟨h1, ha, src, target, h2, h3, h4, h6, n1, n2⟩ := hlike.ofCompiler hc
    have hp : p.normal = aC := by
      obtain ⟨si, hsi⟩ := hu
      have := hlike.source
      rw [hsi] at this
      simpa [aC] using this
    have hmay : MayRead kind j disk p i aC := .inl ⟨by decide +kernel, .inl hp.symm⟩
    have hown : MayRead kind j disk p i aObj := by
      refine .inl ⟨by decide +kernel, .inr (.inr ?_)⟩
      exact hlike.target _ ((mem_files proper loads _ _).mpr ⟨p, hs, rfl⟩) hp
    rw [h1]
    refine .compiler h2 h3 h4 (by simpa [h6] using hown) fun as ha' => ?_
    obtain rfl : args = as := by rw [ha] at ha'; cases ha'; rfl
    refine ⟨⟨⟨by rw [h6]; simp [tools], by rw [h6]; simp [tools]⟩, fun q hq => ?_, fun c c₁ c₂ g1 g2 => ?_⟩, ⟨by simp [Build.Tools.Harmless, tools, n1], fun q hq => ?_⟩,
      ⟨by simp only [Build.Tools.Harmless, tools, n2, if_false], fun q hq => ?_⟩⟩
    · have hq : q ∈ reads args := hq
      simp only [reads, if_true, List.mem_singleton] at hq
      exact hq ▸ hmay
    · have hm : tools.name target ∈ tools.may args := by rw [h6]; simp [tools]
      exact (g1 rfl _ hm).trans (g2 rfl _ hm).symm
    · have hq : q ∈ reads [target] := hq
      simp [reads, n1] at hq
    · have hq : q ∈ reads (["clang-tidy", src, "--", "-Wno-unknown-warning-option"] ++ args) := hq
      simp only [reads, n2, if_false] at hq
      cases hq

theorem known : ReadsKnown job kind eff recipe info .plainText disk files tree := known_of like proper loads apart

/-- The hypotheses of C94_run are met. -/
example : ∃ s : Build.CState Path Nat, s.content aObj = 42 ∧
    Build.OneByOne eff (scriptOf recipe files tree info .plainText) ((Db.taskListAll tree.graph).2.filter fun u => s.base.base.decision u = some .run) content s.content := by
  obtain ⟨s, h1, h2, h3⟩ := possible (force := false) (n := 2) (by decide +kernel)
  exact ⟨s, h3, C94_run proper uses known h1 h2⟩

/-- The hypotheses of C94_run_workers are met. -/
example : ∃ s s' : Build.CState Path Nat, s.base.base.Succeeded ∧ s'.base.base.Succeeded ∧ s.content aObj = 42 ∧ s.content = s'.content := by
  obtain ⟨s, h1, h2, h3⟩ := possible (force := true) (n := 1) (by decide +kernel)
  obtain ⟨s', h1', h2', _⟩ := possible (force := true) (n := 3) (by decide +kernel)
  exact ⟨s, s', h2, h2', h3, C94_run_workers proper uses known (.inl rfl) h1 h1' h2 h2'⟩

end Maike.Main.SerialExample
