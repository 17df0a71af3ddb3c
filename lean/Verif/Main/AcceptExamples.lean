import Verif.Main.Accept
import Verif.Main.ProgramExamples

/-!
# Examples for C102: a project that can be built, and three that cannot

All of them consist of a file `a.cpp`, from which `a.o` is made, and a header `h.hpp`.
-/

namespace Maike.Main.AcceptExample

open Fs Tree Paths Kvs
open Maike.Loaders (Line Item)
open ProgramExample (disk disk_ok fs isRun)

/-- The program, together with the contents of the two files. -/
def machine (a h : List Char) : Machine :=
  { ProgramExample.machine with
    outside := { ProgramExample.machine.outside with
      content := fun p => if p.normal = parse ['a', '.', 'c', 'p', 'p'] then some (bytes a) else if p.normal = parse ['h', '.', 'h', 'p', 'p'] then some (bytes h) else none } }

def settings (a h : List Char) (args : List Str) : Settings := match plan (machine a h) disk args with
  | .run s => s
  | _ => ⟨exampleJob, [], .all, false, false⟩

theorem planned_of {a h : List Char} {args : List Str} (hr : isRun (plan (machine a h) disk args) = true) : plan (machine a h) disk args = .run (settings a h args) := by
  unfold settings
  cases hp : plan (machine a h) disk args with
  | run s => rfl
  | print | abort => rw [hp] at hr; cases hr

theorem not_given {args : List Str} {name : String} {index : Nat} (hi : HasIndex name index)
    (h : ((Cli.collect Cli.maikeOptions args).map fun c => c.isSet index) = some false) : ¬ Given args name := by
  obtain ⟨c, hc, e⟩ := Option.map_eq_some_iff.mp h
  rw [← given_iff hc hi, e]; simp

theorem given {args : List Str} {name : String} {index : Nat} (hi : HasIndex name index)
    (h : ((Cli.collect Cli.maikeOptions args).map fun c => c.isSet index) = some true) : Given args name := by
  obtain ⟨c, hc, e⟩ := Option.map_eq_some_iff.mp h
  rw [← given_iff hc hi, e]

/-- What the scan finds. -/
def files (a h : List Char) (args : List Str) : List (Path × FileInfo) := (scan (settings a h args).job disk 60).shared.files

theorem finds_of {a h : List Char} {args : List Str} (hc : (scan (settings a h args).job disk 60).shared.counter = 0)
    (he : (scan (settings a h args).job disk 60).shared.errlog = []) : Finds (settings a h args).job disk (files a h args) := by
  obtain ⟨n, hn⟩ := drive_steps ((settings a h args).job.world disk) 60 (Scan.init ((settings a h args).job.world disk))
  refine ⟨n, _, hn, ?_⟩
  change takeResult (scan (settings a h args).job disk 60) = _
  simp [takeResult, hc, he, files]

theorem apart_of {j : Job} {l : List (Path × FileInfo)} (hw : (j.world disk).Ok) (hf : Finds j disk l)
    (h : ∀ x ∈ l, x.2.useTargetDeps = true → ∀ t ∈ x.2.targets, ∀ y ∈ l, t.name ≠ y.1) : Apart j disk := by
  intro p i hs hu t ht q k hq
  exact h _ ((mem_of_finds hw hf _ _).mpr ⟨p, hs, rfl⟩) hu t ht _ ((mem_of_finds hw hf _ _).mpr ⟨q, hq, rfl⟩)

/-- `//@{"target":{"name":"a.o"}}`. -/
def alone : List Char := (Item.tag [] SourceExample.json).render

/-- The same, and `#include "./h.hpp"`. -/
def withHeader : List Char := SourceExample.text

/-- `#include "./h.hpp"`. -/
def loop : List Char := (Line.includeProject [] [] [' '] ['.', '/', 'h', '.', 'h', 'p', 'p'] []).render

/-- `#include "./x.hpp"`. -/
def unknown : List Char := (Line.includeProject [] [] [' '] ['.', '/', 'x', '.', 'h', 'p', 'p'] []).render

def all : List Str := ProgramExample.args
def list : List Str := ProgramExample.query
def one : List Str := [['-', '-', 'c', 'o', 'n', 'f', 'i', 'g', '-', 'd', 'e', 'f', 'a', 'u', 'l', 't'], ['-', '-', 't', 'a', 'r', 'g', 'e', 't', 's', '=', 'a', '.', 'o']]

/-- A project whose tree is not accepted. -/
theorem unsound_of {j : Job} {l : List (Path × FileInfo)} (hw : (j.world disk).Ok) (hf : Finds j disk l) (hap : Apart j disk)
    (h : (Db.load (srcList l)).toOption.isSome = false) : ¬ Sound j disk := by
  intro hs
  obtain ⟨n, s, h1, h2⟩ := hf
  obtain ⟨l', tree, e, ht⟩ := loads_of_sound hw hap hs h1 h2
  injection e with e
  subst e
  rw [ht] at h
  cases h

/-- `C102_rejected`: the header includes itself, and it is included by a file that something is made from. Not even the targets can be listed. -/
example (kind : Path → Bool) (now : Nat) (status : Int) (out : Output) (fs' : Build.FileSys Path)
    (h : Ends (machine withHeader loop) kind disk now list status out fs') : status = -1 ∧ out = .nothing ∧ fs' = fs := by
  have hplan := planned_of (a := withHeader) (h := loop) (args := list) (by decide +kernel)
  have hw := world_ok_of disk_ok hplan
  have hf := finds_of (a := withHeader) (h := loop) (args := list) (by decide +kernel) (by decide +kernel)
  have hap := apart_of hw hf (by decide +kernel)
  exact C102_rejected disk_ok hplan hap (unsound_of hw hf hap (by decide +kernel)) h

/-- `C102_rejected`: the header includes a file that does not exist. -/
example (kind : Path → Bool) (now : Nat) (status : Int) (out : Output) (fs' : Build.FileSys Path)
    (h : Ends (machine withHeader unknown) kind disk now all status out fs') : status = -1 ∧ out = .nothing ∧ fs' = fs := by
  have hplan := planned_of (a := withHeader) (h := unknown) (args := all) (by decide +kernel)
  have hw := world_ok_of disk_ok hplan
  have hf := finds_of (a := withHeader) (h := unknown) (args := all) (by decide +kernel) (by decide +kernel)
  have hap := apart_of hw hf (by decide +kernel)
  exact C102_rejected disk_ok hplan hap (unsound_of hw hf hap (by decide +kernel)) h

/-- `C102_accepted`: this project can be built. -/
example : Buildable ProgramExample.settings.job disk ∧ Apart ProgramExample.settings.job disk := by
  have hw := world_ok_of disk_ok ProgramExample.planned
  have hap := apart_of hw ProgramExample.loads.1 (by decide +kernel)
  have hs := sound_of_loads hw hap ProgramExample.loads
  exact ⟨⟨hs.readable, hs.sources, hs.available, (acyclic_iff hw hap ProgramExample.loads).mp (by decide +kernel)⟩, hap⟩

/-! The header includes itself, but nothing that is made depends on it. -/

theorem asidePlanned : plan (machine alone loop) disk all = .run (settings alone loop all) := planned_of (by decide +kernel)

theorem asideLoads : Loads (settings alone loop all).job disk (files alone loop all) (treeOf (files alone loop all)) :=
  loads_of 60 (by decide +kernel) (by decide +kernel) (treeOf_ok (by decide +kernel))

theorem asideApart : Apart (settings alone loop all).job disk := apart_of (world_ok_of disk_ok asidePlanned) asideLoads.1 (by decide +kernel)

/-- `C102_all`: such a project is sound, but when everything is to be built, then it is rejected. -/
example : Sound (settings alone loop all).job disk ∧ ¬ Buildable (settings alone loop all).job disk := by
  have hw := world_ok_of disk_ok asidePlanned
  refine ⟨sound_of_loads hw asideApart asideLoads, fun h => ?_⟩
  have := (acyclic_iff hw asideApart asideLoads).mpr h.acyclic
  exact absurd this (by decide +kernel)

/-- `C102_info`: the targets can be listed. -/
example (kind : Path → Bool) (now : Nat) (status : Int) (out : Output) (fs' : Build.FileSys Path)
    (h : Ends (machine alone loop) kind disk now list status out fs') : status = 0 ∧ ∃ lines, out = .lines lines := by
  have hplan := planned_of (a := alone) (h := loop) (args := list) (by decide +kernel)
  have hw := world_ok_of disk_ok hplan
  have hl : Loads (settings alone loop list).job disk (files alone loop list) (treeOf (files alone loop list)) :=
    loads_of 60 (by decide +kernel) (by decide +kernel) (treeOf_ok (by decide +kernel))
  have hap := apart_of hw hl.1 (by decide +kernel)
  exact C102_info disk_ok hplan hap (.inl (given hasIndex_list (by decide +kernel))) (sound_of_loads hw hap hl) h

theorem onePlanned : plan (machine alone loop) disk one = .run (settings alone loop one) := planned_of (by decide +kernel)

theorem oneLoads : Loads (settings alone loop one).job disk (files alone loop one) (treeOf (files alone loop one)) :=
  loads_of 60 (by decide +kernel) (by decide +kernel) (treeOf_ok (by decide +kernel))

theorem oneApart : Apart (settings alone loop one).job disk := apart_of (world_ok_of disk_ok onePlanned) oneLoads.1 (by decide +kernel)

/-- The construction of `a.o`. -/
def oneResult : Option (Build.Verdict Path × Build.Progress Path) :=
  let c := (settings alone loop one).setup (treeOf (files alone loop one)) ProgramExample.kind
  match Build.getTarget c (parse ['a', '.', 'o']) with
  | none => none
  | some t => Build.compileSeveral c [parse ['a', '.', 'o']] [Build.auto (c.build t) 60 (Build.init (c.build t) fs 10)] (.start fs 10)

theorem oneEnds : ∃ fs', Ends (machine alone loop) ProgramExample.kind disk 10 one 0 .nothing fs' := by
  have hr : (match oneResult with | some (.completed _, _) => true | _ => false) = true := by decide +kernel
  split at hr
  · rename_i n pr he
    unfold oneResult at he
    simp only at he
    split at he
    · cases he
    · exact ⟨_, .named (names := [['a', '.', 'o']]) onePlanned oneLoads (by decide +kernel) he⟩
  · cases hr

/-- **C102.** A finding: whether a circle is noticed depends on what is asked for. In this project a header includes itself. If everything is to be built, then the
program refuses; with `--targets=a.o` it succeeds. -/
theorem C102_aside : ∃ (m : Machine) (d : Disk) (args₁ args₂ : List Str) (s₁ s₂ : Settings), d.Ok ∧ plan m d args₁ = .run s₁ ∧ plan m d args₂ = .run s₂ ∧
    (∃ a, Requires s₁.job d a a) ∧ (∃ a, Requires s₂.job d a a) ∧
    (∀ kind now status out fs', Ends m kind d now args₁ status out fs' → status = -1) ∧
    ∃ kind fs', Ends m kind d 10 args₂ 0 .nothing fs' := by
  have hw := world_ok_of disk_ok asidePlanned
  have hw2 := world_ok_of disk_ok onePlanned
  have h1 : ¬ ∀ a, ¬ Requires (settings alone loop all).job disk a a := fun h => absurd ((acyclic_iff hw asideApart asideLoads).mpr h) (by decide +kernel)
  have h2 : ¬ ∀ a, ¬ Requires (settings alone loop one).job disk a a := fun h => absurd ((acyclic_iff hw2 oneApart oneLoads).mpr h) (by decide +kernel)
  refine ⟨machine alone loop, disk, all, one, settings alone loop all, settings alone loop one, disk_ok, asidePlanned, onePlanned, by simpa using h1, by simpa using h2, ?_, ?_⟩
  · intro kind now status out fs' h
    exact (C102_all disk_ok asidePlanned asideApart (not_given hasIndex_list (by decide +kernel)) (not_given hasIndex_graph (by decide +kernel))
      (not_given hasIndex_targets (by decide +kernel)) (fun hb => h1 hb.acyclic) h).1
  · obtain ⟨fs', h⟩ := oneEnds
    exact ⟨_, fs', h⟩

/-- The hypotheses of `C102_named` are met: `a.o` is feasible, although there is a circle. -/
example : Feasible (settings alone loop one).job disk ((settings alone loop one).job.targetDir / parse ['a', '.', 'o']) := by
  have h : (match Build.getTarget ((settings alone loop one).setup (treeOf (files alone loop one)) ProgramExample.kind) (parse ['a', '.', 'o']) with
    | some t => decide ((Db.taskListFor (treeOf (files alone loop one)).graph t.sourceFilename).1 = .ok)
    | none => false) = true := by decide +kernel
  split at h
  · rename_i t ht
    exact (feasible_iff disk_ok onePlanned oneApart oneLoads _).mp ⟨t, ht, by simpa using h⟩
  · cases h

end Maike.Main.AcceptExample
