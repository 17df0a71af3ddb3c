import Verif.Build.Histories
import Verif.Build.SerialExamples

/-!
# A build that fails, an edit, and another build (C95)
-/

namespace Maike.Build

open Maike.Recipes (Script)

variable {P V : Type} [DecidableEq P]

/-- What is there when a build has stopped, and what recipes that have not ended with success have written has been removed. -/
def leave (b : Build P) (s : State P) (c : P → V) : World P V where
  fs p := if b.kind p = false ∧ ∃ t ∈ b.job.tasks, p ∈ s.written t ∧ .finish t .success ∉ s.sched.hist then none else s.fs p
  clock := s.clock
  content := c

theorem leave_leaves {b : Build P} (hb : b.Sane) (hfine : b.fine = true) {tools : Tools P} {eff : Effects P V tools} {script : Nat → Script} (hkn : Known b tools eff script) {fs : FileSys P} {now : Nat}
    (hp : Plausible b fs now) {as : List (PAct P)} {c : P → V} {s : CState P V} (h : CExec b tools script eff as (cinit b fs now c) s) : Leaves b s (leave b s.base.base s.content) := by
  obtain ⟨as', hexec⟩ := C88_refines b tools script hb.topological hkn.promise hp.kinds (cexec_pexec h)
  have hi : Inv b s.base.base := exec_induction (Q := Inv b) (fun _ _ _ hi h => inv_step hb hfine hi h) (inv_init hp) hexec
  refine ⟨rfl, rfl, fun p hs => if_pos ?_, fun p hs => if_neg fun ⟨h1, t, ht, h2⟩ => hs ⟨h1, t, h2⟩⟩
  obtain ⟨h1, t, h2⟩ := hs
  exact ⟨h1, t, TaskList.started_task hb.topological hi.sched (hi.dstart t (by rw [(hi.wr t p h2.1).2]; simp)), h2⟩

namespace HistoryExample

open SerialExample (three sane number tools script make)

/-- Only what has been declared is read. -/
def reads (args : List String) : List Nat := if number args = 2 then [12, 20, 21] else [10 + number args]

def eff : Effects Nat Nat tools := .ofFun tools reads make (fun _ => []) (fun _ _ => 0)

/-- What recipes compute, given the number of the task. -/
def recipes : Recipes Nat Nat Nat where
  reads d q := q ∈ if d = 2 then [12, 20, 21] else [10 + d]
  make d c _ := ((if d = 2 then [12, 20, 21] else [10 + d]).map c).sum
  pure d c c' p h := by rw [List.map_congr_left h]

def area (q : Nat) : Bool := decide (20 ≤ q)

def project : Project recipes (fun _ => false) area where
  plan _ b desc := (∃ n, b = three n) ∧ desc = id
  sane := by rintro _ _ _ ⟨⟨n, rfl⟩, _⟩; exact sane n
  fine := by rintro _ _ _ ⟨⟨n, rfl⟩, _⟩; rfl
  kinds := by rintro _ _ _ ⟨⟨n, rfl⟩, _⟩; rfl
  inArea := by
    rintro _ _ _ ⟨⟨n, rfl⟩, _⟩ t _ p hp _
    simp only [three, List.mem_singleton] at hp
    simp [area]; omega
  inputs := by
    rintro _ _ _ ⟨⟨n, rfl⟩, rfl⟩ t ht q hq
    simp only [three, List.mem_cons, List.not_mem_nil, or_false] at ht
    refine ⟨rfl, ?_⟩
    rcases ht with rfl | rfl | rfl
    · exact .inl (by simpa [recipes, three] using hq)
    · exact .inl (by simpa [recipes, three] using hq)
    · have : q = 12 ∨ q = 20 ∨ q = 21 := by simpa [recipes] using hq
      rcases this with rfl | rfl | rfl
      · exact .inl rfl
      · exact .inr ⟨⟨20, .project, none, []⟩, by simp [three], rfl, rfl⟩
      · exact .inr ⟨⟨21, .project, none, []⟩, by simp [three], rfl, rfl⟩
  closed := by
    rintro _ _ _ ⟨⟨n, rfl⟩, rfl⟩ t ht q hq ha
    simp only [three, List.mem_cons, List.not_mem_nil, or_false] at ht
    have ha : 20 ≤ q := of_decide_eq_true ha
    rcases ht with rfl | rfl | rfl
    · have : q = 10 := by simpa [recipes] using hq
      omega
    · have : q = 11 := by simpa [recipes] using hq
      omega
    · have : q = 12 ∨ q = 20 ∨ q = 21 := by simpa [recipes] using hq
      rcases this with rfl | rfl | rfl
      · omega
      · exact ⟨0, by simp [three], by simp [three]⟩
      · exact ⟨1, by simp [three], by simp [three]⟩
  only := by
    rintro _ _ _ _ _ _ ⟨⟨n, rfl⟩, rfl⟩ ⟨⟨m, rfl⟩, rfl⟩ t _ t' _ p hp hp' _ _
    simp only [three, List.mem_singleton] at hp hp'
    simp only [id]; omega

theorem known (n : Nat) : Known (three n) tools eff script where
  promise := (SerialExample.known n).promise
  confined t ht := by
    simp only [three, List.mem_cons, List.not_mem_nil, or_false] at ht
    refine confined_runOnly fun q hq => .inl (.inl ⟨rfl, ?_⟩)
    rcases ht with rfl | rfl | rfl
    · exact .inl (by simpa [eff, Effects.ofFun, reads, number, three] using hq)
    · exact .inl (by simpa [eff, Effects.ofFun, reads, number, three] using hq)
    · have : q = 12 ∨ q = 20 ∨ q = 21 := by simpa [eff, Effects.ofFun, reads, number] using hq
      rcases this with rfl | rfl | rfl
      · exact .inl rfl
      · exact .inr ⟨⟨20, .project, none, []⟩, by simp [three], rfl, rfl⟩
      · exact .inr ⟨⟨21, .project, none, []⟩, by simp [three], rfl, rfl⟩

theorem computes (n : Nat) : Computes recipes eff (three n) id script := by
  intro t ht c c' hm p hp _
  obtain ⟨h1, _⟩ := makes_runOnly hm
  simp only [three, List.mem_cons, List.not_mem_nil, or_false] at ht hp
  have := h1 rfl p (by rw [hp]; simp [tools, number])
  rw [this]
  rcases ht with rfl | rfl | rfl <;> simp [reads, number, make, recipes]

def run (n : Nat) (w : World Nat Nat) (as : List (PAct Nat × Nat)) : Option (XState Nat Nat) :=
  let x := xinit (three n) w.fs w.clock w.content
  xexec (three n) tools script reads make (fun _ => []) (fun _ _ => 0) (xtrace (three n) tools script reads make (fun _ => []) (fun _ _ => 0) 0 as 60 x) x

theorem executes {n : Nat} {w : World Nat Nat} (hw : Plausible (three n) w.fs w.clock) {as : List (PAct Nat × Nat)} {x : XState Nat Nat} (h : run n w as = some x) :
    ∃ s, Executes recipes eff (three n) id w s (leave (three n) x.base.base x.content) ∧ s.base = x.base := by
  obtain ⟨s, h1, h2, h3⟩ := xexec_cexec h
  refine ⟨s, ⟨script, _, known n, computes n, h1, ?_⟩, h2⟩
  rw [← h2, ← h3]
  exact leave_leaves (sane n) rfl (known n) hw h1

/-- At first there are no targets. -/
def w₁ : World Nat Nat := ⟨SerialExample.fs, 10, SerialExample.content⟩

theorem past₁ : RealPast project eff w₁ := by
  refine .start (fun p hp _ => ?_) (SerialExample.plausible 1).past (SerialExample.plausible 1).kinds
  have hp : 20 ≤ p := of_decide_eq_true hp
  simp only [w₁, SerialExample.fs]
  exact if_neg (by simp; omega)

/-- The first program writes something and fails. -/
def failed : World Nat Nat :=
  match run 1 w₁ SerialExample.fails with
  | some x => leave (three 1) x.base.base x.content
  | none => w₁

/-- A source file is edited. -/
def w₂ : World Nat Nat := failed.edit 11 1000

theorem past₂ : RealPast project eff w₂ := by
  refine .edit ?_ rfl rfl
  unfold failed
  split
  · rename_i x hx
    obtain ⟨s, h, _⟩ := executes (n := 1) (SerialExample.plausible 1) hx
    exact .build past₁ ⟨⟨1, rfl⟩, rfl⟩ h
  · exact past₁

theorem exists₂ : ∀ t ∈ (three 2).job.tasks, ∀ q, recipes.reads (id t) q → area q = false → Exists w₂.fs q := by
  intro t ht q hq ha
  simp only [three, List.mem_cons, List.not_mem_nil, or_false] at ht
  have ha : ¬ 20 ≤ q := of_decide_eq_false ha
  have h : ∀ q ∈ [10, 11, 12], (w₂.fs q).isSome = true := by decide +kernel
  refine Option.isSome_iff_exists.mp (h q ?_)
  rcases ht with rfl | rfl | rfl
  · have : q = 10 := by simpa [recipes] using hq
    simp [this]
  · have : q = 11 := by simpa [recipes] using hq
    simp [this]
  · have : q = 12 ∨ q = 20 ∨ q = 21 := by simpa [recipes] using hq
    rcases this with rfl | rfl | rfl
    · simp
    · omega
    · omega

/-- The hypotheses of C95_consistent are met by the history in which a build has failed, what its recipe has written has been removed, and a file has been edited. In the last build, recipes are executed
at the same time. -/
example : ∃ w' : World Nat Nat, (∀ t ∈ (three 2).job.tasks, ∀ p ∈ ((three 2).task t).targets, (three 2).kind p = false → Exists w'.fs p ∧ w'.content p = recipes.make t w'.content p) ∧
    w'.content 22 = 1400 := by
  have h : (run 2 w₂ SerialExample.together.dropLast.dropLast.dropLast).map (fun x => (x.base.base.sched.pc, x.content 22)) = some (.returned 3, 1400) := by decide +kernel
  obtain ⟨x, h1, h2⟩ := Option.map_eq_some_iff.mp h
  have hk := realPast_kept past₂
  obtain ⟨s, h3, h4⟩ := executes (n := 2) ⟨hk.past, hk.kinds⟩ h1
  simp only [Prod.mk.injEq] at h2
  exact ⟨_, C95_consistent project eff past₂ ⟨⟨2, rfl⟩, rfl⟩ rfl h3 ⟨3, by rw [h4]; exact h2.1⟩ exists₂, h2.2⟩

/-- What was removed: after the failure there is no target. -/
example : failed.fs 20 = none ∧ (run 1 w₁ SerialExample.fails).map (fun x => (x.base.base.fs 20).isSome) = some true := by decide +kernel

end HistoryExample

end Maike.Build
