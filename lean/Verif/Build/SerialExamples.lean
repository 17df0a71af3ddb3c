import Verif.Build.Reads

/-!
# Examples of builds with contents (C94)

An interpreter for the actions of `Build/Serial.lean`, a build that meets the hypotheses of C94, and builds that show why these are there.
-/

namespace Maike.Build

open Maike.Recipes (Script Mkdir exitStatus)

variable {P V : Type} [DecidableEq P] [DecidableEq V]

/-! ## An interpreter -/

/-- Effects that are given by functions of the contents of the files that are read. -/
def Effects.ofFun (tools : Tools P) (reads : List String → List P) (F : List String → List V → P → V) (textReads : String → List P) (T : String → List V → V) : Effects P V tools where
  reads args q := q ∈ reads args
  result args c rc c' := rc = 0 → ∀ p ∈ tools.may args, c' p = F args ((reads args).map c) p
  textReads n q := q ∈ textReads n
  text n c v := v = T n ((textReads n).map c)
  result_local {args c d rc c' d'} h1 h2 h3 h0 p hp := by
    rw [← h2 p hp, h3 h0 p hp, List.map_congr_left h1]
  text_local {n c d v} h1 h2 := by rw [h2, List.map_congr_left h1]

structure XState (P V : Type) where
  base : PState P
  content : P → V
  snap : Nat → P → V
  calm : Nat → Bool

def xinit (b : Build P) (fs : FileSys P) (now : Nat) (c : P → V) : XState P V := ⟨pinit b fs now, c, fun _ => c, fun _ => true⟩

def xreading (reads : List String → List P) (s : PState P) (u : Nat) (p : P) : Bool :=
  match s.proc u with
  | some ⟨.run args _, _⟩ => decide (p ∈ reads args)
  | _ => false

def XState.after (reads : List String → List P) (s : XState P V) (x : PState P) (t : Nat) (w : Option (P × V)) (next : Bool) : XState P V :=
  let c := match w with
    | some (p, v) => update s.content p v
    | none => s.content
  { base := x
    content := c
    snap := if next then update s.snap t c else s.snap
    calm := fun u => (next && decide (u = t)) || (s.calm u && match w with
      | some (p, _) => decide (u = t) || !xreading reads s.base u p
      | none => true) }

/-- One action. With `.output` comes what is written. -/
def xstep (b : Build P) (tools : Tools P) (script : Nat → Script) (reads : List String → List P) (F : List String → List V → P → V) (textReads : String → List P) (T : String → List V → V)
    (a : PAct P × V) (s : XState P V) : Option (XState P V) :=
  match pstep b tools script a.1 s.base with
  | none => none
  | some x =>
    match a.1 with
    | .sched _ => some { s with base := x }
    | .touchDir _ => some { s with base := x }
    | .tick => some { s with base := x }
    | .check k =>
      match s.base.base.sched.running[k]? with
      | some (t, .body) => some (s.after reads x t none true)
      | _ => none
    | .output k p =>
      match procOf s.base k with
      | some (t, _) => some (s.after reads x t (some (p, a.2)) false)
      | none => none
    | .ended k none =>
      match procOf s.base k with
      | some (t, _) => some (s.after reads x t none true)
      | none => none
    | .ended k (some rc) =>
      match procOf s.base k with
      | some (t, ⟨.run args _, _⟩) =>
        if s.calm t = true → rc = 0 → ∀ p ∈ tools.may args, s.content p = F args ((reads args).map (s.snap t)) p then some (s.after reads x t none true) else none
      | _ => none
    | .copied k =>
      match procOf s.base k with
      | some (t, ⟨.copy src dst _, _⟩) => some (s.after reads x t (some (tools.name dst, s.content (tools.name src))) true)
      | _ => none
    | .mkdir k _ =>
      match procOf s.base k with
      | some (t, _) => some (s.after reads x t none true)
      | none => none
    | .wrote k =>
      match procOf s.base k with
      | some (t, ⟨.write d _, _⟩) =>
        if tools.foreign d then some (s.after reads x t none true)
        else some (s.after reads x t (some (tools.name d, T d ((textReads d).map s.content))) true)
      | _ => none
    | .attempted k _ =>
      match procOf s.base k with
      | some (t, _) => some (s.after reads x t none true)
      | none => none
    | _ => none

def xexec (b : Build P) (tools : Tools P) (script : Nat → Script) (reads : List String → List P) (F : List String → List V → P → V) (textReads : String → List P) (T : String → List V → V) :
    List (PAct P × V) → XState P V → Option (XState P V)
  | [], s => some s
  | a :: as, s =>
    match xstep b tools script reads F textReads T a s with
    | some s' => xexec b tools script reads F textReads T as s'
    | none => none

structure Sim (x : XState P V) (s : CState P V) : Prop where
  base : x.base = s.base
  content : x.content = s.content
  snap : x.snap = s.snap
  calm : ∀ u, x.calm u = true ↔ s.calm u

section

variable {b : Build P} {tools : Tools P} {script : Nat → Script} {reads : List String → List P} {F : List String → List V → P → V} {textReads : String → List P} {T : String → List V → V}

omit [DecidableEq V] in
theorem xreading_iff {s : PState P} {u : Nat} {p : P} : xreading reads s u p = true ↔ Reading (Effects.ofFun tools reads F textReads T) s u p := by
  unfold xreading Reading
  split
  · rename_i args next wrote h
    rw [h]
    constructor
    · intro hp; exact ⟨args, next, wrote, rfl, (of_decide_eq_true hp : p ∈ reads args)⟩
    · rintro ⟨_, _, _, e, hp⟩; cases e; have hp : p ∈ reads args := hp; exact decide_eq_true hp
  · rename_i hn
    constructor
    · intro h; cases h
    · rintro ⟨_, _, _, e, _⟩; exact absurd e (hn _ _ _)

omit [DecidableEq V] in
theorem sim_after {x : XState P V} {s : CState P V} (h : Sim x s) (y : PState P) (t : Nat) (w : Option (P × V)) (next : Bool) :
    Sim (x.after reads y t w next) (s.after (Effects.ofFun tools reads F textReads T) y t w next) := by
  obtain ⟨h1, h2, h3, h4⟩ := h
  refine ⟨rfl, ?_, ?_, fun u => ?_⟩
  · cases w <;> simp only [XState.after, CState.after, h2]
  · cases w <;> simp only [XState.after, CState.after, h2, h3]
  · simp only [XState.after, CState.after, Bool.or_eq_true, Bool.and_eq_true, decide_eq_true_eq, h4, ← h1]
    refine or_congr_right (and_congr_right fun _ => ?_)
    cases w with
    | none => simp
    | some w =>
      obtain ⟨p, v⟩ := w
      simp only [Bool.or_eq_true, decide_eq_true_eq, Bool.not_eq_true', Option.some.injEq, Prod.mk.injEq]
      constructor
      · rintro (h | h) p' v' ⟨rfl, _⟩ hne
        · exact absurd h hne
        · rw [← xreading_iff (reads := reads), h]; simp
      · intro h
        by_cases hu : u = t
        · exact .inl hu
        · have := h p v ⟨rfl, rfl⟩ hu
          rw [← xreading_iff (reads := reads)] at this
          exact .inr (by simpa using this)

theorem xstep_sim {x x' : XState P V} {s : CState P V} (h : Sim x s) {a : PAct P × V} (hx : xstep b tools script reads F textReads T a x = some x') :
    ∃ s', CStep b tools script (Effects.ofFun tools reads F textReads T) a.1 s s' ∧ Sim x' s' := by
  obtain ⟨a, v⟩ := a
  unfold xstep at hx
  split at hx
  · cases hx
  rename_i y hy
  have e := h.base
  rw [e] at hx hy
  dsimp only at hx hy
  split at hx
  · cases hx; exact ⟨_, .sched hy, ⟨rfl, h.content, h.snap, h.calm⟩⟩
  · cases hx; exact ⟨_, .touchDir hy, ⟨rfl, h.content, h.snap, h.calm⟩⟩
  · cases hx; exact ⟨_, .tick hy, ⟨rfl, h.content, h.snap, h.calm⟩⟩
  · split at hx
    · rename_i t ht; cases hx; exact ⟨_, .check hy ht, sim_after h _ _ _ _⟩
    · cases hx
  · split at hx
    · rename_i t q ht; cases hx; exact ⟨_, .output hy ht, sim_after h _ _ _ _⟩
    · cases hx
  · split at hx
    · rename_i t q ht; cases hx; exact ⟨_, .notStarted hy ht, sim_after h _ _ _ _⟩
    · cases hx
  · split at hx
    · rename_i t args next wrote ht
      split at hx
      · rename_i hc
        cases hx
        refine ⟨_, .ended hy ht fun hcalm => ?_, sim_after h _ _ _ _⟩
        have := hc ((h.calm t).mpr hcalm)
        rw [h.content, h.snap] at this
        exact this
      · cases hx
    · cases hx
  · split at hx
    · rename_i t src dst next wrote ht
      cases hx
      rw [h.content]
      exact ⟨_, .copied hy ht, sim_after h _ _ _ _⟩
    · cases hx
  · split at hx
    · rename_i t q ht; cases hx; exact ⟨_, .mkdir hy ht, sim_after h _ _ _ _⟩
    · cases hx
  · split at hx
    · rename_i t d next wrote ht
      split at hx
      · rename_i hf; cases hx; exact ⟨_, .wroteForeign hy ht hf, sim_after h _ _ _ _⟩
      · rename_i hf
        cases hx
        exact ⟨_, .wrote (v := T d ((textReads d).map s.content)) hy ht (by simpa using hf) rfl, by rw [h.content]; exact sim_after h _ _ _ _⟩
    · cases hx
  · split at hx
    · rename_i t q ht; cases hx; exact ⟨_, .attempted hy ht, sim_after h _ _ _ _⟩
    · cases hx
  · cases hx

theorem xexec_sim {as : List (PAct P × V)} : ∀ {x x' : XState P V} {s : CState P V}, Sim x s → xexec b tools script reads F textReads T as x = some x' →
    ∃ s', CExec b tools script (Effects.ofFun tools reads F textReads T) (as.map Prod.fst) s s' ∧ Sim x' s' := by
  induction as with
  | nil => intro x x' s h hx; cases hx; exact ⟨s, .nil, h⟩
  | cons a as ih =>
    intro x x' s h hx
    unfold xexec at hx
    split at hx
    · rename_i y hy
      obtain ⟨s₁, g1, g2⟩ := xstep_sim h hy
      obtain ⟨s', g3, g4⟩ := ih g2 hx
      exact ⟨s', .cons g1 g3, g4⟩
    · cases hx

/-- What the interpreter does is possible. -/
theorem xexec_cexec {fs : FileSys P} {now : Nat} {c : P → V} {as : List (PAct P × V)} {x : XState P V} (hx : xexec b tools script reads F textReads T as (xinit b fs now c) = some x) :
    ∃ s, CExec b tools script (Effects.ofFun tools reads F textReads T) (as.map Prod.fst) (cinit b fs now c) s ∧ s.base = x.base ∧ s.content = x.content := by
  obtain ⟨s, h1, h2⟩ := xexec_sim (s := cinit b fs now c) ⟨rfl, rfl, rfl, fun _ => by simp [xinit, cinit]⟩ hx
  exact ⟨s, h1, h2.base.symm, h2.content.symm⟩

end

/-- A scheduler for examples: performs the first of some actions that is possible, as often as told. Programs write what they should write and return zero. -/
def xauto (b : Build P) (tools : Tools P) (script : Nat → Script) (reads : List String → List P) (F : List String → List V → P → V) (textReads : String → List P) (T : String → List V → V) (v₀ : V) :
    Nat → XState P V → List (PAct P × V)
  | 0, _ => []
  | n + 1, s =>
    let candidates : List (PAct P × V) := [(.check 0, v₀)] ++
      (match procOf s.base 0 with
       | some (t, ⟨.run args _, wrote⟩) => ((tools.may args).filter fun p => p ∉ wrote).map fun p => (.output 0 p, F args ((reads args).map (s.snap t)) p)
       | _ => []) ++ [.ended 0 (some 0), .copied 0, .mkdir 0 .made, .mkdir 0 .existed, .wrote 0, .attempted 0 true, .sched (.work 0 .success), .sched .take, .sched .main].map fun a => (a, v₀)
    match candidates.findSome? (fun a => (xstep b tools script reads F textReads T a s).map fun s' => (a, s')) with
    | some (a, s') => a :: xauto b tools script reads F textReads T v₀ n s'
    | none => []

/-- Some actions, and then those of the scheduler. -/
def xtrace (b : Build P) (tools : Tools P) (script : Nat → Script) (reads : List String → List P) (F : List String → List V → P → V) (textReads : String → List P) (T : String → List V → V) (v₀ : V)
    (as : List (PAct P × V)) (n : Nat) (s : XState P V) : List (PAct P × V) :=
  as ++ match xexec b tools script reads F textReads T as s with
    | some s' => xauto b tools script reads F textReads T v₀ n s'
    | none => []

/-! ## Two object files and a program -/

namespace SerialExample

/-- Files 20 and 21 are made from 10 and 11, and 22 is made from 12, 20 and 21. -/
def three (workers : Nat) : Build Nat where
  job := ⟨[0, 1, 2], fun t => if t = 2 then [0, 1] else [], workers⟩
  task t := { src := 10 + t, targets := [20 + t], deps := if t = 2 then [⟨20, .project, none, []⟩, ⟨21, .project, none, []⟩] else [] }
  force := false
  kind _ := false
  fine := true

def fs : FileSys Nat := fun p => if p ∈ [10, 11, 12] then some ⟨1, false⟩ else none

/-- Which program it is. -/
def number (args : List String) : Nat := args.length

def tools : Tools Nat where
  name s := 20 + s.length
  may args := [20 + number args]
  must args := [20 + number args]

def script (t : Nat) : Script := Recipes.runOnly (List.replicate t "")

/-- What the programs read: what has been declared, and a file that is not part of the project. -/
def reads (args : List String) : List Nat := if number args = 2 then [12, 20, 21] else [10 + number args, 1000]

/-- What they make of it. -/
def make (_ : List String) (vs : List Nat) (_ : Nat) : Nat := vs.sum

def eff : Effects Nat Nat tools := .ofFun tools reads make (fun _ => []) (fun _ _ => 0)

def content : Nat → Nat := fun p => if p = 10 then 100 else if p = 11 then 200 else if p = 12 then 300 else if p = 1000 then 5 else 0

/-- Both object files are made at the same time. The first program writes something else at first. -/
def together : List (PAct Nat × Nat) :=
  [(.sched .main, 0), (.sched .main, 0), (.sched .main, 0), (.sched .main, 0), (.sched .take, 0), (.sched .take, 0), (.check 0, 0), (.check 1, 0), (.output 0 20, 99), (.output 1 21, 205), (.output 0 20, 105)]

def trace (workers : Nat) (as : List (PAct Nat × Nat)) : List (PAct Nat × Nat) := xtrace (three workers) tools script reads make (fun _ => []) (fun _ _ => 0) 0 as 60 (xinit (three workers) fs 10 content)

def final (workers : Nat) (as : List (PAct Nat × Nat)) : Option (XState Nat Nat) := xexec (three workers) tools script reads make (fun _ => []) (fun _ _ => 0) as (xinit (three workers) fs 10 content)

/-- The name of the target. -/
def target (t : Nat) : String := if t = 0 then "" else if t = 1 then "a" else "ab"

theorem sane (n : Nat) : (three n).Sane where
  topological := by
    refine ⟨by simp [three], ?_⟩
    intro l₁ t l₂ e u hu hut
    have h3 : t = 2 ∧ (u = 0 ∨ u = 1) := by
      simp only [three] at hu
      split at hu
      · rename_i ht; simp at hu; exact ⟨ht, hu⟩
      · cases hu
    obtain ⟨rfl, h3⟩ := h3
    have e : [0, 1, 2] = l₁ ++ 2 :: l₂ := e
    match l₁, e with
    | [a, b], e =>
      simp only [List.cons_append, List.nil_append, List.cons.injEq] at e
      rw [← e.1, ← e.2.1]
      rcases h3 with rfl | rfl <;> simp
    | [], e => simp at e
    | [_], e => simp at e
    | _ :: _ :: _ :: l, e => simp at e
  owner := by intro t _ u _ p h1 h2 _; simp only [three, List.mem_singleton] at h1 h2; omega
  waits := by
    intro t ht q hq _ u hu hqu
    simp only [three, List.mem_cons, List.not_mem_nil, or_false] at ht hu hq hqu ⊢
    rcases ht with rfl | rfl | rfl <;> rcases hu with rfl | rfl | rfl <;> simp at hq hqu ⊢ <;> omega
  closed := by
    intro t ht u hu v hv h1 h2
    simp only [three] at h1 h2 ⊢
    split at h1
    · rename_i e
      rcases ht with _ | _
      · cases e
      · simp only [List.mem_cons, List.not_mem_nil, or_false] at h1
        rcases h1 with rfl | rfl <;> simp at h2
    · cases h1
  dirs := by intro t _ h; cases h

theorem known (n : Nat) : Known (three n) tools eff script where
  promise t ht := by
    simp only [three, List.mem_cons, List.not_mem_nil, or_false] at ht
    refine promise_runOnly (target := target t) ?_ rfl ?_ _
    · rcases ht with rfl | rfl | rfl <;> exact ⟨by decide, by decide⟩
    · rcases ht with rfl | rfl | rfl <;> rfl
  confined t ht := by
    simp only [three, List.mem_cons, List.not_mem_nil, or_false] at ht
    refine confined_runOnly fun q hq => .inl ?_
    rcases ht with rfl | rfl | rfl
    · have : q = 10 ∨ q = 1000 := by simpa [eff, Effects.ofFun, reads, number] using hq
      rcases this with rfl | rfl
      · exact .inl ⟨rfl, .inl rfl⟩
      · exact .inr fun u hu h => by simp [three] at hu h; omega
    · have : q = 11 ∨ q = 1000 := by simpa [eff, Effects.ofFun, reads, number] using hq
      rcases this with rfl | rfl
      · exact .inl ⟨rfl, .inl rfl⟩
      · exact .inr fun u hu h => by simp [three] at hu h; omega
    · have : q = 12 ∨ q = 20 ∨ q = 21 := by simpa [eff, Effects.ofFun, reads, number] using hq
      rcases this with rfl | rfl | rfl
      · exact .inl ⟨rfl, .inl rfl⟩
      · exact .inl ⟨rfl, .inr ⟨⟨20, .project, none, []⟩, by simp [three], rfl, rfl⟩⟩
      · exact .inl ⟨rfl, .inr ⟨⟨21, .project, none, []⟩, by simp [three], rfl, rfl⟩⟩

theorem determined : ∀ t ∈ (three n).job.tasks, ∀ c c₁ c₂, MakesAlone eff (script t) c c₁ → MakesAlone eff (script t) c c₂ → c₁ = c₂ := by
  intro t _ c c₁ c₂ h₁ h₂
  obtain ⟨a1, a2⟩ := makes_runOnly h₁
  obtain ⟨b1, b2⟩ := makes_runOnly h₂
  funext p
  by_cases hp : p ∈ tools.may (List.replicate t "")
  · exact (a1 rfl p hp).trans (b1 rfl p hp).symm
  · rw [a2 p hp, b2 p hp]

theorem plausible (n : Nat) : Plausible (three n) fs 10 where
  past := by
    intro p st _ h
    simp only [fs] at h
    split at h
    · cases h; decide
    · cases h
  kinds := by
    intro p st h
    simp only [fs] at h
    split at h
    · cases h; rfl
    · cases h

/-- The builds are possible, and succeed. -/
theorem possible {n : Nat} {as : List (PAct Nat × Nat)} (h : (final n as).map (fun x => (x.base.base.sched.pc, x.content 22)) = some (.returned 3, 610)) :
    ∃ s, CExec (three n) tools script eff (as.map Prod.fst) (cinit (three n) fs 10 content) s ∧ s.base.base.Succeeded ∧ s.content 22 = 610 := by
  obtain ⟨x, h1, h2⟩ := Option.map_eq_some_iff.mp h
  obtain ⟨s, h3, h4, h5⟩ := xexec_cexec h1
  simp only [Prod.mk.injEq] at h2
  exact ⟨s, h3, ⟨3, by rw [h4]; exact h2.1⟩, by rw [h5]; exact h2.2⟩

/-- The hypotheses of C94_in_order are met by a build that makes both object files at the same time. -/
example : ∃ s : CState Nat Nat, s.content 22 = 610 ∧ OneByOne eff script ((three 2).job.tasks.filter fun t => s.base.base.decision t = some .run) content s.content := by
  obtain ⟨s, h1, h2, h3⟩ := possible (n := 2) (as := trace 2 together) (by decide +kernel)
  exact ⟨s, h3, C94_in_order (three 2) eff script (sane 2) (known 2) rfl (plausible 2).kinds h1 h2⟩

/-- The hypotheses of C94_workers are met by this build, and one with a single worker. -/
example : ∃ s s' : CState Nat Nat, s.base.base.Succeeded ∧ s'.base.base.Succeeded ∧ s.content 22 = 610 ∧ s.content = s'.content := by
  obtain ⟨s, h1, h2, h3⟩ := possible (n := 2) (as := trace 2 together) (by decide +kernel)
  obtain ⟨s', h1', h2', _⟩ := possible (n := 1) (as := trace 1 []) (by decide +kernel)
  exact ⟨s, s', h2, h2', h3, C94_workers (three 2) eff script (sane 2) rfl (known 2) rfl determined 1 (plausible 2) (.inr fun _ _ _ _ h => by cases h) h1 h1' h2 h2'⟩

/-! ## What is not declared -/

/-- The second program reads the file that is made by the first one as well. -/
def sees (args : List String) : List Nat := if number args = 1 then [11, 20] else reads args

def curious : Effects Nat Nat tools := .ofFun tools sees make (fun _ => []) (fun _ _ => 0)

/-- It reads the file while that is being written. -/
def early : List (PAct Nat × Nat) :=
  [(.sched .main, 0), (.sched .main, 0), (.sched .main, 0), (.sched .main, 0), (.sched .take, 0), (.sched .take, 0), (.check 0, 0), (.check 1, 0), (.output 0 20, 99), (.output 1 21, 299), (.output 0 20, 105),
    (.ended 1 (some 0), 0)]

def curiousFinal (as : List (PAct Nat × Nat)) : Option (XState Nat Nat) := xexec (three 2) tools script sees make (fun _ => []) (fun _ _ => 0) as (xinit (three 2) fs 10 content)

def curiousTrace : List (PAct Nat × Nat) := xtrace (three 2) tools script sees make (fun _ => []) (fun _ _ => 0) 0 early 60 (xinit (three 2) fs 10 content)

/-- **C94 does not hold if a recipe reads a file that it has not been told about**: if this is made by another recipe, then it may be read while it is being written, so that the build succeeds with
a result that executing recipes one by one, in any order, and any number of times, cannot have. -/
theorem C94_not_declared : ∃ as s, CExec (three 2) tools script curious as (cinit (three 2) fs 10 content) s ∧ s.base.base.Succeeded ∧
    ∀ order, (∀ t ∈ order, t ∈ (three 2).job.tasks) → ¬ OneByOne curious script order content s.content := by
  have h : (curiousFinal curiousTrace).map (fun x => (x.base.base.sched.pc, x.content 21)) = some (.returned 3, 299) := by decide +kernel
  obtain ⟨x, h1, h2⟩ := Option.map_eq_some_iff.mp h
  obtain ⟨s, h3, h4, h5⟩ := xexec_cexec h1
  simp only [Prod.mk.injEq] at h2
  refine ⟨_, s, h3, ⟨3, by rw [h4]; exact h2.1⟩, fun order ho hone => ?_⟩
  have key : ∀ order c c', (∀ t ∈ order, t ∈ (three 2).job.tasks) → OneByOne curious script order c c' → c 10 = 100 ∧ c 11 = 200 ∧ c 1000 = 5 ∧ (c 20 = 0 ∨ c 20 = 105) ∧ c 21 ≠ 299 → c' 21 ≠ 299 := by
    intro order c c' ho h
    induction h with
    | nil => exact fun h => h.2.2.2.2
    | @cons t ts c c₁ c₂ hm _ ih =>
      rintro ⟨a1, a2, a3, a4, a5⟩
      refine ih (fun t ht => ho t (by simp [ht])) ?_
      obtain ⟨b1, b2⟩ := makes_runOnly hm
      have ht := ho t (by simp)
      simp only [three, List.mem_cons, List.not_mem_nil, or_false] at ht
      rcases ht with rfl | rfl | rfl
      · have e : c₁ 20 = 105 := by
          have := b1 rfl 20 (by simp [tools, number])
          simpa [sees, reads, number, make, a1, a3] using this
        have f : ∀ p, p ≠ 20 → c₁ p = c p := fun p hp => b2 p (by simpa [tools, number] using hp)
        simp [f, a1, a2, a3, a5, e]
      · have e : c₁ 21 = 200 + c 20 := by
          have := b1 rfl 21 (by simp [tools, number])
          simpa [sees, reads, number, make, a2] using this
        have f : ∀ p, p ≠ 21 → c₁ p = c p := fun p hp => b2 p (by simpa [tools, number] using hp)
        refine ⟨(f 10 (by decide)).trans a1, (f 11 (by decide)).trans a2, (f 1000 (by decide)).trans a3, ?_, by omega⟩
        rw [f 20 (by decide)]; exact a4
      · have f : ∀ p, p ≠ 22 → c₁ p = c p := fun p hp => b2 p (by simpa [tools, number] using hp)
        simp [f, a1, a2, a3, a4, a5]
  exact key order _ _ ho hone ⟨rfl, rfl, rfl, .inl rfl, by decide⟩ (by rw [h5]; exact h2.2)

/-! ## What is left behind -/

/-- The first program writes something and fails. -/
def fails : List (PAct Nat × Nat) :=
  [(.sched .main, 0), (.sched .main, 0), (.sched .main, 0), (.sched .main, 0), (.sched .take, 0), (.check 0, 0), (.output 0 20, 99), (.ended 0 (some 1), 0), (.sched (.work 0 .failure), 0)]

def failed : Option (XState Nat Nat) := final 1 (trace 1 fails)

/-- The build is repeated. -/
def again (x : XState Nat Nat) : XState Nat Nat := xinit (three 1) x.base.base.fs 100 x.content

def retry (x : XState Nat Nat) : Option (XState Nat Nat) :=
  xexec (three 1) tools script reads make (fun _ => []) (fun _ _ => 0) (xtrace (three 1) tools script reads make (fun _ => []) (fun _ _ => 0) 0 [] 60 (again x)) (again x)

/-- **After a build that has failed, what is in the files after a build that has succeeded need not be what the recipes make**: what a program has left behind when it has failed is newer than what it should have been
made from, so that the recipe is not executed again (see C80). -/
theorem C94_left_behind : ∃ as s as' s', CExec (three 1) tools script eff as (cinit (three 1) fs 10 content) s ∧ s.base.base.sched.pc = .rethrown 0 ∧
    CExec (three 1) tools script eff as' (cinit (three 1) s.base.base.fs 100 s.content) s' ∧ s'.base.base.Succeeded ∧
    ∀ c c', MakesAlone eff (script 0) c c' → c 10 = content 10 → c 1000 = content 1000 → c' 20 ≠ s'.content 20 := by
  have h : (failed.bind fun x => (retry x).map fun y => (x.base.base.sched.pc, y.base.base.sched.pc, y.content 20)) = some (.rethrown 0, .returned 3, 99) := by decide +kernel
  obtain ⟨x, h1, h2⟩ := Option.bind_eq_some_iff.mp h
  obtain ⟨y, h3, h4⟩ := Option.map_eq_some_iff.mp h2
  simp only [Prod.mk.injEq] at h4
  obtain ⟨s, g1, g2, g3⟩ := xexec_cexec h1
  obtain ⟨s', g4, g5, g6⟩ := xexec_cexec h3
  rw [← g2, ← g3] at g4
  refine ⟨_, s, _, s', g1, by rw [g2]; exact h4.1, g4, ⟨3, by rw [g5]; exact h4.2.1⟩, fun c c' hm a1 a2 => ?_⟩
  · have := (makes_runOnly hm).1 rfl 20 (by simp [tools, number])
    rw [this, g6, h4.2.2]
    simp [reads, number, make, a1, a2, content]

end SerialExample

end Maike.Build
