import Verif.Fs.Path
import Verif.Db.Model

/-!
# Where recipes are found (C48)

core/source_tree_loader/command_dictionary.cpp and .hpp. Any number of threads may call `get`; the file system may change at any time.
-/

namespace Maike.Tree.Commands

open Maike.Fs
open Maike.Db (Origin)

/-! ## Model -/

/-- `CommandDictionary::result_type`, core/source_tree_loader/command_dictionary.hpp:21. -/
abbrev Result := Path × Origin

/-- `m_search_paths`, core/source_tree_loader/command_dictionary.hpp:29-48,56. -/
structure Dirs where
  project : Path
  system : Path

/-- Where a call of `get` is, core/source_tree_loader/command_dictionary.cpp:10-42. -/
inductive Pc where
  | idle
  /-- about to look into the map, l. 15-17 -/
  | lookup (cmd : Path)
  /-- about to look for the file in the project directory, l. 21-24 -/
  | probe1 (cmd : Path)
  /-- about to look for the file in the system directory, l. 21-24 -/
  | probe2 (cmd : Path)
  /-- about to update the map, l. 39-40 -/
  | store (cmd : Path) (res : Result)
  | returned (cmd : Path) (res : Result)
  /-- an exception has been thrown, l. 26-32 -/
  | threw (cmd : Path)
deriving DecidableEq

/-- State of the dictionary and of all calls. -/
structure State where
  /-- `is_regular_file`. An error counts as `false`, l. 22-23. -/
  isFile : Path → Bool
  /-- `m_commands`, core/source_tree_loader/command_dictionary.hpp:55 -/
  cache : Path → Option Result
  pc : Nat → Pc

/-- Before the first call. -/
def init (isFile : Path → Bool) : State := ⟨isFile, fun _ => none, fun _ => .idle⟩

/-- What may happen. -/
inductive Act where
  /-- thread `i` calls `get` -/
  | call (i : Nat) (cmd : Path)
  /-- thread `i` proceeds -/
  | run (i : Nat)
  /-- the file system changes -/
  | change (isFile : Path → Bool)

/-- A step of a call: core/source_tree_loader/command_dictionary.cpp:15-41. Accesses to the map are atomic because they are made while
the mutex is locked (l. 15, 39). -/
def next (dirs : Dirs) (s : State) : Pc → Pc × (Path → Option Result)
  | .lookup cmd =>
    match s.cache cmd with
    | some r => (.returned cmd r, s.cache)
    | none => (.probe1 cmd, s.cache)
  | .probe1 cmd => (if s.isFile (dirs.project / cmd) then .store cmd ((dirs.project / cmd).normal, .project) else .probe2 cmd, s.cache)
  | .probe2 cmd => (if s.isFile (dirs.system / cmd) then .store cmd ((dirs.system / cmd).normal, .system) else .threw cmd, s.cache)
  | .store cmd r => (.returned cmd r, fun c => if c = cmd then some r else s.cache c)
  | p => (p, s.cache)

/-- core/source_tree_loader/command_dictionary.cpp:10-42. A thread makes one call. -/
def step (dirs : Dirs) (s : State) : Act → State
  | .call i cmd =>
    if s.pc i = .idle then
      { s with pc := fun j => if j = i then (if cmd = Path.empty then .returned cmd (cmd, .project) else .lookup cmd) else s.pc j }
    else s
  | .run i => { s with pc := fun j => if j = i then (next dirs s (s.pc i)).1 else s.pc j, cache := (next dirs s (s.pc i)).2 }
  | .change f => { s with isFile := f }

def exec (dirs : Dirs) (s : State) (as : List Act) : State := as.foldl (step dirs) s

/-! ## Specification -/

/-- The answer to a lookup when the files are `isFile`: the recipe in the project directory if there is one, otherwise the one in the system
directory. -/
inductive Finds (dirs : Dirs) (isFile : Path → Bool) (cmd : Path) : Result → Prop
  | project : isFile (dirs.project / cmd) = true → Finds dirs isFile cmd ((dirs.project / cmd).normal, .project)
  | system : isFile (dirs.project / cmd) = false → isFile (dirs.system / cmd) = true →
      Finds dirs isFile cmd ((dirs.system / cmd).normal, .system)

/-- There is no such recipe. -/
def Missing (dirs : Dirs) (isFile : Path → Bool) (cmd : Path) : Prop :=
  isFile (dirs.project / cmd) = false ∧ isFile (dirs.system / cmd) = false

/-- The call is neither finished nor not yet begun. -/
def Pc.On (cmd : Path) (p : Pc) : Prop := p = .lookup cmd ∨ p = .probe1 cmd ∨ p = .probe2 cmd ∨ ∃ r, p = .store cmd r

/-- Calls for `cmd` are made one after another. -/
def OneByOne (dirs : Dirs) (cmd : Path) : State → List Act → Prop
  | _, [] => True
  | s, a :: as => (∀ i, a = .call i cmd → ∀ j, ¬ (s.pc j).On cmd) ∧ OneByOne dirs cmd (step dirs s a) as

/-! ## Lemmas -/

theorem Finds.unique {dirs : Dirs} {f : Path → Bool} {cmd : Path} {r r' : Result} (h : Finds dirs f cmd r) (h' : Finds dirs f cmd r') : r = r' := by
  cases h <;> cases h' <;> simp_all

theorem Finds.not_missing {dirs : Dirs} {f : Path → Bool} {cmd : Path} {r : Result} (h : Finds dirs f cmd r) : ¬ Missing dirs f cmd := by
  rintro ⟨h1, h2⟩
  cases h <;> simp_all

/-- Invariant when the file system does not change. -/
structure Fixed (dirs : Dirs) (f : Path → Bool) (s : State) : Prop where
  files : s.isFile = f
  cache : ∀ c r, s.cache c = some r → c ≠ Path.empty ∧ Finds dirs f c r
  lookup : ∀ i c, s.pc i = .lookup c → c ≠ Path.empty
  probe1 : ∀ i c, s.pc i = .probe1 c → c ≠ Path.empty
  probe2 : ∀ i c, s.pc i = .probe2 c → c ≠ Path.empty ∧ f (dirs.project / c) = false
  store : ∀ i c r, s.pc i = .store c r → c ≠ Path.empty ∧ Finds dirs f c r
  returned : ∀ i c r, s.pc i = .returned c r → (c = Path.empty ∧ r = (Path.empty, .project)) ∨ (c ≠ Path.empty ∧ Finds dirs f c r)
  threw : ∀ i c, s.pc i = .threw c → c ≠ Path.empty ∧ Missing dirs f c

theorem fixed_step {dirs : Dirs} {f : Path → Bool} {s : State} (h : Fixed dirs f s) {a : Act} (ha : ∀ g, a ≠ .change g) :
    Fixed dirs f (step dirs s a) := by
  obtain ⟨h1, h2, h3, h4, h5, h6, h7, h8⟩ := h
  cases a with
  | change g => exact absurd rfl (ha g)
  | call i cmd =>
    simp only [step]
    split
    · constructor <;> grind
    · exact ⟨h1, h2, h3, h4, h5, h6, h7, h8⟩
  | run i =>
    have hn : step dirs s (.run i) = { s with pc := fun j => if j = i then (next dirs s (s.pc i)).1 else s.pc j, cache := (next dirs s (s.pc i)).2 } := rfl
    rw [hn]
    cases hp : s.pc i with
    | idle | threw | returned =>
      simp only [next]
      constructor <;> grind
    | lookup c =>
      cases hc : s.cache c with
      | none =>
        simp only [next, hc]
        constructor <;> grind
      | some r =>
        simp only [next, hc]
        constructor <;> grind
    | probe1 c =>
      simp only [next]
      cases hf : s.isFile (dirs.project / c) with
      | true =>
        have : Finds dirs f c ((dirs.project / c).normal, .project) := .project (h1 ▸ hf)
        constructor <;> grind
      | false => constructor <;> grind
    | probe2 c =>
      simp only [next]
      cases hf : s.isFile (dirs.system / c) with
      | true =>
        have : Finds dirs f c ((dirs.system / c).normal, .system) := .system (h5 i c hp).2 (h1 ▸ hf)
        constructor <;> grind
      | false =>
        have : Missing dirs f c := ⟨(h5 i c hp).2, h1 ▸ hf⟩
        constructor <;> grind
    | store c r =>
      simp only [next]
      constructor <;> grind

theorem fixed_exec {dirs : Dirs} {f : Path → Bool} (as : List Act) (hc : ∀ g, .change g ∉ as) {s : State} (h : Fixed dirs f s) :
    Fixed dirs f (exec dirs s as) := by
  induction as generalizing s with
  | nil => exact h
  | cons a as ih =>
    exact ih (fun g hg => hc g (List.mem_cons_of_mem _ hg)) (fixed_step h fun g hg => hc g (hg ▸ List.mem_cons_self ..))

/-! ## C48 -/

/-- **C48.** As long as the file system does not change, each call, by whatever thread, answers with the recipe in the project directory, or
else the one in the system directory, throws if and only if there is neither, and leaves an empty name alone. -/
theorem C48_search (dirs : Dirs) (f : Path → Bool) (as : List Act) (hc : ∀ g, .change g ∉ as) (i : Nat) (cmd : Path) :
    (∀ r, (exec dirs (init f) as).pc i = .returned cmd r →
      (cmd = Path.empty ∧ r = (Path.empty, .project)) ∨ (cmd ≠ Path.empty ∧ Finds dirs f cmd r)) ∧
    ((exec dirs (init f) as).pc i = .threw cmd → cmd ≠ Path.empty ∧ Missing dirs f cmd) := by
  have h : Fixed dirs f (exec dirs (init f) as) := fixed_exec as hc (by constructor <;> simp [init])
  exact ⟨fun r hr => h.returned i cmd r hr, fun ht => h.threw i cmd ht⟩

theorem Finds_or_missing (dirs : Dirs) (f : Path → Bool) (cmd : Path) : Missing dirs f cmd ∨ ∃ r, Finds dirs f cmd r := by
  cases h1 : f (dirs.project / cmd) with
  | true => exact .inr ⟨_, .project h1⟩
  | false =>
    cases h2 : f (dirs.system / cmd) with
    | true => exact .inr ⟨_, .system h1 h2⟩
    | false => exact .inl ⟨h1, h2⟩

/-- How many more steps a call takes at most. -/
def Pc.left : Pc → Nat
  | .lookup _ => 4
  | .probe1 _ => 3
  | .probe2 _ => 2
  | .store _ _ => 1
  | _ => 0

theorem next_left (dirs : Dirs) (s : State) (p : Pc) : (next dirs s p).1.left ≤ p.left - 1 := by
  cases p <;> simp only [next] <;> (repeat' split) <;> simp [Pc.left]

theorem next_idle (dirs : Dirs) (s : State) (p : Pc) (h : p ≠ .idle) : (next dirs s p).1 ≠ .idle := by
  cases p <;> simp only [next] <;> (repeat' split) <;> simp_all

/-- `a` is a step of thread `i`. -/
def Act.isRun (i : Nat) : Act → Bool
  | .run j => j == i
  | _ => false

theorem left_exec (dirs : Dirs) (as : List Act) (i : Nat) (s : State) (hi : s.pc i ≠ .idle) :
    (exec dirs s as).pc i ≠ .idle ∧ ((exec dirs s as).pc i).left ≤ (s.pc i).left - as.countP (Act.isRun i) := by
  induction as generalizing s with
  | nil => exact ⟨hi, by simp [exec]⟩
  | cons a as ih =>
    have hs : (step dirs s a).pc i ≠ .idle ∧ ((step dirs s a).pc i).left ≤ (s.pc i).left - (if Act.isRun i a then 1 else 0) := by
      cases a with
      | change g => simpa [step, Act.isRun] using hi
      | call j cmd =>
        simp only [step, Act.isRun]
        split
        · by_cases hj : i = j
          · subst hj
            exact absurd ‹_› hi
          · simpa [hj] using hi
        · simpa using hi
      | run j =>
        by_cases hj : i = j
        · subst hj
          simpa [step, Act.isRun] using ⟨next_idle dirs s _ hi, next_left dirs s _⟩
        · have : ¬ j = i := fun h => hj h.symm
          simpa [step, Act.isRun, hj, this] using hi
    have := ih (step dirs s a) hs.1
    refine ⟨this.1, ?_⟩
    rw [List.countP_cons]
    have h2 := this.2
    have h3 := hs.2
    show ((exec dirs (step dirs s a) as).pc i).left ≤ _
    omega

/-- **C48.** A call ends after four steps, whatever the other threads and the file system do. -/
theorem C48_ends (dirs : Dirs) (s : State) (as : List Act) (i : Nat) (hi : s.pc i ≠ .idle) (h4 : 4 ≤ as.countP (Act.isRun i)) :
    ∃ cmd, (∃ r, (exec dirs s as).pc i = .returned cmd r) ∨ (exec dirs s as).pc i = .threw cmd := by
  have h := left_exec dirs as i s hi
  have hle : (s.pc i).left ≤ 4 := by cases s.pc i <;> simp [Pc.left]
  have h0 : ((exec dirs s as).pc i).left = 0 := by omega
  cases hp : (exec dirs s as).pc i with
  | idle => exact absurd hp h.1
  | returned c r => exact ⟨c, .inl ⟨r, rfl⟩⟩
  | threw c => exact ⟨c, .inr rfl⟩
  | lookup | probe1 | probe2 | store => simp [hp, Pc.left] at h0

/-- Invariant when calls for `cmd` do not overlap. -/
structure Apart (cmd : Path) (s : State) : Prop where
  one : ∀ i j, (s.pc i).On cmd → (s.pc j).On cmd → i = j
  returned : ∀ i r, s.pc i = .returned cmd r → s.cache cmd = some r
  busy : ∀ i, s.pc i = .probe1 cmd ∨ s.pc i = .probe2 cmd ∨ (∃ r, s.pc i = .store cmd r) → s.cache cmd = none

theorem next_on {dirs : Dirs} {s : State} {p : Pc} {cmd : Path} (h : (next dirs s p).1.On cmd) : p.On cmd := by
  cases p <;> simp only [next] at h <;> (repeat' split at h) <;> simp_all [Pc.On]

theorem apart_step {dirs : Dirs} {cmd : Path} (hne : cmd ≠ Path.empty) {s : State} (h : Apart cmd s) {a : Act}
    (ha : ∀ i, a = .call i cmd → ∀ j, ¬ (s.pc j).On cmd) : Apart cmd (step dirs s a) := by
  obtain ⟨h1, h2, h3⟩ := h
  cases a with
  | change g => exact ⟨h1, h2, h3⟩
  | call i c =>
    have ha' : c = cmd → ∀ j, ¬ (s.pc j).On cmd := fun h => ha i (by rw [h])
    clear ha
    simp only [step]
    split
    · constructor
      · intro a b hpa hpb
        simp only at hpa hpb
        have key : ∀ x, (if x = i then (if c = Path.empty then Pc.returned c (c, .project) else .lookup c) else s.pc x).On cmd →
            x ≠ i ∧ (s.pc x).On cmd ∨ x = i ∧ c = cmd := by
          intro x hx
          by_cases hxi : x = i
          · refine .inr ⟨hxi, ?_⟩
            simp only [hxi, if_true] at hx
            split at hx <;> simp [Pc.On] at hx
            exact hx
          · simp only [hxi, if_false] at hx
            exact .inl ⟨hxi, hx⟩
        rcases key a hpa with ⟨_, q⟩ | ⟨q, q'⟩ <;> rcases key b hpb with ⟨_, w⟩ | ⟨w, w'⟩
        · exact h1 a b q w
        · exact absurd q (ha' w' a)
        · exact absurd w (ha' q' b)
        · rw [q, w]
      · simp only [Pc.On] at *
        grind
      · simp only [Pc.On] at *
        grind
    · exact ⟨h1, h2, h3⟩
  | run i =>
    constructor
    · intro a b hpa hpb
      have key : ∀ x, ((step dirs s (.run i)).pc x).On cmd → (s.pc x).On cmd := by
        intro x hx
        simp only [step] at hx
        split at hx
        · rename_i hxi
          rw [hxi]
          exact next_on hx
        · exact hx
      exact h1 a b (key a hpa) (key b hpb)
    all_goals
      clear ha
      have h4 : ∀ i j r r', s.pc i = .store cmd r → s.pc j = .store cmd r' → i = j := fun i j r r' hi hj =>
        h1 i j (.inr (.inr (.inr ⟨r, hi⟩))) (.inr (.inr (.inr ⟨r', hj⟩)))
      simp only [step]
      cases hp : s.pc i with
      | idle | threw | returned | probe1 | probe2 | store =>
        simp only [next]
        simp only [Pc.On] at *
        grind
      | lookup c =>
        cases hc : s.cache c with
        | none =>
          simp only [next, hc]
          simp only [Pc.On] at *
          grind
        | some r =>
          simp only [next, hc]
          simp only [Pc.On] at *
          grind

theorem apart_exec {dirs : Dirs} {cmd : Path} (hne : cmd ≠ Path.empty) (as : List Act) {s : State} (h : Apart cmd s)
    (ho : OneByOne dirs cmd s as) : Apart cmd (exec dirs s as) := by
  induction as generalizing s with
  | nil => exact h
  | cons a as ih => exact ih (apart_step hne h ho.1) ho.2

/-- **C48.** If calls for `cmd` are made one after another, all of them that succeed return the same answer, no matter how the file system
changes in between. -/
theorem C48_same (dirs : Dirs) (f : Path → Bool) (as : List Act) (cmd : Path) (ho : OneByOne dirs cmd (init f) as) (i j : Nat) (r r' : Result)
    (hne : cmd ≠ Path.empty)
    (hi : (exec dirs (init f) as).pc i = .returned cmd r) (hj : (exec dirs (init f) as).pc j = .returned cmd r') : r = r' := by
  have h : Apart cmd (exec dirs (init f) as) := apart_exec hne as (by constructor <;> simp [init, Pc.On]) ho
  have h1 := h.returned i r hi
  have h2 := h.returned j r' hj
  rw [h1] at h2
  exact Option.some.inj h2

theorem cached_exec {dirs : Dirs} {cmd : Path} (as : List Act) {s : State} {r : Result} (h : s.cache cmd = some r) (i : Nat)
    (hq : ∀ j, s.pc j = .probe1 cmd ∨ s.pc j = .probe2 cmd ∨ (∃ r', s.pc j = .store cmd r') → False) (hne : cmd ≠ Path.empty)
    (hi : ∀ c r', s.pc i = .returned c r' → c = cmd → r' = r) (ht : s.pc i ≠ .threw cmd) :
    (exec dirs s as).pc i ≠ .threw cmd ∧ ∀ r', (exec dirs s as).pc i = .returned cmd r' → r' = r := by
  induction as generalizing s with
  | nil => exact ⟨ht, fun r' h => hi _ _ h rfl⟩
  | cons a as ih =>
    show (exec dirs (step dirs s a) as).pc i ≠ _ ∧ ∀ r', (exec dirs (step dirs s a) as).pc i = _ → _
    cases a with
    | change g => exact ih h hq hi ht
    | call j c =>
      simp only [step]
      split
      · apply ih <;> grind
      · exact ih h hq hi ht
    | run j =>
      have hn : step dirs s (.run j) = { s with pc := fun k => if k = j then (next dirs s (s.pc j)).1 else s.pc k, cache := (next dirs s (s.pc j)).2 } := rfl
      rw [hn]
      cases hp : s.pc j with
      | idle | threw | returned | probe1 | probe2 | store =>
        simp only [next]
        apply ih <;> grind
      | lookup c =>
        cases hc : s.cache c with
        | none =>
          simp only [next, hc]
          apply ih <;> grind
        | some r =>
          simp only [next, hc]
          apply ih <;> grind

/-- **C48.** Once a call for `cmd` has succeeded and no other call for it is under way, later calls do not throw and have the same answer, even if they
overlap, and even if the recipe is removed. -/
theorem C48_kept (dirs : Dirs) (f : Path → Bool) (as bs : List Act) (cmd : Path) (ho : OneByOne dirs cmd (init f) as) (i j : Nat) (r : Result)
    (hne : cmd ≠ Path.empty) (hi : (exec dirs (init f) as).pc i = .returned cmd r) (hq : ∀ k, ¬ ((exec dirs (init f) as).pc k).On cmd)
    (hj : (exec dirs (init f) as).pc j = .idle) :
    (exec dirs (init f) (as ++ bs)).pc j ≠ .threw cmd ∧ ∀ r', (exec dirs (init f) (as ++ bs)).pc j = .returned cmd r' → r' = r := by
  have h : Apart cmd (exec dirs (init f) as) := apart_exec hne as (by constructor <;> simp [init, Pc.On]) ho
  have e : exec dirs (init f) (as ++ bs) = exec dirs (exec dirs (init f) as) bs := by simp [exec]
  rw [e]
  refine cached_exec bs (h.returned i r hi) j (fun k hk => hq k (.inr hk)) hne ?_ (by simp [hj])
  intro c r' hc
  simp [hj] at hc

/-! ## Surprises -/

/-- An absolute recipe is taken as part of the project, wherever it is. -/
theorem C48_absolute (dirs : Dirs) (f : Path → Bool) (cmd : Path) (h : cmd.root = true) (r : Result) (hr : Finds dirs f cmd r) :
    r = (cmd.normal, .project) := by
  have e : ∀ d : Path, d / cmd = cmd := fun d => by
    show Path.append d cmd = cmd
    simp [Path.append, h]
  cases hr with
  | project h1 => rw [e]
  | system h1 h2 =>
    rw [e] at h1 h2
    simp [h1] at h2

/-- Dictionary of the examples. -/
def exampleDirs : Dirs := ⟨parse "src".toList, parse "/opt/maike".toList⟩

/-- The recipe is present in the system directory only. -/
def exampleFiles (p : Path) : Bool := p == parse "/opt/maike/cxx.py".toList

/-- The recipe is present in both directories. -/
def exampleFiles2 (p : Path) : Bool := exampleFiles p || p == parse "src/cxx.py".toList

/-- When calls overlap and the file system changes, `C48_same` does not hold: two calls have different answers, and so has a later call. -/
theorem C48_race : ∃ as : List Act,
    let s := exec exampleDirs (init exampleFiles) as
    let cmd := parse "cxx.py".toList
    s.pc 0 = .returned cmd (parse "/opt/maike/cxx.py".toList, .system) ∧ s.pc 1 = .returned cmd (parse "src/cxx.py".toList, .project) ∧
      s.pc 2 = .returned cmd (parse "src/cxx.py".toList, .project) := by
  refine ⟨[.call 0 (parse "cxx.py".toList), .call 1 (parse "cxx.py".toList), .run 0, .run 0, .run 0, .run 1, .run 0, .change exampleFiles2,
    .run 1, .run 1, .call 2 (parse "cxx.py".toList), .run 2], ?_⟩
  decide +kernel

/-- A failure is not remembered: the recipe is found once it is there. -/
example :
    let s := exec exampleDirs (init fun _ => false) [.call 0 (parse "cxx.py".toList), .run 0, .run 0, .run 0, .change exampleFiles2,
      .call 1 (parse "cxx.py".toList), .run 1, .run 1, .run 1]
    s.pc 0 = .threw (parse "cxx.py".toList) ∧ s.pc 1 = .returned (parse "cxx.py".toList) (parse "src/cxx.py".toList, .project) := by
  decide +kernel

/-- The hypotheses of `C48_same` and `C48_kept` can be met; the second call is answered although the recipe is gone. -/
example :
    let as : List Act := [.call 0 (parse "cxx.py".toList), .run 0, .run 0, .run 0, .run 0, .change fun _ => false,
      .call 1 (parse "cxx.py".toList), .run 1]
    let s := exec exampleDirs (init exampleFiles) as
    OneByOne exampleDirs (parse "cxx.py".toList) (init exampleFiles) as ∧
      s.pc 1 = .returned (parse "cxx.py".toList) (parse "/opt/maike/cxx.py".toList, .system) := by
  refine ⟨?_, by decide +kernel⟩
  simp only [OneByOne, and_true]
  refine ⟨fun i _ j => by simp [init, Pc.On], ?_, ?_, ?_, ?_, ?_, ?_, ?_⟩ <;> intro i hi
  all_goals first | cases hi | skip
  intro j
  by_cases hj : j = 0
  · subst hj
    have h : (exec exampleDirs (init exampleFiles) [.call 0 (parse "cxx.py".toList), .run 0, .run 0, .run 0, .run 0, .change fun _ => false]).pc 0
        = .returned (parse "cxx.py".toList) (parse "/opt/maike/cxx.py".toList, .system) := by decide +kernel
    simp only [exec, List.foldl] at h
    rw [h]
    simp [Pc.On]
  · simp [step, init, hj, Pc.On]

end Maike.Tree.Commands
