import Verif.Main.Edits
import Verif.Main.IncrementalExamples

/-!
# Example: edits while a build is running (C110)

The project is that of `IncrementalExample`: `a.cpp` includes `b.h` if the number in it is not zero.
-/

namespace Maike.Main

open Fs Tree Paths
open Maike.Build (World Performs Live LStep LExec State Act Recipes update)

/-! ## Performing a build that is disturbed -/

section

variable {V D : Type}

/-- Actions of a build, and edits. Recipes read everything at the moment time stamps are compared if `early`, and at the moment they write otherwise. -/
def disturbed (r : Recipes Path V D) (b : Build.Build Path) (desc : Nat → D) (early : Bool) :
    List (Act Path ⊕ Path × V) → State Path → (Path → V) → (Nat → Path → V) → Option (State Path × (Path → V))
  | [], s, c, _ => some (s, c)
  | .inr (q, v) :: es, s, c, got =>
    disturbed r b desc early es { s with fs := update s.fs q (some ⟨s.clock, false⟩), clock := s.clock + 1 } (update c q v) got
  | .inl (.check k) :: es, s, c, got =>
    match Build.step b (.check k) s, s.sched.running[k]? with
    | some s', some (t, .body) => disturbed r b desc early es s' c (update got t c)
    | _, _ => none
  | .inl (.write k p) :: es, s, c, got =>
    match Build.step b (.write k p) s, s.sched.running[k]? with
    | some s', some (t, .body) => disturbed r b desc early es s' (update c p (r.make (desc t) (if early then got t else c) p)) got
    | _, _ => none
  | .inl a :: es, s, c, got =>
    match Build.step b a s with
    | some s' => disturbed r b desc early es s' c got
    | none => none

/-- Where events happen. -/
def placesOf : List (Act Path ⊕ Path × V) → List Path
  | [] => []
  | .inr (q, _) :: es => q :: placesOf es
  | .inl (.write _ p) :: es => p :: placesOf es
  | .inl (.touchDir p) :: es => p :: placesOf es
  | _ :: es => placesOf es

/-- What is edited. -/
def editsOf : List (Act Path ⊕ Path × V) → List Path
  | [] => []
  | .inr (q, _) :: es => q :: editsOf es
  | .inl _ :: es => editsOf es

theorem mem_editsOf {es : List (Act Path ⊕ Path × V)} {q : Path} {v : V} (h : .inr (q, v) ∈ es) : q ∈ editsOf es := by
  induction es with
  | nil => cases h
  | cons e es ih =>
    rcases e with a | ⟨q', v'⟩
    · exact ih (by simpa using h)
    · rcases List.mem_cons.mp h with h | h
      · injection h with h
        injection h with h
        rw [h]; exact List.mem_cons_self
      · exact List.mem_cons_of_mem _ (ih h)

theorem disturbed_live {r : Recipes Path V D} {b : Build.Build Path} {desc : Nat → D} {kind area : Path → Bool} {early : Bool} {es : List (Act Path ⊕ Path × V)}
    (hes : ∀ q v, .inr (q, v) ∈ es → area q = false ∧ kind q = false) {L : Live Path V} {got : Nat → Path → V} {s' : State Path} {c' : Path → V}
    (hseen : ∀ t, L.s.decision t ≠ none → ∀ q, L.seen t q (got t q) ∧ L.seen t q (L.content q)) (h : disturbed r b desc early es L.s L.content got = some (s', c')) :
    ∃ L', LExec r b desc kind area L L' ∧ L'.s = s' ∧ L'.content = c' ∧ ∀ q, L'.changed q → L.changed q ∨ q ∈ editsOf es := by
  have head : ∀ {L L' L'' : Live Path V}, LStep r b desc kind area L L' → LExec r b desc kind area L' L'' → LExec r b desc kind area L L'' := by
    intro L L' L'' h h'
    induction h' with
    | refl => exact .tail .refl h
    | tail _ h2 ih => exact .tail ih h2
  induction es generalizing L got with
  | nil =>
    simp only [disturbed, Option.some.injEq, Prod.mk.injEq] at h
    exact ⟨L, .refl, h.1, h.2, fun _ h => .inl h⟩
  | cons e es ih =>
    have ih := @ih fun q v hm => hes q v (List.mem_cons_of_mem _ hm)
    have other : ∀ a : Act Path, (∀ k, a ≠ .check k) → (∀ k p, a ≠ .write k p) → (match Build.step b a L.s with
        | some s' => disturbed r b desc early es s' L.content got
        | none => none) = some (s', c') → ∃ L', LExec r b desc kind area L L' ∧ L'.s = s' ∧ L'.content = c' ∧ ∀ q, L'.changed q → L.changed q ∨ q ∈ editsOf es := by
      intro a h1 h2 h
      cases hs : Build.step b a L.s with
      | none => rw [hs] at h; cases h
      | some s1 =>
        rw [hs] at h
        obtain ⟨L', h3, h4, h5, h6⟩ := ih (L := { L with s := s1 }) (got := got) (fun t ht => hseen t (by
          rcases Build.step_cases hs with ⟨a', sched', rfl, _, _, rfl⟩ | ⟨k', t', rfl, _, _, rfl⟩ | ⟨k', t', p', rfl, _, _, _, rfl⟩ | ⟨p', rfl, _, rfl⟩ | ⟨rfl, rfl⟩
          · exact ht
          · exact absurd rfl (h1 k')
          · exact absurd rfl (h2 k' p')
          · exact ht
          · exact ht)) h
        exact ⟨L', head (.other hs h1 h2) h3, h4, h5, h6⟩
    rcases e with (a | k | ⟨k, p⟩ | p | _) | ⟨q, v⟩
    · exact other _ (by simp) (by simp) h
    · simp only [disturbed] at h
      split at h
      · rename_i s1 t hs hk
        obtain ⟨L', h3, h4, h5, h6⟩ := ih (L := { L with s := s1, seen := update L.seen t fun q v => v = L.content q }) (got := update got t L.content) (fun u hu q => by
          by_cases hut : u = t
          · subst hut; simp [Build.update_self]
          · simp only [Build.update_ne _ _ hut]
            refine hseen u ?_ q
            rcases Build.step_cases hs with ⟨a', sched', h', _, _, rfl⟩ | ⟨k', t', h', hk', _, rfl⟩ | ⟨k', t', p', h', _, _, _, rfl⟩ | ⟨p', h', _, rfl⟩ | ⟨h', rfl⟩ <;> cases h'
            rw [hk] at hk'
            injection hk' with hk'
            injection hk' with hk'
            subst hk'
            simpa only [Build.update_ne _ _ hut] using hu) h
        exact ⟨L', head (.check hs hk) h3, h4, h5, h6⟩
      · cases h
    · simp only [disturbed] at h
      split at h
      · rename_i s1 t hs hk
        have hd : L.s.decision t ≠ none ∧ s1.decision = L.s.decision := by
          rcases Build.step_cases hs with ⟨a', sched', h', _, _, rfl⟩ | ⟨k', t', h', _, _, rfl⟩ | ⟨k', t', p', h', hk', hd, _, rfl⟩ | ⟨p', h', _, rfl⟩ | ⟨h', rfl⟩ <;> cases h'
          rw [hk] at hk'
          injection hk' with hk'
          injection hk' with hk'
          subst hk'
          exact ⟨by rw [hd]; simp, rfl⟩
        have hstep := LStep.write (r := r) (desc := desc) (kind := kind) (area := area) hs hk (c := if early then got t else L.content) (fun q => by
          cases early
          · exact (hseen t hd.1 q).2
          · exact (hseen t hd.1 q).1)
        obtain ⟨L', h3, h4, h5, h6⟩ := ih (got := got) (fun u hu q => by
          have := hseen u (by rw [← hd.2]; exact hu) q
          refine ⟨.inl this.1, ?_⟩
          by_cases hqp : q = p
          · subst hqp; exact .inr ⟨rfl, Build.update_self _ _ _⟩
          · simp only [Build.update_ne _ _ hqp]; exact .inl this.2) (L := { L with
            s := s1
            content := update L.content p (r.make (desc t) (if early then got t else L.content) p)
            seen := fun u q v => L.seen u q v ∨ (q = p ∧ v = r.make (desc t) (if early then got t else L.content) p)
            spoilt := fun p' q => (p' = p ∧ L.changed q) ∨ (p' ≠ p ∧ L.spoilt p' q) }) h
        exact ⟨L', head hstep h3, h4, h5, h6⟩
      · cases h
    · exact other _ (by simp) (by simp) h
    · exact other .tick (by simp) (by simp) h
    · obtain ⟨h1, h2⟩ := hes q v List.mem_cons_self
      simp only [disturbed] at h
      obtain ⟨L', h3, h4, h5, h6⟩ := ih (got := got) (fun u hu x => by
          have := hseen u hu x
          refine ⟨.inl this.1, ?_⟩
          by_cases hxq : x = q
          · subst hxq; exact .inr ⟨rfl, Build.update_self _ _ _⟩
          · simp only [Build.update_ne _ _ hxq]; exact .inl this.2) (L := { L with
        s := { L.s with fs := update L.s.fs q (some ⟨L.s.clock, false⟩), clock := L.s.clock + 1 }
        content := update L.content q v
        seen := fun u x y => L.seen u x y ∨ (x = q ∧ y = v)
        changed := fun x => x = q ∨ L.changed x
        spoilt := fun p x => L.spoilt p x ∧ x ≠ q }) h
      refine ⟨L', head (.edit h1 h2) h3, h4, h5, fun x hx => ?_⟩
      rcases h6 x hx with (h | h) | h
      · exact .inr (h ▸ List.mem_cons_self)
      · exact .inl h
      · exact .inr (List.mem_cons_of_mem _ h)

theorem disturbed_all {r : Recipes Path V D} {b : Build.Build Path} {desc : Nat → D} {early : Bool} {es : List (Act Path ⊕ Path × V)} {l : List Path} (hes : ∀ p ∈ placesOf es, p ∈ l)
    {s s' : State Path} {c c' : Path → V} {got : Nat → Path → V} (hs : ∀ p, (s.fs p).isSome → p ∈ l) (h : disturbed r b desc early es s c got = some (s', c')) :
    ∀ p, (s'.fs p).isSome → p ∈ l := by
  have upd : ∀ {fs : Build.FileSys Path} {q st}, q ∈ l → (∀ p, (fs p).isSome → p ∈ l) → ∀ p, ((update fs q (some st)) p).isSome → p ∈ l := by
    intro fs q st hq hfs p hp
    by_cases hpq : p = q
    · subst hpq; exact hq
    · rw [Build.update_ne _ _ hpq] at hp; exact hfs p hp
  induction es generalizing s c got with
  | nil =>
    simp only [disturbed, Option.some.injEq, Prod.mk.injEq] at h
    rw [← h.1]; exact hs
  | cons e es ih =>
    rcases e with (a | k | ⟨k, p⟩ | p | _) | ⟨q, v⟩
    · simp only [disturbed] at h
      split at h
      · rename_i s1 hs1
        refine ih hes ?_ h
        rcases Build.step_cases hs1 with ⟨a', sched', h', _, _, rfl⟩ | ⟨k', t', h', _, _, rfl⟩ | ⟨k', t', p', h', _, _, _, rfl⟩ | ⟨p', h', _, rfl⟩ | ⟨h', rfl⟩ <;> cases h'
        exact hs
      · cases h
    · simp only [disturbed] at h
      split at h
      · rename_i s1 t hs1 _
        refine ih hes ?_ h
        rcases Build.step_cases hs1 with ⟨a', sched', h', _, _, rfl⟩ | ⟨k', t', h', _, _, rfl⟩ | ⟨k', t', p', h', _, _, _, rfl⟩ | ⟨p', h', _, rfl⟩ | ⟨h', rfl⟩ <;> cases h'
        exact hs
      · cases h
    · simp only [disturbed] at h
      split at h
      · rename_i s1 t hs1 _
        refine ih (fun x hx => hes x (List.mem_cons_of_mem _ hx)) ?_ h
        rcases Build.step_cases hs1 with ⟨a', sched', h', _, _, rfl⟩ | ⟨k', t', h', _, _, rfl⟩ | ⟨k', t', p', h', _, _, _, rfl⟩ | ⟨p', h', _, rfl⟩ | ⟨h', rfl⟩ <;> cases h'
        exact upd (hes p List.mem_cons_self) hs
      · cases h
    · simp only [disturbed] at h
      split at h
      · rename_i s1 hs1
        refine ih (fun x hx => hes x (List.mem_cons_of_mem _ hx)) ?_ h
        rcases Build.step_cases hs1 with ⟨a', sched', h', _, _, rfl⟩ | ⟨k', t', h', _, _, rfl⟩ | ⟨k', t', p', h', _, _, _, rfl⟩ | ⟨p', h', _, rfl⟩ | ⟨h', rfl⟩ <;> cases h'
        exact upd (hes p List.mem_cons_self) hs
      · cases h
    · simp only [disturbed] at h
      split at h
      · rename_i s1 hs1
        refine ih hes ?_ h
        rcases Build.step_cases hs1 with ⟨a', sched', h', _, _, rfl⟩ | ⟨k', t', h', _, _, rfl⟩ | ⟨k', t', p', h', _, _, _, rfl⟩ | ⟨p', h', _, rfl⟩ | ⟨h', rfl⟩ <;> cases h'
        exact hs
      · cases h
    · simp only [disturbed] at h
      exact ih (fun x hx => hes x (List.mem_cons_of_mem _ hx)) (upd (hes q List.mem_cons_self) hs) h

end

namespace EditsExample

open IncrementalExample

def cppName : Path := parse ['a', '.', 'c', 'p', 'p']

def objName : Path := parse ['_', '_', 't', '/', 'a', '.', 'o']

/-- `a.cpp` gets number 3 just before its target is written. -/
def late : List (Act Path) → List (Act Path ⊕ Path × Nat)
  | [] => []
  | .write k p :: as => if p = objName then .inr (cppName, 3) :: .inl (.write k p) :: late as else .inl (.write k p) :: late as
  | a :: as => .inl a :: late as

/-- `a.cpp` gets number 3 after the source tree has been loaded, and before anything is executed. -/
def soon (as : List (Act Path)) : List (Act Path ⊕ Path × Nat) := .inr (cppName, 3) :: as.map .inl

/-- What a disturbed build of `w₁` leaves behind. -/
def left (early : Bool) (es : List (Act Path ⊕ Path × Nat)) : World Path Nat :=
  match disturbed tools.recipes (buildOf w₁) (orderOf (filesOf w₁) (treeOf (filesOf w₁))) early es (Build.init (buildOf w₁) w₁.fs w₁.clock) w₁.content (fun _ _ => 0) with
  | some (s, c) => ⟨s.fs, s.clock, c⟩
  | none => w₁

theorem left_life {early : Bool} {es : List (Act Path ⊕ Path × Nat)} (hes : ∀ q ∈ editsOf es, area q = false ∧ kind q = false)
    (hpl : ∀ p ∈ placesOf es, p ∈ paths) : (∃ sp, BusyLife loading kind area outside tools (left early es) sp ∧ ∀ p q, sp p q → q ∈ editsOf es) ∧ ∀ p, ((left early es).fs p).isSome → p ∈ paths := by
  have hstart : BusyLife loading kind area outside tools w₁ fun _ _ => False := by
    refine .start (fun p hp _ => ?_) (fresh_past 0 5) (fresh_kinds 0 5)
    cases hf : (fresh 0 5).fs p with
    | none => exact hf
    | some st =>
      have : ∀ x ∈ stats, area x.1 = false := by decide +kernel
      rw [this _ (RequestExample.fsOf_mem hf)] at hp; cases hp
  unfold left
  split
  · rename_i s c hx
    obtain ⟨L, hL, rfl, rfl, hch⟩ := disturbed_live (kind := kind) (area := area) (L := .start (buildOf w₁) w₁ (fun q => w₁.view kind q ≠ w₁.view kind q) fun _ _ => False)
      (fun q v hm => hes q (mem_editsOf hm)) (fun t ht => absurd rfl ht) hx
    refine ⟨⟨_, .run hstart opens₁ (.build (.inl rfl) hL .done), fun p q h => ?_⟩, disturbed_all hpl (fresh_all 0 5) hx⟩
    rcases (Build.spoilt_changed hL).2 p q h with h | h
    · exact h.elim
    · exact (hch q h).elim (fun h => absurd rfl h) id
  · exact ⟨⟨_, hstart, fun _ _ h => h.elim⟩, fresh_all 0 5⟩

/-- The recipe has read `a.cpp` before the edit. -/
def w₅ : World Path Nat := left true (late (actsOf w₁))

/-- The recipe reads `a.cpp` after the edit, but it is told what was needed before. -/
def w₆ : World Path Nat := left false (soon (actsOf w₁))

theorem life₅ : (∃ sp, BusyLife loading kind area outside tools w₅ sp ∧ ∀ p q, sp p q → q = cppName) ∧ ∀ p, (w₅.fs p).isSome → p ∈ paths := by
  obtain ⟨⟨sp, h1, h2⟩, h3⟩ := left_life (early := true) (es := late (actsOf w₁)) (by decide +kernel) (by decide +kernel)
  have : ∀ q ∈ editsOf (late (actsOf w₁)), q = cppName := by decide +kernel
  exact ⟨⟨sp, h1, fun p q h => this q (h2 p q h)⟩, h3⟩

theorem life₆ : (∃ sp, BusyLife loading kind area outside tools w₆ sp ∧ ∀ p q, sp p q → q = cppName) ∧ ∀ p, (w₆.fs p).isSome → p ∈ paths := by
  obtain ⟨⟨sp, h1, h2⟩, h3⟩ := left_life (early := false) (es := soon (actsOf w₁)) (by decide +kernel) (by decide +kernel)
  have : ∀ q ∈ editsOf (soon (actsOf w₁)), q = cppName := by decide +kernel
  exact ⟨⟨sp, h1, fun p q h => this q (h2 p q h)⟩, h3⟩

theorem busy₅ : ∃ sp, Build.Busy (project loading kind area outside tools) w₅ sp := by
  obtain ⟨⟨sp, h, _⟩, _⟩ := life₅
  exact ⟨sp, Build.busyPast_busy (busyLife_past h)⟩

theorem busy₆ : ∃ sp, Build.Busy (project loading kind area outside tools) w₆ sp := by
  obtain ⟨⟨sp, h, _⟩, _⟩ := life₆
  exact ⟨sp, Build.busyPast_busy (busyLife_past h)⟩

theorem opens₅ : Opens loading kind area outside w₅ (diskOf w₅.fs paths).names (filesOf w₅) (treeOf (filesOf w₅)) := by
  obtain ⟨sp, hk⟩ := busy₅
  exact opens_of 60 rfl life₅.2 (by decide +kernel) (by decide +kernel) (by decide +kernel) (by decide +kernel) (by decide +kernel) (by decide +kernel)
    (by decide +kernel) (by decide +kernel) hk.past hk.kinds (by decide +kernel) (by decide +kernel) (by decide +kernel) (by decide +kernel)
    (by decide +kernel) (by decide +kernel) disjoint (by decide +kernel) (by decide +kernel)

theorem opens₆ : Opens loading kind area outside w₆ (diskOf w₆.fs paths).names (filesOf w₆) (treeOf (filesOf w₆)) := by
  obtain ⟨sp, hk⟩ := busy₆
  exact opens_of 60 rfl life₆.2 (by decide +kernel) (by decide +kernel) (by decide +kernel) (by decide +kernel) (by decide +kernel) (by decide +kernel)
    (by decide +kernel) (by decide +kernel) hk.past hk.kinds (by decide +kernel) (by decide +kernel) (by decide +kernel) (by decide +kernel)
    (by decide +kernel) (by decide +kernel) disjoint (by decide +kernel) (by decide +kernel)

theorem performs₅ : Performs tools.recipes (buildOf w₅) (orderOf (filesOf w₅) (treeOf (filesOf w₅))) w₅ (built w₅).1 (built w₅).2 := after_performs (by decide +kernel)

theorem performs₆ : Performs tools.recipes (buildOf w₆) (orderOf (filesOf w₆) (treeOf (filesOf w₆))) w₆ (built w₆).1 (built w₆).2 := after_performs (by decide +kernel)

/-- The target should contain 9 (3 from `a.cpp`, 5 from `b.h`, and one); it contains 1 if the recipe has read `a.cpp` before the edit, and 4 if it has not been told about `b.h`. -/
example : (built w₅).2.content objName = 1 ∧ (built w₆).2.content objName = 4 := by decide +kernel

/-- The file is saved once more, and there is another build. -/
def w₇ : World Path Nat := w₅.edit cppName 3

theorem life₇ : ∃ sp, BusyLife loading kind area outside tools w₇ sp ∧ ∀ p q, ¬ sp p q := by
  obtain ⟨⟨sp, h, hsp⟩, _⟩ := life₅
  exact ⟨_, .edit h (by decide +kernel) (by decide +kernel), fun p q h => h.2 (hsp p q h.1)⟩

theorem all₇ : ∀ p, (w₇.fs p).isSome → p ∈ paths := by
  intro p h
  by_cases h1 : p = cppName
  · rw [h1]; decide +kernel
  · simp only [w₇, World.edit, Build.update_ne _ _ h1] at h
    exact life₅.2 p h

theorem opens₇ : Opens loading kind area outside w₇ (diskOf w₇.fs paths).names (filesOf w₇) (treeOf (filesOf w₇)) := by
  obtain ⟨sp, h, _⟩ := life₇
  have hk := Build.busyPast_busy (busyLife_past h)
  exact opens_of 60 rfl all₇ (by decide +kernel) (by decide +kernel) (by decide +kernel) (by decide +kernel) (by decide +kernel) (by decide +kernel)
    (by decide +kernel) (by decide +kernel) hk.past hk.kinds (by decide +kernel) (by decide +kernel) (by decide +kernel) (by decide +kernel)
    (by decide +kernel) (by decide +kernel) disjoint (by decide +kernel) (by decide +kernel)

theorem performs₇ : Performs tools.recipes (buildOf w₇) (orderOf (filesOf w₇) (treeOf (filesOf w₇))) w₇ (built w₇).1 (built w₇).2 := after_performs (by decide +kernel)

/-- The hypotheses of `C110_project_partial` are met. -/
example : ∃ o : Order, o.src = cppName ∧ (built w₇).2.content objName = tools.make o (built w₇).2.content objName := by
  obtain ⟨sp, h, hsp⟩ := life₇
  have hx : ∃ x ∈ filesOf w₇, x.1 = cppName ∧ ∃ t ∈ x.2.targets, t.name = objName := by decide +kernel
  obtain ⟨⟨k, i⟩, hx, h1, t, ht, e⟩ := hx
  obtain ⟨p, hs, rfl⟩ := (mem_files opens₇.proper opens₇.loads _ _).mp hx
  obtain ⟨u, hu, hup⟩ := task_of_scanned opens₇ hs ht
  obtain ⟨o, ho, _, _, _, _, _, hc⟩ := C110_project_partial h opens₇ (fun _ _ => rfl) (.inl rfl) performs₇ ⟨2, by decide +kernel⟩ hs hup hu ht (by rw [e]; decide +kernel)
    (.inr (.inr fun q _ => hsp _ q))
  rw [e] at hc
  exact ⟨o, ho.trans h1, hc⟩

/-- Now it contains what it should. -/
example : (built w₇).2.content objName = 9 := by decide +kernel

end EditsExample

open EditsExample IncrementalExample in
/-- **C110 does not hold.** A file is edited while its recipe is running, or after maike has read it and before its recipe is executed. The target is written after that, so its time stamp is newer, and
the next build, which nobody disturbs, succeeds without making it again. The target does not belong to what is in the file. -/
theorem C110_false : ¬ ∀ {V : Type} {L : Loading V} {kind area outside : Path → Bool} {r : Tools V kind} {w w' : World Path V} {sp : Path → Path → Prop}
    {names : Path → List Str × Option Str} {files : List (Path × FileInfo)} {tree : Db.SourceTree Path} {s : State Path},
    BusyLife L kind area outside r w sp → Opens L kind area outside w names files tree →
    Performs r.recipes (Build.ofGraph tree.graph (Db.taskListAll tree.graph).2 1 false kind true) (orderOf files tree) w s w' → s.Succeeded →
    ∀ u ∈ (Db.taskListAll tree.graph).2, ∀ p ∈ (orderOf files tree u).targets, kind p = false → w'.content p = r.make (orderOf files tree u) w'.content p := by
  intro h
  obtain ⟨⟨sp, hl, _⟩, _⟩ := life₅
  have := h hl opens₅ performs₅ ⟨2, by decide +kernel⟩ 3 (by decide +kernel) objName (by decide +kernel) (by decide +kernel)
  exact absurd this (by decide +kernel)

open EditsExample IncrementalExample in
/-- **C110 does not hold**, second witness: recipes that read files at the moment they write do not help. -/
theorem C110_false_scan : ¬ ∀ {sp : Path → Path → Prop} {s : State Path} {w' : World Path Nat},
    BusyLife loading kind area outside tools w₆ sp →
    Performs tools.recipes (buildOf w₆) (orderOf (filesOf w₆) (treeOf (filesOf w₆))) w₆ s w' → s.Succeeded →
    w'.content objName = tools.make (orderOf (filesOf w₆) (treeOf (filesOf w₆)) 3) w'.content objName := by
  intro h
  obtain ⟨⟨sp, hl, _⟩, _⟩ := life₆
  exact absurd (h hl performs₆ ⟨2, by decide +kernel⟩) (by decide +kernel)

end Maike.Main
