/-!
# Actions at the end of a scope (C56)

core/utils/scope_exit_handler.hpp.
-/

namespace Maike.Utils.ScopeExit

/-! ## Model -/

/-- A handler has an action, or has been moved from: `m_obj`, core/utils/scope_exit_handler.hpp:33. Actions are numbered. -/
abbrev Handler := Option Nat

structure State where
  /-- the handlers that exist -/
  obj : Nat → Option Handler
  /-- number of actions made so far -/
  next : Nat
  /-- the actions that have been executed, last one at the end -/
  ran : List Nat

/-- There are no handlers. -/
def init : State := ⟨fun _ => none, 0, []⟩

/-- What a program may do. -/
inductive Op where
  /-- `ScopeExitHandler i{action};` -/
  | make (i : Nat)
  /-- `ScopeExitHandler i{std::move(j)};` -/
  | moveMake (i j : Nat)
  /-- `i = std::move(j);` -/
  | moveAssign (i j : Nat)
  | destroy (i : Nat)
deriving DecidableEq, Repr

/-- core/utils/scope_exit_handler.hpp:12-30. `none`: the program is not valid. The missing `return` in l. 21-25 is not modelled; in C++, it makes
every assignment undefined. -/
def step (s : State) : Op → Option State
  | .make i =>
    match s.obj i with
    | some _ => none
    | none => some { s with obj := fun k => if k = i then some (some s.next) else s.obj k, next := s.next + 1 }
  | .moveMake i j =>
    match s.obj i, s.obj j with
    | none, some o => some { s with obj := fun k => if k = j then some none else if k = i then some o else s.obj k }
    | _, _ => none
  | .moveAssign i j =>
    match s.obj i, s.obj j with
    | some _, some o => some { s with obj := fun k => if k = j then some none else if k = i then some o else s.obj k }
    | _, _ => none
  | .destroy i =>
    match s.obj i with
    | some o => some { s with obj := fun k => if k = i then none else s.obj k, ran := s.ran ++ o.toList }
    | none => none

def exec : List Op → State → Option State
  | [], s => some s
  | op :: ops, s => (step s op).bind (exec ops)

/-! ## Specification -/

/-- The number of actions that have been made. -/
def actions (ops : List Op) : Nat := ops.countP fun op => op matches .make _

/-! ## Lemmas -/

structure Inv (s : State) : Prop where
  nodup : s.ran.Nodup
  ran : ∀ a ∈ s.ran, a < s.next
  held : ∀ i a, s.obj i = some (some a) → a < s.next ∧ a ∉ s.ran
  unique : ∀ i j a, s.obj i = some (some a) → s.obj j = some (some a) → i = j

/-- Every action has been executed, or is still held. -/
def Kept (s : State) : Prop := ∀ a, a < s.next → a ∈ s.ran ∨ ∃ i, s.obj i = some (some a)

theorem step_inv {s t : State} (h : Inv s) {op : Op} (hs : step s op = some t) : Inv t := by
  obtain ⟨h1, h2, h3, h4⟩ := h
  cases op with
  | make i =>
    cases hi : s.obj i <;> simp only [step, hi, Option.some.injEq, reduceCtorEq] at hs
    subst hs
    constructor <;> simp only <;> grind
  | moveMake i j =>
    cases hi : s.obj i <;> cases hj : s.obj j <;> simp only [step, hi, hj, Option.some.injEq, reduceCtorEq] at hs
    subst hs
    constructor <;> simp only <;> grind
  | moveAssign i j =>
    cases hi : s.obj i <;> cases hj : s.obj j <;> simp only [step, hi, hj, Option.some.injEq, reduceCtorEq] at hs
    subst hs
    constructor <;> simp only <;> grind
  | destroy i =>
    cases hi : s.obj i with
    | none => simp only [step, hi, reduceCtorEq] at hs
    | some o =>
      simp only [step, hi, Option.some.injEq] at hs
      subst hs
      cases o with
      | none => constructor <;> simp only [Option.toList, List.append_nil] <;> grind
      | some a =>
        have := h3 i a hi
        constructor <;> simp only [Option.toList] <;> grind

theorem step_kept {s t : State} (h : Kept s) {op : Op} (hs : step s op = some t) (ho : ∀ i j, op ≠ .moveAssign i j) : Kept t := by
  intro a ha
  cases op with
  | make i =>
    cases hi : s.obj i <;> simp only [step, hi, Option.some.injEq, reduceCtorEq] at hs
    subst hs
    simp only at ha ⊢
    by_cases e : a = s.next
    · exact .inr ⟨i, by simp [e]⟩
    · rcases h a (by omega) with h | ⟨k, hk⟩
      · exact .inl h
      · exact .inr ⟨k, by grind⟩
  | moveMake i j =>
    cases hi : s.obj i <;> cases hj : s.obj j <;> simp only [step, hi, hj, Option.some.injEq, reduceCtorEq] at hs
    subst hs
    rcases h a ha with h | ⟨k, hk⟩
    · exact .inl h
    · by_cases hkj : k = j
      · exact .inr ⟨i, by grind⟩
      · exact .inr ⟨k, by grind⟩
  | moveAssign i j => exact absurd rfl (ho i j)
  | destroy i =>
    cases hi : s.obj i with
    | none => simp only [step, hi, reduceCtorEq] at hs
    | some o =>
      simp only [step, hi, Option.some.injEq] at hs
      subst hs
      rcases h a ha with h | ⟨k, hk⟩
      · exact .inl (by simp [h])
      · by_cases hki : k = i
        · left
          rw [hki, hi] at hk
          simp only [Option.some.injEq] at hk
          simp [hk]
        · exact .inr ⟨k, by simp [hki, hk]⟩

theorem exec_inv {ops : List Op} {s t : State} (h : Inv s) (hs : exec ops s = some t) : Inv t ∧ t.next = s.next + actions ops := by
  induction ops generalizing s with
  | nil =>
    obtain rfl := Option.some.inj hs
    exact ⟨h, rfl⟩
  | cons op ops ih =>
    obtain ⟨u, hu, ht⟩ := Option.bind_eq_some_iff.1 hs
    obtain ⟨h1, h2⟩ := ih (step_inv h hu) ht
    refine ⟨h1, ?_⟩
    rw [h2]
    simp only [actions, List.countP_cons]
    cases op with
    | make i =>
      cases hi : s.obj i <;> simp only [step, hi, Option.some.injEq, reduceCtorEq] at hu
      subst hu
      simp
      omega
    | moveMake i j | moveAssign i j =>
      cases hi : s.obj i <;> cases hj : s.obj j <;> simp only [step, hi, hj, Option.some.injEq, reduceCtorEq] at hu
      subst hu
      simp
    | destroy i =>
      cases hi : s.obj i <;> simp only [step, hi, Option.some.injEq, reduceCtorEq] at hu
      subst hu
      simp

theorem exec_kept {ops : List Op} {s t : State} (h : Kept s) (hs : exec ops s = some t) (ho : ∀ i j, .moveAssign i j ∉ ops) : Kept t := by
  induction ops generalizing s with
  | nil => exact Option.some.inj hs ▸ h
  | cons op ops ih =>
    obtain ⟨u, hu, ht⟩ := Option.bind_eq_some_iff.1 hs
    exact ih (step_kept h hu fun i j e => ho i j (e ▸ List.mem_cons_self ..)) ht fun i j e => ho i j (List.mem_cons_of_mem _ e)

/-! ## C56 -/

theorem inv_init : Inv init := by constructor <;> simp [init]

/-- **C56.** No action is executed twice, and an action that has been executed is not held by any handler. -/
theorem C56_handler_at_most_once (ops : List Op) (s : State) (h : exec ops init = some s) :
    s.ran.Nodup ∧ (∀ i a, s.obj i = some (some a) → a ∉ s.ran) ∧ ∀ i j a, s.obj i = some (some a) → s.obj j = some (some a) → i = j := by
  have hi := (exec_inv inv_init h).1
  exact ⟨hi.nodup, fun i a ha => (hi.held i a ha).2, hi.unique⟩

/-- **C56.** If handlers are moved around by construction only, then all actions have been executed, each one once, when all handlers are gone. -/
theorem C56_handler_once (ops : List Op) (s : State) (h : exec ops init = some s) (ho : ∀ i j, .moveAssign i j ∉ ops) (hgone : ∀ i, s.obj i = none) :
    s.ran.Perm (List.range (actions ops)) := by
  have ⟨hi, hn⟩ := exec_inv inv_init h
  have hk := exec_kept (by intro a ha; simp [init] at ha) h ho
  have hn : s.next = actions ops := by simpa [init] using hn
  refine (List.perm_ext_iff_of_nodup hi.nodup List.nodup_range).2 fun a => ?_
  rw [List.mem_range, ← hn]
  refine ⟨hi.ran a, fun ha => ?_⟩
  rcases hk a ha with h | ⟨i, h⟩
  · exact h
  · simp [hgone] at h

/-- Assignment is different: the action of the destination is lost. -/
theorem C56_handler_assignment :
    ∃ s, exec [.make 0, .make 1, .moveAssign 0 1, .destroy 0, .destroy 1] init = some s ∧ s.ran = [1] ∧ ∀ i, s.obj i = none := by
  refine ⟨_, rfl, rfl, fun i => ?_⟩
  match i with
  | 0 | 1 | n + 2 => rfl

example : ∃ s, exec [.make 0, .moveMake 1 0, .make 2, .destroy 0, .moveMake 0 1, .destroy 0, .destroy 1, .destroy 2] init = some s ∧ s.ran = [0, 1] ∧
    ∀ i, s.obj i = none := by
  refine ⟨_, rfl, rfl, fun i => ?_⟩
  match i with
  | 0 | 1 | 2 | n + 3 => rfl

end Maike.Utils.ScopeExit
