/-!
# Ownership of functions (C56)

core/utils/unique_function.hpp: a `UniqueFunction` points to a function object on the heap. The model keeps track of the heap, so that
using memory that has been released is a distinct outcome.
-/

namespace Maike.Utils.UniqueFunction

/-! ## Model -/

/-- A `UniqueFunction`, core/utils/unique_function.hpp:66-68. The function to call and the destructor always belong to the type of the object `data` points to; what
matters is whether `r_dtor` is `null_dtor`. -/
structure Obj where
  data : Nat
  /-- `r_dtor != null_dtor` -/
  owns : Bool
deriving DecidableEq, Repr

/-- Memory of a function object. -/
inductive Cell where
  | fresh
  | live
  | released
deriving DecidableEq, Repr

/-- What can be observed of function objects. -/
inductive Event where
  | made (f : Nat)
  | called (f : Nat)
  | destroyed (f : Nat)
deriving DecidableEq, Repr

structure State where
  /-- The `UniqueFunction`s that exist -/
  obj : Nat → Option Obj
  heap : Nat → Cell
  /-- the address of the next function object -/
  next : Nat
  log : List Event
  /-- undefined behaviour has occured -/
  ub : Bool

/-- There are no objects. -/
def init : State := ⟨fun _ => none, fun _ => .fresh, 0, [], false⟩

/-- What a program may do. -/
inductive Op where
  /-- `UniqueFunction i{f};` -/
  | make (i : Nat)
  /-- `UniqueFunction i{std::move(j)};` -/
  | moveMake (i j : Nat)
  /-- `i = std::move(j);` -/
  | moveAssign (i j : Nat)
  | destroy (i : Nat)
  /-- `i();` -/
  | call (i : Nat)
deriving DecidableEq, Repr

/-- `r_dtor(m_data)`, core/utils/unique_function.hpp:70-78: nothing if the object does not own the function, otherwise `delete`. -/
def runDtor (o : Obj) (s : State) : State :=
  if o.owns then
    if s.heap o.data = .live then
      { s with heap := fun p => if p = o.data then .released else s.heap p, log := s.log ++ [.destroyed o.data] }
    else { s with ub := true }
  else s

/-- core/utils/unique_function.hpp:22-63. `none`: the program is not valid, because it uses an object that does not exist, or creates one in a
place that is occupied. Calling an object that does not own a function violates the assertion in l. 56, and is counted as undefined behaviour. -/
def step (s : State) : Op → Option State
  | .make i =>
    match s.obj i with
    | some _ => none
    | none => some { s with obj := fun k => if k = i then some ⟨s.next, true⟩ else s.obj k, heap := fun p => if p = s.next then .live else s.heap p,
                            next := s.next + 1, log := s.log ++ [.made s.next] }
  | .moveMake i j =>
    match s.obj i, s.obj j with
    | none, some o => some { s with obj := fun k => if k = j then some { o with owns := false } else if k = i then some o else s.obj k }
    | _, _ => none
  | .moveAssign i j =>
    match s.obj i, s.obj j with
    | some t, some o =>
      let s := runDtor t s
      some { s with obj := fun k => if k = j then some { o with owns := false } else if k = i then some o else s.obj k }
    | _, _ => none
  | .destroy i =>
    match s.obj i with
    | some o =>
      let s := runDtor o s
      some { s with obj := fun k => if k = i then none else s.obj k }
    | none => none
  | .call i =>
    match s.obj i with
    | some o =>
      if o.owns = true ∧ s.heap o.data = .live then some { s with log := s.log ++ [.called o.data] }
      else some { s with ub := true }
    | none => none

def exec : List Op → State → Option State
  | [], s => some s
  | op :: ops, s => (step s op).bind (exec ops)

/-! ## Specification -/

/-- Which objects hold a function, as a user of the class sees it: making and moving an object fills the destination, and leaves the source empty. -/
def holds : List Op → Nat → Bool
  | [], _ => false
  | .make i :: older, k => k = i || holds older k
  | .moveMake i j :: older, k => if k = j then false else if k = i then holds older j else holds older k
  | .moveAssign i j :: older, k => if k = j then false else if k = i then holds older j else holds older k
  | .destroy i :: older, k => if k = i then false else holds older k
  | .call _ :: older, k => holds older k

/-- Functions are called only through objects that hold one. `older` are the operations that have been done, last one first. -/
def CallsHeld : List Op → List Op → Prop
  | _, [] => True
  | older, op :: ops => (∀ i, op = .call i → holds older i = true) ∧ CallsHeld (op :: older) ops

/-! ## Invariant -/

def ownsAt : Option Obj → Bool
  | some o => o.owns
  | none => false

structure Inv (older : List Op) (s : State) : Prop where
  ub : s.ub = false
  holds : ∀ i, holds older i = ownsAt (s.obj i)
  live : ∀ i o, s.obj i = some o → o.owns = true → s.heap o.data = .live
  unique : ∀ i j o o', s.obj i = some o → s.obj j = some o' → o.owns = true → o'.owns = true → o.data = o'.data → i = j
  owned : ∀ p, s.heap p = .live → ∃ i o, s.obj i = some o ∧ o.owns = true ∧ o.data = p
  fresh : ∀ p, s.heap p = .fresh ↔ s.next ≤ p
  made : ∀ p, .made p ∈ s.log ↔ s.heap p ≠ .fresh
  destroyed : ∀ p, .destroyed p ∈ s.log ↔ s.heap p = .released
  after : ∀ a b p, s.log = a ++ .destroyed p :: b → .destroyed p ∉ b ∧ .called p ∉ b

theorem snoc_after {l : List Event} {e : Event} (h : ∀ a b p, l = a ++ .destroyed p :: b → .destroyed p ∉ b ∧ .called p ∉ b)
    (he : ∀ p, (e = .destroyed p ∨ e = .called p) → .destroyed p ∉ l) (a b : List Event) (p : Nat) (hl : l ++ [e] = a ++ .destroyed p :: b) :
    .destroyed p ∉ b ∧ .called p ∉ b := by
  rcases List.eq_nil_or_concat b with rfl | ⟨b', x, rfl⟩
  · simp
  · have hl : l ++ [e] = (a ++ .destroyed p :: b') ++ [x] := by simp [hl]
    have hx := List.append_inj' hl rfl
    have h1 := h a b' p hx.1
    have h2 : Event.destroyed p ∈ l := by simp [hx.1]
    have hex : e = x := by simpa using hx.2
    subst hex
    constructor
    · intro hm
      rw [List.concat_eq_append] at hm
      rcases List.mem_append.1 hm with hm | hm
      · exact h1.1 hm
      · exact he p (.inl (by simpa [eq_comm] using hm)) h2
    · intro hm
      rw [List.concat_eq_append] at hm
      rcases List.mem_append.1 hm with hm | hm
      · exact h1.2 hm
      · exact he p (.inr (by simpa [eq_comm] using hm)) h2

theorem inv_init : Inv [] init := by
  constructor <;> simp [init, holds, ownsAt]

theorem step_inv {older : List Op} {s t : State} (h : Inv older s) {op : Op} (hs : step s op = some t)
    (hc : ∀ i, op = .call i → holds older i = true) : Inv (op :: older) t := by
  obtain ⟨h1, h2, h3, h4, h5, h6, h7, h8, h9⟩ := h
  cases op with
  | make i =>
    cases hi : s.obj i with
    | some o => simp [step, hi] at hs
    | none =>
      simp only [step, hi, Option.some.injEq] at hs
      subst hs
      have hf : s.heap s.next = .fresh := (h6 _).2 (Nat.le_refl _)
      constructor
      case after =>
        refine snoc_after h9 fun p hp => ?_
        rcases hp with hp | hp <;> cases hp
      case owned =>
        intro p hp
        simp only at hp
        by_cases hpn : p = s.next
        · exact ⟨i, ⟨s.next, true⟩, by simp, rfl, hpn.symm⟩
        · simp only [hpn, if_false] at hp
          obtain ⟨k, o, hk, ho⟩ := h5 p hp
          have : k ≠ i := by
            intro hki
            simp [hki, hi] at hk
          exact ⟨k, o, by simp [this, hk], ho⟩
      all_goals simp only [holds] <;> grind [ownsAt]
  | moveMake i j =>
    cases hi : s.obj i with
    | some o => simp [step, hi] at hs
    | none =>
      cases hj : s.obj j with
      | none => simp [step, hi, hj] at hs
      | some o =>
        simp only [step, hi, hj, Option.some.injEq] at hs
        subst hs
        have hij : i ≠ j := by
          intro e
          simp [e, hj] at hi
        constructor
        case owned =>
          intro p hp
          obtain ⟨k, o', hk, ho⟩ := h5 p hp
          by_cases hkj : k = j
          · exact ⟨i, o, by simp [hij], by grind⟩
          · exact ⟨k, o', by grind, ho⟩
        case after => exact h9
        all_goals simp only [holds] <;> grind [ownsAt]
  | call i =>
    cases hi : s.obj i with
    | none => simp [step, hi] at hs
    | some o =>
      have ho : o.owns = true := by
        have h := hc i rfl
        rw [h2, hi] at h
        exact h
      have hl := h3 i o hi ho
      simp only [step, hi, ho, hl, and_self, if_true, Option.some.injEq] at hs
      subst hs
      constructor
      case after =>
        refine snoc_after h9 fun p hp => ?_
        rcases hp with hp | hp
        · cases hp
        · cases hp
          rw [h8, hl]
          simp
      all_goals simp only [holds] <;> grind [ownsAt]
  | destroy i =>
    cases hi : s.obj i with
    | none => simp [step, hi] at hs
    | some o =>
      simp only [step, hi, Option.some.injEq] at hs
      subst hs
      cases ho : o.owns with
      | false =>
        simp only [runDtor, ho, Bool.false_eq_true, if_false]
        constructor
        case owned =>
          intro p hp
          obtain ⟨k, o', hk, ho'⟩ := h5 p hp
          exact ⟨k, o', by grind, ho'⟩
        case after => exact h9
        all_goals simp only [holds] <;> grind [ownsAt]
      | true =>
        have hl := h3 i o hi ho
        simp only [runDtor, ho, hl, if_true]
        constructor
        case owned =>
          intro p hp
          simp only at hp
          split at hp
          · cases hp
          · obtain ⟨k, o', hk, ho'⟩ := h5 p hp
            exact ⟨k, o', by grind, ho'⟩
        case after =>
          refine snoc_after h9 fun p hp => ?_
          rcases hp with hp | hp
          · cases hp
            rw [h8, hl]
            simp
          · cases hp
        all_goals simp only [holds] <;> grind [ownsAt]
  | moveAssign i j =>
    cases hi : s.obj i with
    | none => simp [step, hi] at hs
    | some o =>
      cases hj : s.obj j with
      | none => simp [step, hi, hj] at hs
      | some q =>
        simp only [step, hi, hj, Option.some.injEq] at hs
        subst hs
        cases ho : o.owns with
        | false =>
          simp only [runDtor, ho, Bool.false_eq_true, if_false]
          constructor
          case owned =>
            intro p hp
            obtain ⟨k, o', hk, ho'⟩ := h5 p hp
            by_cases hkj : k = j
            · exact ⟨i, q, by grind, by grind⟩
            · exact ⟨k, o', by grind, ho'⟩
          case after => exact h9
          all_goals simp only [holds] <;> grind [ownsAt]
        | true =>
          have hl := h3 i o hi ho
          simp only [runDtor, ho, hl, if_true]
          constructor
          case owned =>
            intro p hp
            simp only at hp
            split at hp
            · cases hp
            · obtain ⟨k, o', hk, ho'⟩ := h5 p hp
              by_cases hkj : k = j
              · exact ⟨i, q, by grind, by grind⟩
              · exact ⟨k, o', by grind, ho'⟩
          case after =>
            refine snoc_after h9 fun p hp => ?_
            rcases hp with hp | hp
            · cases hp
              rw [h8, hl]
              simp
            · cases hp
          all_goals simp only [holds] <;> grind [ownsAt]

theorem exec_inv {ops : List Op} {older : List Op} {s t : State} (h : Inv older s) (hs : exec ops s = some t) (hc : CallsHeld older ops) :
    Inv (ops.reverse ++ older) t := by
  induction ops generalizing older s with
  | nil => exact Option.some.inj hs ▸ h
  | cons op ops ih =>
    obtain ⟨u, hu, ht⟩ := Option.bind_eq_some_iff.1 hs
    have := ih (step_inv h hu hc.1) ht hc.2
    simpa using this

/-! ## C56 -/

/-- **C56.** However objects are made, moved, assigned and destroyed, no memory is used after it has been released, and none is released twice,
provided that only objects that hold a function are called. -/
theorem C56_function_safe (ops : List Op) (s : State) (h : exec ops init = some s) (hc : CallsHeld [] ops) : s.ub = false :=
  (exec_inv inv_init h hc).ub

/-- **C56.** A function is destroyed at most once, and is not called afterwards. -/
theorem C56_function_once (ops : List Op) (s : State) (h : exec ops init = some s) (hc : CallsHeld [] ops) (a b : List Event) (f : Nat)
    (hl : s.log = a ++ .destroyed f :: b) : .made f ∈ s.log ∧ .destroyed f ∉ a ∧ .destroyed f ∉ b ∧ .called f ∉ b := by
  have hi := exec_inv inv_init h hc
  have hd : Event.destroyed f ∈ s.log := by simp [hl]
  have hr := (hi.destroyed f).1 hd
  have hb := hi.after a b f hl
  refine ⟨(hi.made f).2 (by simp [hr]), fun ha => ?_, hb.1, hb.2⟩
  obtain ⟨a1, a2, rfl⟩ := List.append_of_mem ha
  have := (hi.after a1 (a2 ++ .destroyed f :: b) f (by simp [hl])).1
  simp at this

/-- **C56.** When all objects are gone, all functions have been destroyed. -/
theorem C56_function_no_leak (ops : List Op) (s : State) (h : exec ops init = some s) (hc : CallsHeld [] ops) (hgone : ∀ i, s.obj i = none) (f : Nat)
    (hf : .made f ∈ s.log) : .destroyed f ∈ s.log := by
  have hi := exec_inv inv_init h hc
  rw [hi.destroyed]
  have h1 := (hi.made f).1 hf
  cases hp : s.heap f with
  | fresh => exact absurd hp h1
  | released => rfl
  | live =>
    obtain ⟨i, o, ho, _⟩ := hi.owned f hp
    simp [hgone] at ho

/-- **C56.** Of two objects that hold a function, each one has its own; and `holds` is what `valid()` says. -/
theorem C56_function_one_owner (ops : List Op) (s : State) (h : exec ops init = some s) (hc : CallsHeld [] ops) :
    (∀ i, holds ops.reverse i = true ↔ ∃ o, s.obj i = some o ∧ o.owns = true) ∧
    (∀ i j o o', s.obj i = some o → s.obj j = some o' → o.owns = true → o'.owns = true → o.data = o'.data → i = j) := by
  have hi := exec_inv inv_init h hc
  simp only [List.append_nil] at hi
  refine ⟨fun i => ?_, hi.unique⟩
  rw [hi.holds]
  cases s.obj i <;> simp [ownsAt]

/-- Assigning an object to itself empties it: the function is destroyed. -/
theorem C56_function_self_assignment :
    ∃ s, exec [.make 0, .moveAssign 0 0] init = some s ∧ s.log = [.made 0, .destroyed 0] ∧ s.obj 0 = some ⟨0, false⟩ := ⟨_, rfl, rfl, rfl⟩

example : ∃ s, exec [.make 0, .make 1, .call 0, .moveAssign 1 0, .call 1, .moveMake 2 1, .destroy 0, .call 2, .destroy 1, .destroy 2] init = some s ∧
    (∀ i, s.obj i = none) ∧
    s.log = [.made 0, .made 1, .called 0, .destroyed 1, .called 0, .called 0, .destroyed 0] := by
  refine ⟨_, rfl, fun i => ?_, rfl⟩
  match i with
  | 0 | 1 | 2 | n + 3 => rfl

example : CallsHeld [] [.make 0, .make 1, .call 0, .moveAssign 1 0, .call 1, .moveMake 2 1, .destroy 0, .call 2, .destroy 1, .destroy 2] := by
  simp [CallsHeld, holds]

end Maike.Utils.UniqueFunction
