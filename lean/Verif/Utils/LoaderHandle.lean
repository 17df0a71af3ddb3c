import Verif.Utils.UniqueFunction

/-!
# Ownership of loaders (C68)

core/source_file_info_loaders/loader.hpp: a `Loader` points to an object of some type on the heap, and has a table of functions that belong to this type.
-/

namespace Maike.Utils.LoaderHandle

open UniqueFunction (Event snoc_after)

/-! ## Model -/

/-- A `Loader`, without the compiler and the name. `vtable` is the type whose functions are in `m_vtable`. -/
structure Obj where
  /-- `m_handle`; `none` is the null pointer -/
  handle : Option Nat
  vtable : Nat
deriving DecidableEq, Repr

/-- Memory of an object; `live` with its type and value. -/
inductive Cell where
  | fresh
  | live (type value : Nat)
  | released
deriving DecidableEq, Repr

structure State where
  obj : Nat → Option Obj
  heap : Nat → Cell
  next : Nat
  /-- `made`: an object has been created, `called`: one of its member functions (also: the copy constructor) has been called -/
  log : List Event
  ub : Bool

/-- There are no loaders. -/
def init : State := ⟨fun _ => none, fun _ => .fresh, 0, [], false⟩

/-- What a program may do. -/
inductive Op where
  /-- `Loader i{T{value}}`, where `T` is `type` -/
  | make (i type value : Nat)
  /-- `Loader i{j}` -/
  | copy (i j : Nat)
  /-- `Loader i{std::move(j)}` -/
  | moveMake (i j : Nat)
  /-- `i = std::move(j)` -/
  | moveAssign (i j : Nat)
  | destroy (i : Nat)
  /-- one of `filterInput`, `getDependencies`, `config` -/
  | use (i : Nat)
deriving DecidableEq, Repr

/-- `m_vtable.destroy(m_handle)`, core/source_file_info_loaders/loader.hpp:47-50: `delete` does nothing when the pointer is null. -/
def destroy (o : Obj) (s : State) : State :=
  match o.handle with
  | none => s
  | some p =>
    match s.heap p with
    | .live type _ =>
      if type = o.vtable then { s with heap := fun q => if q = p then .released else s.heap q, log := s.log ++ [.destroyed p] }
      else { s with ub := true }
    | _ => { s with ub := true }

/-- core/source_file_info_loaders/loader.hpp:79-121 (l. 122-131 are the same with an object that is on the heap already), and the functions that use the
object, l. 36-46, 51-58, 133-175. `none`: the program is not valid. -/
def step (s : State) : Op → Option State
  | .make i type value =>
    match s.obj i with
    | some _ => none
    | none => some { s with obj := fun k => if k = i then some ⟨some s.next, type⟩ else s.obj k,
                            heap := fun p => if p = s.next then .live type value else s.heap p, next := s.next + 1, log := s.log ++ [.made s.next] }
  | .copy i j =>
    match s.obj i, s.obj j with
    | none, some o =>
      match o.handle with
      | none => some { s with ub := true }
      | some p =>
        match s.heap p with
        | .live type value =>
          if type = o.vtable then
            some { s with obj := fun k => if k = i then some ⟨some s.next, o.vtable⟩ else s.obj k,
                          heap := fun q => if q = s.next then .live type value else s.heap q, next := s.next + 1,
                          log := s.log ++ [.called p] ++ [.made s.next] }
          else some { s with ub := true }
        | _ => some { s with ub := true }
    | _, _ => none
  | .moveMake i j =>
    match s.obj i, s.obj j with
    | none, some o => some { s with obj := fun k => if k = j then some { o with handle := none } else if k = i then some o else s.obj k }
    | _, _ => none
  | .moveAssign i j =>
    match s.obj i, s.obj j with
    | some t, some o =>
      -- the contents are swapped; then what is in `j` is destroyed
      let s := destroy t s
      some { s with obj := fun k => if k = j then some { t with handle := none } else if k = i then some o else s.obj k }
    | _, _ => none
  | .destroy i =>
    match s.obj i with
    | some o =>
      let s := destroy o s
      some { s with obj := fun k => if k = i then none else s.obj k }
    | none => none
  | .use i =>
    match s.obj i with
    | some o =>
      match o.handle with
      | none => some { s with ub := true }
      | some p =>
        match s.heap p with
        | .live type _ => if type = o.vtable then some { s with log := s.log ++ [.called p] } else some { s with ub := true }
        | _ => some { s with ub := true }
    | none => none

def exec : List Op → State → Option State
  | [], s => some s
  | op :: ops, s => (step s op).bind (exec ops)

/-! ## Specification -/

/-- What the loaders are, as a user of the class sees it: values with a type, which can be copied and moved. `none`: has been moved from, or does
not exist. -/
def content : List Op → Nat → Option (Nat × Nat)
  | [], _ => none
  | .make i type value :: older, k => if k = i then some (type, value) else content older k
  | .copy i j :: older, k => if k = i then content older j else content older k
  | .moveMake i j :: older, k => if k = j then none else if k = i then content older j else content older k
  | .moveAssign i j :: older, k => if k = j then none else if k = i then content older j else content older k
  | .destroy i :: older, k => if k = i then none else content older k
  | .use _ :: older, k => content older k

/-- Only loaders that have a content are used or copied. `older` are the operations that have been done, last one first. -/
def UsesContent : List Op → List Op → Prop
  | _, [] => True
  | older, op :: ops => (∀ i, (op = .use i ∨ ∃ k, op = .copy k i) → content older i ≠ none) ∧ UsesContent (op :: older) ops

/-! ## Invariant -/

/-- What a loader is in the model. -/
def valueAt (heap : Nat → Cell) : Option Obj → Option (Nat × Nat)
  | some ⟨some p, _⟩ =>
    match heap p with
    | .live type value => some (type, value)
    | _ => none
  | _ => none

structure Inv (c : Nat → Option (Nat × Nat)) (s : State) : Prop where
  ub : s.ub = false
  content : ∀ i, c i = valueAt s.heap (s.obj i)
  live : ∀ i p ty, s.obj i = some ⟨some p, ty⟩ → ∃ v, s.heap p = .live ty v
  unique : ∀ i j p ty ty', s.obj i = some ⟨some p, ty⟩ → s.obj j = some ⟨some p, ty'⟩ → i = j
  owned : ∀ p ty v, s.heap p = .live ty v → ∃ i, s.obj i = some ⟨some p, ty⟩
  fresh : ∀ p, s.heap p = .fresh ↔ s.next ≤ p
  made : ∀ p, .made p ∈ s.log ↔ s.heap p ≠ .fresh
  destroyed : ∀ p, .destroyed p ∈ s.log ↔ s.heap p = .released
  after : ∀ a b p, s.log = a ++ .destroyed p :: b → .destroyed p ∉ b ∧ .called p ∉ b

theorem inv_init : Inv (content []) init := by
  constructor <;> simp [init, content, valueAt]

theorem inv_make {c : Nat → Option (Nat × Nat)} {s : State} (h : Inv c s) {i ty v : Nat} (hi : s.obj i = none) :
    Inv (fun k => if k = i then some (ty, v) else c k) ⟨fun k => if k = i then some ⟨some s.next, ty⟩ else s.obj k, fun p => if p = s.next then .live ty v else s.heap p, s.next + 1,
      s.log ++ [.made s.next], s.ub⟩ := by
  obtain ⟨h1, h2, h3, h4, h5, h6, h7, h8, h9⟩ := h
  have hf : s.heap s.next = .fresh := (h6 _).2 (Nat.le_refl _)
  have hlt : ∀ k p t, s.obj k = some ⟨some p, t⟩ → p ≠ s.next := by
    intro k p t hk e
    obtain ⟨v, hv⟩ := h3 k p t hk
    rw [e, hf] at hv
    cases hv
  constructor
  case after =>
    refine snoc_after h9 fun p hp => ?_
    rcases hp with hp | hp <;> cases hp
  case ub => exact h1
  case content =>
    intro k
    by_cases hk : k = i
    · simp [hk, valueAt]
    · simp only [hk, if_false]
      rw [h2]
      cases ho : s.obj k with
      | none => rfl
      | some o =>
        obtain ⟨p, t⟩ := o
        cases p with
        | none => rfl
        | some p =>
          have := hlt k p t ho
          simp [valueAt, this]
  case live =>
    intro k p t hk
    simp only at hk
    by_cases hki : k = i
    · simp only [hki, if_true, Option.some.injEq, Obj.mk.injEq] at hk
      exact ⟨v, by simp [hk]⟩
    · simp only [hki, if_false] at hk
      have := hlt k p t hk
      simpa [this] using h3 k p t hk
  case owned =>
    intro p t v' hp
    simp only at hp
    by_cases hpn : p = s.next
    · subst hpn
      simp only [if_true, Cell.live.injEq] at hp
      exact ⟨i, by simp [hp]⟩
    · simp only [hpn, if_false] at hp
      obtain ⟨k, hk⟩ := h5 p t v' hp
      have : k ≠ i := by
        intro hki
        simp [hki, hi] at hk
      exact ⟨k, by simp [this, hk]⟩
  all_goals simp only <;> grind

/-- After `called p` has been added to the log. -/
theorem inv_called {c : Nat → Option (Nat × Nat)} {s : State} (h : Inv c s) {p ty v : Nat} (hp : s.heap p = .live ty v) :
    Inv c { s with log := s.log ++ [.called p] } := by
  obtain ⟨h1, h2, h3, h4, h5, h6, h7, h8, h9⟩ := h
  refine ⟨h1, h2, h3, h4, h5, h6, ?_, ?_, ?_⟩
  · simp only
    grind
  · simp only
    grind
  · refine snoc_after h9 fun q hq => ?_
    rcases hq with hq | hq
    · cases hq
    · cases hq
      rw [h8, hp]
      simp

theorem destroy_obj (o : Obj) (s : State) : (destroy o s).obj = s.obj := by
  simp only [destroy]
  repeat' split
  all_goals rfl

/-- The object of `i` is destroyed, and `i` becomes empty. -/
theorem inv_release {c : Nat → Option (Nat × Nat)} {s : State} (h : Inv c s) {i : Nat} {o : Obj} (hi : s.obj i = some o) :
    Inv (fun k => if k = i then none else c k) ⟨fun k => if k = i then some { o with handle := none } else s.obj k, (destroy o s).heap, (destroy o s).next,
      (destroy o s).log, (destroy o s).ub⟩ ∧
    Inv (fun k => if k = i then none else c k) ⟨fun k => if k = i then none else s.obj k, (destroy o s).heap, (destroy o s).next,
      (destroy o s).log, (destroy o s).ub⟩ := by
  obtain ⟨h1, h2, h3, h4, h5, h6, h7, h8, h9⟩ := h
  obtain ⟨p, t⟩ := o
  cases p with
  | none =>
    simp only [destroy]
    constructor
    all_goals
      constructor
      case content =>
        intro k
        by_cases hk : k = i
        · simp [hk, valueAt]
        · simp [hk, h2]
      case owned =>
        intro p ty v hp
        obtain ⟨k, hk⟩ := h5 p ty v hp
        exact ⟨k, by grind⟩
      case after => exact h9
      all_goals simp only <;> grind
  | some p =>
    obtain ⟨v, hv⟩ := h3 i p t hi
    simp only [destroy, hv, if_true]
    have hne : ∀ k q ty, s.obj k = some ⟨some q, ty⟩ → k ≠ i → q ≠ p := by
      intro k q ty hk hki hqp
      subst hqp
      exact hki (h4 k i q ty t hk hi)
    constructor
    all_goals
      constructor
      case content =>
        intro k
        by_cases hk : k = i
        · simp [hk, valueAt]
        · simp only [hk, if_false, h2]
          cases ho : s.obj k with
          | none => rfl
          | some o' =>
            obtain ⟨q, ty⟩ := o'
            cases q with
            | none => rfl
            | some q =>
              have := hne k q ty ho hk
              simp [valueAt, this]
      case owned =>
        intro q ty v' hq
        simp only at hq
        split at hq
        · cases hq
        · obtain ⟨k, hk⟩ := h5 q ty v' hq
          exact ⟨k, by grind⟩
      case after =>
        refine snoc_after h9 fun q hq => ?_
        rcases hq with hq | hq
        · cases hq
          rw [h8, hv]
          simp
        · cases hq
      all_goals simp only <;> grind

/-- The content of `j` goes to `i`, which is empty. -/
theorem inv_move {c : Nat → Option (Nat × Nat)} {s : State} (h : Inv c s) {i j : Nat} {o : Obj} (hij : i ≠ j) (hi : ∀ q t, s.obj i ≠ some ⟨some q, t⟩)
    (hj : s.obj j = some o) (w : Nat) :
    Inv (fun k => if k = j then none else if k = i then c j else c k) { s with obj := fun k => if k = j then some ⟨none, w⟩ else if k = i then some o else s.obj k } := by
  obtain ⟨h1, h2, h3, h4, h5, h6, h7, h8, h9⟩ := h
  constructor
  case content =>
    intro k
    by_cases hk : k = j
    · simp [hk, valueAt]
    · by_cases hk' : k = i
      · simp [hk', hij, h2, hj]
      · simp [hk, hk', h2]
  case owned =>
    intro p ty v hp
    obtain ⟨k, hk⟩ := h5 p ty v hp
    by_cases hkj : k = j
    · exact ⟨i, by grind⟩
    · exact ⟨k, by grind⟩
  case after => exact h9
  all_goals simp only <;> grind

theorem step_inv {older : List Op} {s t : State} (h : Inv (content older) s) {op : Op} (hs : step s op = some t)
    (hc : ∀ i, (op = .use i ∨ ∃ k, op = .copy k i) → content older i ≠ none) : Inv (content (op :: older)) t := by
  have held : ∀ i o, content older i ≠ none → s.obj i = some o → ∃ p v, o.handle = some p ∧ s.heap p = .live o.vtable v ∧
      content older i = some (o.vtable, v) := by
    intro i o hne ho
    have hcont := h.content i
    rw [ho] at hcont
    obtain ⟨p, ty⟩ := o
    cases p with
    | none =>
      rw [hcont] at hne
      exact absurd rfl hne
    | some p =>
      obtain ⟨v, hv⟩ := h.live i p ty ho
      exact ⟨p, v, rfl, hv, by simp [hcont, valueAt, hv]⟩
  cases op with
  | make i ty v =>
    cases hi : s.obj i <;> simp only [step, hi, Option.some.injEq, reduceCtorEq] at hs
    subst hs
    exact inv_make h hi
  | copy i j =>
    cases hi : s.obj i <;> cases hj : s.obj j <;> simp only [step, hi, hj, reduceCtorEq] at hs
    rename_i o
    obtain ⟨p, v, hp, hv, hcont⟩ := held j o (hc j (.inr ⟨i, rfl⟩)) hj
    simp only [hp, hv, if_true, Option.some.injEq] at hs
    subst hs
    have := inv_make (ty := o.vtable) (v := v) (inv_called h hv) hi
    rw [← hcont] at this
    exact this
  | moveMake i j =>
    cases hi : s.obj i <;> cases hj : s.obj j <;> simp only [step, hi, hj, Option.some.injEq, reduceCtorEq] at hs
    subst hs
    have hij : i ≠ j := by
      intro e
      simp [e, hj] at hi
    exact inv_move h hij (by simp [hi]) hj _
  | destroy i =>
    cases hi : s.obj i <;> simp only [step, hi, Option.some.injEq, reduceCtorEq] at hs
    subst hs
    rw [destroy_obj]
    exact (inv_release h hi).2
  | use i =>
    cases hi : s.obj i <;> simp only [step, hi, reduceCtorEq] at hs
    rename_i o
    obtain ⟨p, v, hp, hv, hcont⟩ := held i o (hc i (.inl rfl)) hi
    simp only [hp, hv, if_true, Option.some.injEq] at hs
    subst hs
    obtain ⟨h1, h2, h3, h4, h5, h6, h7, h8, h9⟩ := inv_called h hv
    exact ⟨h1, h2, h3, h4, h5, h6, h7, h8, h9⟩
  | moveAssign i j =>
    cases hi : s.obj i <;> cases hj : s.obj j <;> simp only [step, hi, hj, Option.some.injEq, reduceCtorEq] at hs
    rename_i o q
    subst hs
    rw [destroy_obj]
    have hrel := (inv_release h hi).1
    by_cases hij : i = j
    · subst hij
      have e : (fun k => if k = i then some { o with handle := none } else if k = i then some q else s.obj k) =
          fun k => if k = i then some { o with handle := none } else s.obj k := by
        funext k
        grind
      have e' : content (.moveAssign i i :: older) = fun k => if k = i then none else content older k := by
        funext k
        simp only [content]
        grind
      rw [e, e']
      exact hrel
    · have hji : ¬ j = i := fun e => hij e.symm
      have hmv := inv_move (j := j) (o := q) hrel hij (by simp) (by simpa [hji] using hj) o.vtable
      have e : (fun k => if k = j then some (⟨none, o.vtable⟩ : Obj) else if k = i then some q else if k = i then some { o with handle := none } else s.obj k) =
          fun k => if k = j then some ⟨none, o.vtable⟩ else if k = i then some q else s.obj k := by
        funext k
        grind
      have e' : content (.moveAssign i j :: older) =
          fun k => if k = j then none else if k = i then (if j = i then none else content older j) else (if k = i then none else content older k) := by
        funext k
        simp only [content]
        grind
      simp only [e] at hmv
      rw [e']
      exact hmv

theorem exec_inv {ops : List Op} {older : List Op} {s t : State} (h : Inv (content older) s) (hs : exec ops s = some t)
    (hc : UsesContent older ops) : Inv (content (ops.reverse ++ older)) t := by
  induction ops generalizing older s with
  | nil => exact Option.some.inj hs ▸ h
  | cons op ops ih =>
    obtain ⟨u, hu, ht⟩ := Option.bind_eq_some_iff.1 hs
    have := ih (step_inv h hu hc.1) ht hc.2
    simpa using this

/-! ## C68 -/

/-- **C68.** However loaders are made, copied, moved, assigned and destroyed, no memory is used after it has been released, none is released
twice, and no object is treated as one of another type, provided that only loaders that have a content are used or copied. -/
theorem C68_safe (ops : List Op) (s : State) (h : exec ops init = some s) (hc : UsesContent [] ops) : s.ub = false :=
  (exec_inv inv_init h hc).ub

/-- **C68.** Copies and moves transport the loader: what is behind each handle is what a user expects there. -/
theorem C68_content (ops : List Op) (s : State) (h : exec ops init = some s) (hc : UsesContent [] ops) (i : Nat) :
    content ops.reverse i =
      match s.obj i with
      | some ⟨some p, _⟩ =>
        match s.heap p with
        | .live type value => some (type, value)
        | _ => none
      | _ => none := by
  have := (exec_inv inv_init h hc).content i
  simp only [List.append_nil] at this
  rw [this]
  rfl

/-- **C68.** An object is destroyed at most once, and is not used afterwards. -/
theorem C68_once (ops : List Op) (s : State) (h : exec ops init = some s) (hc : UsesContent [] ops) (a b : List Event) (x : Nat)
    (hl : s.log = a ++ .destroyed x :: b) : .made x ∈ s.log ∧ .destroyed x ∉ a ∧ .destroyed x ∉ b ∧ .called x ∉ b := by
  have hi := exec_inv inv_init h hc
  have hd : Event.destroyed x ∈ s.log := by simp [hl]
  have hr := (hi.destroyed x).1 hd
  have hb := hi.after a b x hl
  refine ⟨(hi.made x).2 (by simp [hr]), fun ha => ?_, hb.1, hb.2⟩
  obtain ⟨a1, a2, rfl⟩ := List.append_of_mem ha
  have := (hi.after a1 (a2 ++ .destroyed x :: b) x (by simp [hl])).1
  simp at this

/-- **C68.** When all loaders are gone, all objects have been destroyed. -/
theorem C68_no_leak (ops : List Op) (s : State) (h : exec ops init = some s) (hc : UsesContent [] ops) (hgone : ∀ i, s.obj i = none) (x : Nat)
    (hf : .made x ∈ s.log) : .destroyed x ∈ s.log := by
  have hi := exec_inv inv_init h hc
  rw [hi.destroyed]
  have h1 := (hi.made x).1 hf
  cases hp : s.heap x with
  | fresh => exact absurd hp h1
  | released => rfl
  | live =>
    obtain ⟨i, ho⟩ := hi.owned x _ _ hp
    simp [hgone] at ho

/-- Copying a loader that has been moved from is undefined. -/
theorem C68_copy_of_moved : ∃ s, exec [.make 0 1 5, .moveMake 1 0, .copy 2 0] init = some s ∧ s.ub = true := ⟨_, rfl, rfl⟩

example : ∃ s, exec [.make 0 1 5, .make 1 2 6, .copy 2 0, .moveAssign 0 1, .use 0, .destroy 1, .destroy 2, .destroy 0] init = some s ∧
    s.log = [.made 0, .made 1, .called 0, .made 2, .destroyed 0, .called 1, .destroyed 2, .destroyed 1] ∧ ∀ i, s.obj i = none := by
  refine ⟨_, rfl, rfl, fun i => ?_⟩
  match i with
  | 0 | 1 | 2 | n + 3 => rfl

example : UsesContent [] [.make 0 1 5, .make 1 2 6, .copy 2 0, .moveAssign 0 1, .use 0, .destroy 1, .destroy 2, .destroy 0] := by
  simp [UsesContent, content]

end Maike.Utils.LoaderHandle
