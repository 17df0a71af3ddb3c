import Verif.Kvs.Ownership

/-!
# C101: JSON handles behave as values, and nothing leaks

`steps` is the specification: handles are variables that hold values, or nothing.
-/

namespace Maike.Kvs.Heap

/-- What the handles of a program hold. -/
abbrev Values := Nat → Option Json

/-- The value a handle is made of. -/
def Fresh.value : Fresh → Json
  | .obj => .obj []
  | .arr => .arr []
  | .int i => .int i
  | .real r => .real r
  | .str s => .str s

/-- What an operation should do if handles were variables with values, and whether it returns normally. -/
def step (v : Values) : Op → Bool × Values
  | .make x w => (true, assign v x (some w.value))
  | .copy x y => (true, assign v x (v y))
  | .member x y k =>
    match v y with
    | some (.obj ms) =>
      match lookup k ms with
      | some w => (true, assign v x (some w))
      | none => (false, v)
    | _ => (false, v)
  | .move x y => (true, assign (assign v y none) x (v y))
  | .set x k y =>
    if x = y then (true, assign v y none)
    else
      match v x, v y with
      | some (.obj ms), some w => (true, assign (assign v x (some (.obj (Kvs.set k w ms)))) y none)
      | _, _ => (true, assign v y none)
  | .append x y =>
    if x = y then (true, assign v y none)
    else
      match v x, v y with
      | some (.arr es), some w => (true, assign (assign v x (some (.arr (es ++ [w])))) y none)
      | _, _ => (true, assign v y none)
  | .merge x y =>
    match v x, v y with
    | some (.obj a), some (.obj b) => ((mergeInto a b).2, assign v x (some (.obj (mergeInto a b).1)))
    | _, _ => (false, v)
  | .drop x => (true, assign v x none)

/-- A history. -/
def steps (v : Values) : List Op → List Bool × Values
  | [] => ([], v)
  | op :: ops => ((step v op).1 :: (steps (step v op).2 ops).1, (steps (step v op).2 ops).2)

/-- A compound is not merged with itself. -/
def Op.Proper : Op → Prop
  | .merge x y => x ≠ y
  | _ => True

/-- A handle owns the value, or is empty. -/
def Holds (c : Nat → Option Cell) : Option Ptr → Option Json → List Nat → Prop
  | none, none, F => F = []
  | some p, some v, F => Owned c p v F
  | _, _, _ => False

/-- The handles hold the values, no cell belongs to two handles, and all cells belong to a handle. -/
structure Inv (h : Memory) (e : Handles) (v : Values) (F : Nat → List Nat) : Prop where
  ok : h.Ok
  holds : ∀ x, Holds h.cells (e x) (v x) (F x)
  apart : ∀ x y, x ≠ y → Apart (F x) (F y)
  live : ∀ n, h.cells n ≠ none → ∃ x, n ∈ F x

theorem Holds.live {c : Nat → Option Cell} {p : Option Ptr} {v : Option Json} {F : List Nat} (o : Holds c p v F) :
    ∀ n ∈ F, c n ≠ none := by
  match p, v, o with
  | none, none, o => simp [show F = [] from o]
  | some p, some v, o => exact Owned.live o

theorem Holds.frame {c c' : Nat → Option Cell} {p : Option Ptr} {v : Option Json} {F : List Nat} (o : Holds c p v F)
    (h : ∀ n ∈ F, c' n = c n) : Holds c' p v F := by
  match p, v, o with
  | none, none, o => exact o
  | some p, some v, o => exact Owned.frame o h

theorem Holds.upd {h h' : Memory} (ok : h.Ok) {A B : List Nat} (u : Upd h h' A B) {p : Option Ptr} {v : Option Json}
    {F : List Nat} (o : Holds h.cells p v F) (d : Apart F A) : Holds h'.cells p v F :=
  o.frame fun n hn => u.same (d n hn) (below ok (o.live n hn))

theorem destroy_holds {h : Memory} {p : Option Ptr} {v : Option Json} {F : List Nat} (o : Holds h.cells p v F) :
    destroy h p = some (h.free F) := by
  match p, v, o with
  | none, none, o => rw [show F = [] from o, free_nil]; rfl
  | some p, some v, o => exact decref_owned v h p F o

theorem Inv.update {h h' : Memory} {e e' : Handles} {v v' : Values} {F F' : Nat → List Nat} (i : Inv h e v F) (x y : Nat)
    (u : Upd h h' (F x ++ F y) (F' x ++ F' y)) (hx : Holds h'.cells (e' x) (v' x) (F' x))
    (hy : Holds h'.cells (e' y) (v' y) (F' y)) (d : x ≠ y → Apart (F' x) (F' y))
    (he : ∀ z, z ≠ x → z ≠ y → e' z = e z ∧ v' z = v z ∧ F' z = F z) : Inv h' e' v' F' := by
  have other : ∀ z, z ≠ x → z ≠ y → Apart (F z) (F x ++ F y) := fun z h1 h2 n hn ha => by
    rcases List.mem_append.mp ha with ha | ha
    · exact i.apart z x h1 n hn ha
    · exact i.apart z y h2 n hn ha
  have new : ∀ z, z ≠ x → z ≠ y → ∀ n ∈ F' x ++ F' y, n ∉ F z := fun z h1 h2 n hn hz => by
    rcases u.new n hn with h3 | h3
    · exact other z h1 h2 n hz h3
    · have := below i.ok ((i.holds z).live n hz)
      omega
  refine ⟨u.ok, ?_, ?_, ?_⟩
  · intro z
    by_cases h1 : z = x
    · exact h1 ▸ hx
    by_cases h2 : z = y
    · exact h2 ▸ hy
    obtain ⟨a, b, c⟩ := he z h1 h2
    rw [a, b, c]
    exact (i.holds z).upd i.ok u (other z h1 h2)
  · intro z w hzw n hz hw
    by_cases hz' : z = x ∨ z = y
    · by_cases hw' : w = x ∨ w = y
      · rcases hz' with rfl | rfl <;> rcases hw' with rfl | rfl
        · exact hzw rfl
        · exact d hzw n hz hw
        · exact d (Ne.symm hzw) n hw hz
        · exact hzw rfl
      · have h3 := not_or.mp hw'
        rw [(he w h3.1 h3.2).2.2] at hw
        refine new w h3.1 h3.2 n ?_ hw
        rcases hz' with rfl | rfl <;> simp [hz]
    · have h3 := not_or.mp hz'
      rw [(he z h3.1 h3.2).2.2] at hz
      by_cases hw' : w = x ∨ w = y
      · refine new z h3.1 h3.2 n ?_ hz
        rcases hw' with rfl | rfl <;> simp [hw]
      · have h4 := not_or.mp hw'
        rw [(he w h4.1 h4.2).2.2] at hw
        exact i.apart z w hzw n hz hw
  · intro n hn
    by_cases h1 : n ∈ F' x
    · exact ⟨x, h1⟩
    by_cases h2 : n ∈ F' y
    · exact ⟨y, h2⟩
    rw [u.rest n (by simp [h1, h2])] at hn
    split at hn
    · exact absurd rfl hn
    · rename_i h3
      simp only [List.mem_append, not_or] at h3
      obtain ⟨z, hz⟩ := i.live n hn
      have hzx : z ≠ x := fun e => h3.1 (e ▸ hz)
      have hzy : z ≠ y := fun e => h3.2 (e ▸ hz)
      exact ⟨z, by rw [(he z hzx hzy).2.2]; exact hz⟩

theorem Inv.assign {h h₁ : Memory} {e : Handles} {v : Values} {F : Nat → List Nat} (i : Inv h e v F) (x : Nat)
    {G : List Nat} (u : Upd h h₁ [] G) {q : Option Ptr} {w : Option Json} (o : Holds h₁.cells q w G) :
    ∃ h₂, assignHandle h₁ e x q = some (h₂, assign e x q) ∧ ∃ F', Inv h₂ (assign e x q) (Heap.assign v x w) F' := by
  have ox := (i.holds x).upd i.ok u (by simp [Apart])
  have hd := destroy_holds ox
  have dG : Apart G (F x) := fun n hn hx => by
    have := below i.ok ((i.holds x).live n hx)
    have := (u.new n hn).resolve_left (by simp)
    omega
  refine ⟨h₁.free (F x), by simp [assignHandle, hd], fun z => if z = x then G else F z, ?_⟩
  have u2 := Upd.free u.ok (F x)
  refine i.update x x ?_ ?_ ?_ (fun h => absurd rfl h) ?_
  · simp only [if_pos]
    have w1 := (u.frame (F x)).congr (A' := F x ++ F x) (B' := F x ++ G) (fun n => by simp) (fun n => by simp [or_comm])
    have w2 := (u2.frame G).congr (A' := F x ++ G) (B' := G ++ G) (fun n => by simp) (fun n => by simp)
    exact w1.trans i.ok w2
  · simp only [Heap.assign, if_pos]
    exact o.upd u.ok u2 dG
  · simp only [Heap.assign, if_pos]
    exact o.upd u.ok u2 dG
  · intro z hz _
    simp [Heap.assign, hz]

theorem copyHandle_holds {h : Memory} (ok : h.Ok) {p : Option Ptr} {v : Option Json} {F : List Nat}
    (o : Holds h.cells p v F) :
    ∃ q h' G, copyHandle h p = some (q, h') ∧ Holds h'.cells q v G ∧ Upd h h' [] G := by
  match p, v, o with
  | none, none, _ => exact ⟨none, h, [], rfl, rfl, .refl ok []⟩
  | some p, some v, o =>
    obtain ⟨p', h', G, e, o', u⟩ := deepCopy_owned v h ok p F o
    exact ⟨some p', h', G, by simp [copyHandle, e], o', u⟩

/-- The end of the lifetime of a handle. -/
theorem Inv.drop {h : Memory} {e : Handles} {v : Values} {F : Nat → List Nat} (i : Inv h e v F) (x : Nat) :
    ∃ F', Inv (h.free (F x)) (Heap.assign e x none) (Heap.assign v x none) F' := by
  refine ⟨fun z => if z = x then [] else F z, i.update x x ?_ ?_ ?_ (fun h => absurd rfl h) ?_⟩
  · simp only [if_pos]
    exact (Upd.free i.ok (F x)).congr (fun n => by simp) (fun n => by simp)
  · simp [Heap.assign, Holds]
  · simp [Heap.assign, Holds]
  · intro z hz _
    simp [Heap.assign, hz]

theorem setNew_other {h : Memory} {a p : Ptr} {k : String} {u w : Json} {A F : List Nat}
    (oa : Owned h.cells a u A) (op : Owned h.cells p w F) (d : Apart A F) (hu : ∀ ms, u ≠ .obj ms) :
    setNew h (some a) k (some p) = some (h.free F) := by
  have hd := decref_owned w h p F op
  cases oa with
  | null => simp [setNew, hd]
  | bool b => simp [setNew, hd]
  | int n i e => simp [setNew, hd, ne_cell op (show n ∈ [n] by simp) d, e]
  | real n i e => simp [setNew, hd, ne_cell op (show n ∈ [n] by simp) d, e]
  | str n i e => simp [setNew, hd, ne_cell op (show n ∈ [n] by simp) d, e]
  | arr n ps vs G e hn os => simp [setNew, hd, ne_cell op (show n ∈ n :: G by simp) d, e]
  | obj n ps vs G e hn os => exact absurd rfl (hu vs)

theorem appendNew_other {h : Memory} {a p : Ptr} {u w : Json} {A F : List Nat}
    (oa : Owned h.cells a u A) (op : Owned h.cells p w F) (d : Apart A F) (hu : ∀ es, u ≠ .arr es) :
    appendNew h (some a) (some p) = some (h.free F) := by
  have hd := decref_owned w h p F op
  cases oa with
  | null => simp [appendNew, hd]
  | bool b => simp [appendNew, hd]
  | int n i e => simp [appendNew, hd, ne_cell op (show n ∈ [n] by simp) d, e]
  | real n i e => simp [appendNew, hd, ne_cell op (show n ∈ [n] by simp) d, e]
  | str n i e => simp [appendNew, hd, ne_cell op (show n ∈ [n] by simp) d, e]
  | arr n ps vs G e hn os => exact absurd rfl (hu vs)
  | obj n ps vs G e hn os => simp [appendNew, hd, ne_cell op (show n ∈ n :: G by simp) d, e]

theorem get_other {h : Memory} {a : Ptr} {k : String} {w : Json} {A : List Nat} (o : Owned h.cells a w A)
    (hw : ∀ ms, w ≠ .obj ms) : h.get a k = some none := by
  cases o with
  | obj n ms vs G e hn os => exact absurd rfl (hw vs)
  | null => rfl
  | bool b => rfl
  | int n j e => simp [Memory.get, e]
  | real n j e => simp [Memory.get, e]
  | str n j e => simp [Memory.get, e]
  | arr n ps vs G e hn os => simp [Memory.get, e]

theorem assign_self {α : Type} {e : Nat → Option α} {x : Nat} (h : e x = none) : assign e x none = e := by
  funext z
  by_cases hz : z = x
  · simp [assign, hz, h]
  · simp [assign, hz]

theorem setNew_same (h : Memory) (k : String) (p : Ptr) : setNew h (some p) k (some p) = decref h p := by
  cases p <;> simp [setNew]

theorem appendNew_same (h : Memory) (p : Ptr) : appendNew h (some p) (some p) = decref h p := by
  cases p <;> simp [appendNew]

/-- The value of `y` becomes a part of the value of `x`. -/
theorem Inv.absorb {h h' : Memory} {e : Handles} {v : Values} {F : Nat → List Nat} (i : Inv h e v F) {x y : Nat}
    (hxy : x ≠ y) {a : Ptr} {w : Json} {A' : List Nat} (hx : e x = some a) (o : Owned h'.cells a w A')
    (u : Upd h h' (F x ++ F y) A') :
    ∃ F', Inv h' (Heap.assign e y none) (Heap.assign (Heap.assign v x (some w)) y none) F' := by
  refine ⟨fun z => if z = y then [] else if z = x then A' else F z, i.update x y ?_ ?_ ?_ (fun _ => ?_) ?_⟩
  · simp only [if_neg hxy, if_pos, List.append_nil]
    exact u
  · simp only [Heap.assign, if_neg hxy, if_pos, hx]
    exact o
  · simp [Heap.assign, Holds]
  · simp [Apart]
  · intro z h1 h2
    simp [Heap.assign, h1, h2]

theorem exec_inv {h : Memory} {e : Handles} {v : Values} {F : Nat → List Nat} (i : Inv h e v F) (op : Op)
    (hp : op.Proper) :
    ∃ h' e' F', exec h e op = some ((step v op).1, h', e') ∧ Inv h' e' (step v op).2 F' := by
  cases op with
  | make x w =>
    have o : Holds (h.alloc w.node).2.cells (some (h.alloc w.node).1) (some w.value) [h.next] := by
      cases w with
      | obj => exact .obj h.next [] [] [] (by simp [Memory.alloc, Fresh.node]) (by simp) .nil
      | arr => exact .arr h.next [] [] [] (by simp [Memory.alloc, Fresh.node]) (by simp) .nil
      | int n => exact .int h.next n (by simp [Memory.alloc, Fresh.node])
      | real n => exact .real h.next n (by simp [Memory.alloc, Fresh.node])
      | str n => exact .str h.next n (by simp [Memory.alloc, Fresh.node])
    obtain ⟨h₂, he, F', hi⟩ := i.assign x (.alloc i.ok w.node) o
    exact ⟨h₂, _, F', by simp [exec, he, step], hi⟩
  | copy x y =>
    obtain ⟨q, h₁, G, e1, o1, u1⟩ := copyHandle_holds i.ok (i.holds y)
    obtain ⟨h₂, he, F', hi⟩ := i.assign x u1 o1
    exact ⟨h₂, _, F', by simp [exec, e1, he, step], hi⟩
  | member x y k =>
    have hy := i.holds y
    simp only [exec, step]
    cases ey : e y with
    | none =>
      cases vy : v y with
      | none => exact ⟨h, e, F, rfl, i⟩
      | some w => rw [ey, vy] at hy; exact hy.elim
    | some a =>
      cases vy : v y with
      | none => rw [ey, vy] at hy; exact hy.elim
      | some w =>
        rw [ey, vy] at hy
        by_cases hw : ∃ ms, w = .obj ms
        · obtain ⟨ms, rfl⟩ := hw
          rcases get_owned hy k with ⟨hg, hl⟩ | ⟨q, x', Q, hg, hl, oq, hQ⟩
          · exact ⟨h, e, F, by simp [hg, hl], by simpa [hl] using i⟩
          · obtain ⟨p', h₁, G, e1, o1, u1⟩ := deepCopy_owned x' h i.ok q Q oq
            obtain ⟨h₂, he, F', hi⟩ := i.assign x (q := some p') (w := some x') u1 o1
            exact ⟨h₂, Heap.assign e x (some p'), F', by simp [hg, hl, e1, he], by simpa [hl] using hi⟩
        · have hg := get_other (k := k) hy fun ms hm => hw ⟨ms, hm⟩
          refine ⟨h, e, F, ?_, ?_⟩
          · simp only [hg, Option.bind_eq_bind, Option.bind_some]
            split <;> simp_all
          · split
            · rename_i ms hms; exact absurd ⟨ms, by simpa using hms⟩ hw
            · exact i
  | move x y =>
    simp only [exec, step]
    by_cases hxy : x = y
    · subst hxy
      refine ⟨h, e, F, ?_, ?_⟩
      · have : Heap.assign (Heap.assign e x none) x (e x) = e := by
          funext z; by_cases hz : z = x <;> simp [Heap.assign, hz]
        simp [assignHandle, Heap.assign, destroy]
        exact this
      · have : Heap.assign (Heap.assign v x none) x (v x) = v := by
          funext z; by_cases hz : z = x <;> simp [Heap.assign, hz]
        rw [this]; exact i
    · have hd := destroy_holds (i.holds x)
      refine ⟨h.free (F x), Heap.assign (Heap.assign e y none) x (e y),
        fun z => if z = x then F y else if z = y then [] else F z, ?_, ?_⟩
      · simp [assignHandle, Heap.assign, hxy, hd]
      · have hyx : y ≠ x := Ne.symm hxy
        refine i.update x y ?_ ?_ ?_ (fun _ => ?_) ?_
        · simp only [if_neg hyx, if_pos]
          exact ((Upd.free i.ok (F x)).frame (F y)).congr (fun n => by simp) (fun n => by simp)
        · simp only [Heap.assign, if_pos]
          exact (i.holds y).upd i.ok (.free i.ok (F x)) (i.apart y x hyx)
        · simp [Heap.assign, hyx, Holds]
        · simp [hyx, Apart]
        · intro z h1 h2
          simp [Heap.assign, h1, h2]
  | set x k y =>
    have hy := i.holds y
    have hx := i.holds x
    obtain ⟨Fd, hdrop⟩ := i.drop y
    simp only [exec, step]
    cases ey : e y with
    | none =>
      cases vy : v y with
      | some w => rw [ey, vy] at hy; exact hy.elim
      | none =>
        rw [assign_self ey]
        refine ⟨h, e, F, ?_, ?_⟩
        · simp only [setNew]
          split <;> (try split) <;> simp_all
        · have : Heap.assign v y none = v := assign_self vy
          split
          · rw [this]; exact i
          · split
            · simp_all
            · rw [this]; exact i
    | some p =>
      cases vy : v y with
      | none => rw [ey, vy] at hy; exact hy.elim
      | some w =>
        rw [ey, vy] at hy
        have op : Owned h.cells p w (F y) := hy
        by_cases hxy : x = y
        · subst hxy
          rw [ey, setNew_same, decref_owned w h p (F x) op]
          exact ⟨h.free (F x), Heap.assign e x none, Fd, by simp, by simpa using hdrop⟩
        · simp only [if_neg hxy]
          cases ex : e x with
          | none =>
            cases vx : v x with
            | some z => rw [ex, vx] at hx; exact hx.elim
            | none =>
              exact ⟨h.free (F y), Heap.assign e y none, Fd, by simp [setNew, decref_owned w h p (F y) op], by simpa using hdrop⟩
          | some a =>
            cases vx : v x with
            | none => rw [ex, vx] at hx; exact hx.elim
            | some z =>
              rw [ex, vx] at hx
              have oa : Owned h.cells a z (F x) := hx
              by_cases hz : ∃ ms, z = .obj ms
              · obtain ⟨ms, rfl⟩ := hz
                obtain ⟨h', A', e1, o1, u1⟩ := setNew_owned (k := k) i.ok oa op (i.apart x y hxy)
                obtain ⟨F', hi⟩ := i.absorb hxy ex o1 u1
                exact ⟨h', Heap.assign e y none, F', by simp [e1], by simpa using hi⟩
              · have e1 := setNew_other (k := k) oa op (i.apart x y hxy) fun ms hm => hz ⟨ms, hm⟩
                refine ⟨h.free (F y), Heap.assign e y none, Fd, ?_, ?_⟩
                · rw [e1]
                  simp only [Option.bind_eq_bind, Option.bind_some]
                  split <;> simp_all
                · split
                  · rename_i ms w' hms _; exact absurd ⟨ms, by simpa using hms⟩ hz
                  · exact hdrop
  | append x y =>
    have hy := i.holds y
    have hx := i.holds x
    obtain ⟨Fd, hdrop⟩ := i.drop y
    simp only [exec, step]
    cases ey : e y with
    | none =>
      cases vy : v y with
      | some w => rw [ey, vy] at hy; exact hy.elim
      | none =>
        rw [assign_self ey]
        refine ⟨h, e, F, ?_, ?_⟩
        · simp only [appendNew]
          split <;> (try split) <;> simp_all
        · have : Heap.assign v y none = v := assign_self vy
          split
          · rw [this]; exact i
          · split
            · simp_all
            · rw [this]; exact i
    | some p =>
      cases vy : v y with
      | none => rw [ey, vy] at hy; exact hy.elim
      | some w =>
        rw [ey, vy] at hy
        have op : Owned h.cells p w (F y) := hy
        by_cases hxy : x = y
        · subst hxy
          rw [ey, appendNew_same, decref_owned w h p (F x) op]
          exact ⟨h.free (F x), Heap.assign e x none, Fd, by simp, by simpa using hdrop⟩
        · simp only [if_neg hxy]
          cases ex : e x with
          | none =>
            cases vx : v x with
            | some z => rw [ex, vx] at hx; exact hx.elim
            | none =>
              exact ⟨h.free (F y), Heap.assign e y none, Fd, by simp [appendNew, decref_owned w h p (F y) op], by simpa using hdrop⟩
          | some a =>
            cases vx : v x with
            | none => rw [ex, vx] at hx; exact hx.elim
            | some z =>
              rw [ex, vx] at hx
              have oa : Owned h.cells a z (F x) := hx
              by_cases hz : ∃ es, z = .arr es
              · obtain ⟨es, rfl⟩ := hz
                obtain ⟨h', A', e1, o1, u1⟩ := appendNew_owned i.ok oa op (i.apart x y hxy)
                obtain ⟨F', hi⟩ := i.absorb hxy ex o1 u1
                exact ⟨h', Heap.assign e y none, F', by simp [e1], by simpa using hi⟩
              · have e1 := appendNew_other oa op (i.apart x y hxy) fun es hm => hz ⟨es, hm⟩
                refine ⟨h.free (F y), Heap.assign e y none, Fd, ?_, ?_⟩
                · rw [e1]
                  simp only [Option.bind_eq_bind, Option.bind_some]
                  split <;> simp_all
                · split
                  · rename_i es w' hms _; exact absurd ⟨es, by simpa using hms⟩ hz
                  · exact hdrop
  | merge x y =>
    have hxy : x ≠ y := hp
    have hy := i.holds y
    have hx := i.holds x
    simp only [exec, step]
    cases ex : e x with
    | none =>
      cases vx : v x with
      | some z => rw [ex, vx] at hx; exact hx.elim
      | none => exact ⟨h, e, F, by simp, by simpa using i⟩
    | some a =>
      cases vx : v x with
      | none => rw [ex, vx] at hx; exact hx.elim
      | some z =>
        rw [ex, vx] at hx
        have oa : Owned h.cells a z (F x) := hx
        cases ey : e y with
        | none =>
          cases vy : v y with
          | some w => rw [ey, vy] at hy; exact hy.elim
          | none => exact ⟨h, e, F, by simp, by simpa using i⟩
        | some b =>
          cases vy : v y with
          | none => rw [ey, vy] at hy; exact hy.elim
          | some w =>
            rw [ey, vy] at hy
            have ob : Owned h.cells b w (F y) := hy
            simp only [type_owned oa, type_owned ob, Option.bind_eq_bind, Option.bind_some]
            by_cases hc : z.type = .compound ∧ w.type = .compound
            · obtain ⟨zs, rfl⟩ := type_compound hc.1
              obtain ⟨ws, rfl⟩ := type_compound hc.2
              obtain ⟨h', A', e1, o1, u1⟩ := mergeObj_owned ws h i.ok a b (F y) zs (F x) oa ob (i.apart x y hxy)
              refine ⟨h', e, fun z => if z = x then A' else F z, by simp [Json.type, e1], ?_⟩
              refine i.update x x ?_ ?_ ?_ (fun h => absurd rfl h) ?_
              · simp only [if_pos]
                exact u1.congr (fun n => by simp) (fun n => by simp)
              · simp only [Heap.assign, if_pos, ex]; exact o1
              · simp only [Heap.assign, if_pos, ex]; exact o1
              · intro z hz _
                simp [Heap.assign, hz]
            · rw [if_neg hc]
              refine ⟨h, e, F, ?_, ?_⟩
              · split
                · rename_i a' b' ha hb
                  simp only [Option.some.injEq] at ha hb
                  subst ha; subst hb
                  exact absurd ⟨rfl, rfl⟩ hc
                · rfl
              · split
                · rename_i a' b' ha hb
                  simp only [Option.some.injEq] at ha hb
                  subst ha; subst hb
                  exact absurd ⟨rfl, rfl⟩ hc
                · exact i
  | drop x =>
    obtain ⟨F', hi⟩ := i.drop x
    exact ⟨_, _, F', by simp [exec, destroy_holds (i.holds x), step], hi⟩

theorem run_inv : ∀ (ops : List Op) {h : Memory} {e : Handles} {v : Values} {F : Nat → List Nat}, Inv h e v F →
    (∀ op ∈ ops, op.Proper) →
    ∃ h' e' F', run h e ops = some ((steps v ops).1, h', e') ∧ Inv h' e' (steps v ops).2 F'
  | [], h, e, v, F, i, _ => ⟨h, e, F, rfl, i⟩
  | op :: ops, h, e, v, F, i, hp => by
    obtain ⟨h₁, e₁, F₁, r1, i1⟩ := exec_inv i op (hp op (by simp))
    obtain ⟨h₂, e₂, F₂, r2, i2⟩ := run_inv ops i1 fun o ho => hp o (by simp [ho])
    exact ⟨h₂, e₂, F₂, by simp [run, r1, r2, steps], i2⟩

theorem inv_empty : Inv .empty (fun _ => none) (fun _ => none) (fun _ => []) :=
  ⟨fun _ _ => rfl, fun _ => rfl, fun _ _ _ => by simp [Apart], fun n hn => absurd rfl hn⟩

mutual

theorem Owned.refs {c : Nat → Option Cell} {p : Ptr} {v : Json} {F : List Nat} (o : Owned c p v F) :
    ∀ n ∈ F, ∃ node, c n = some ⟨1, node⟩ :=
  match o with
  | .null => by simp
  | .bool b => by simp
  | .int n i e => by simp [e]
  | .real n r e => by simp [e]
  | .str n s e => by simp [e]
  | .arr n ps vs F e hn os => by
    intro m hm
    rcases List.mem_cons.mp hm with rfl | hm
    · exact ⟨_, e⟩
    · exact os.refs m hm
  | .obj n ms vs F e hn os => by
    intro m hm
    rcases List.mem_cons.mp hm with rfl | hm
    · exact ⟨_, e⟩
    · exact os.refs m hm

theorem OwnedElems.refs {c : Nat → Option Cell} {ps : List Ptr} {vs : List Json} {F : List Nat}
    (o : OwnedElems c ps vs F) : ∀ n ∈ F, ∃ node, c n = some ⟨1, node⟩ :=
  match o with
  | .nil => by simp
  | .cons p v F ps vs G o os d => by
    intro m hm
    rcases List.mem_append.mp hm with hm | hm
    · exact o.refs m hm
    · exact os.refs m hm

theorem OwnedMembers.refs {c : Nat → Option Cell} {ms : List (String × Ptr)} {vs : Members} {F : List Nat}
    (o : OwnedMembers c ms vs F) : ∀ n ∈ F, ∃ node, c n = some ⟨1, node⟩ :=
  match o with
  | .nil => by simp
  | .cons k p v F ms vs G o os d u => by
    intro m hm
    rcases List.mem_append.mp hm with hm | hm
    · exact o.refs m hm
    · exact os.refs m hm

end

/-! ## The theorems -/

/-- **C101.** After any history of operations on handles, no deleted cell has been used; each operation returned normally or
with an exception as it does for values; each handle holds the value it would hold if handles were variables with values;
and there is exactly one reference to each cell that has not been deleted. A compound must not be merged with itself. -/
theorem C101_history (ops : List Op) (hp : ∀ op ∈ ops, op.Proper) :
    ∃ (h : Memory) (e : Handles), run .empty (fun _ => none) ops = some ((steps (fun _ => none) ops).1, h, e) ∧
      (∀ x, (e x = none ∧ (steps (fun _ => none) ops).2 x = none) ∨
        ∃ p v F, e x = some p ∧ (steps (fun _ => none) ops).2 x = some v ∧ Owned h.cells p v F) ∧
      ∀ n c, h.cells n = some c → c.refs = 1 := by
  obtain ⟨h, e, F, r, i⟩ := run_inv ops inv_empty hp
  refine ⟨h, e, r, fun x => ?_, fun n c hc => ?_⟩
  · have hx := i.holds x
    cases ex : e x with
    | none =>
      cases vx : (steps (fun _ => none) ops).2 x with
      | none => exact .inl ⟨rfl, rfl⟩
      | some v => rw [ex, vx] at hx; exact hx.elim
    | some p =>
      cases vx : (steps (fun _ => none) ops).2 x with
      | none => rw [ex, vx] at hx; exact hx.elim
      | some v =>
        rw [ex, vx] at hx
        exact .inr ⟨p, v, F x, rfl, rfl, hx⟩
  · obtain ⟨x, hx⟩ := i.live n (by simp [hc])
    have ho := i.holds x
    cases ex : e x with
    | none =>
      cases vx : (steps (fun _ => none) ops).2 x with
      | none => rw [ex, vx] at ho; rw [show F x = [] from ho] at hx; simp at hx
      | some v => rw [ex, vx] at ho; exact ho.elim
    | some p =>
      cases vx : (steps (fun _ => none) ops).2 x with
      | none => rw [ex, vx] at ho; exact ho.elim
      | some v =>
        rw [ex, vx] at ho
        obtain ⟨node, hn⟩ := Owned.refs ho n hx
        rw [hc] at hn
        injection hn with hn
        rw [hn]

/-- **C101.** Nothing leaks: when the lifetime of all handles is over (or they have been moved from), all cells have been
deleted, also if exceptions have been thrown by `operator|=`. -/
theorem C101_noLeak (ops : List Op) (hp : ∀ op ∈ ops, op.Proper) (h : Memory) (e : Handles) (flags : List Bool)
    (hr : run .empty (fun _ => none) ops = some (flags, h, e)) (he : ∀ x, e x = none) (n : Nat) : h.cells n = none := by
  obtain ⟨h', e', F, r, i⟩ := run_inv ops inv_empty hp
  rw [hr] at r
  simp only [Option.some.injEq, Prod.mk.injEq] at r
  obtain ⟨-, rfl, rfl⟩ := r
  cases hc : h.cells n with
  | none => rfl
  | some c =>
    obtain ⟨x, hx⟩ := i.live n (by simp [hc])
    have ho := i.holds x
    rw [he x] at ho
    cases vx : (steps (fun _ => none) ops).2 x with
    | none => rw [vx] at ho; rw [show F x = [] from ho] at hx; simp at hx
    | some v => rw [vx] at ho; exact ho.elim

/-- **C101.** `operator|=` in any memory: the right operand keeps its value, the left operand gets the value of the merge
(or what had been merged when the exception was thrown), the cells it does not need any more are deleted, and no other
cell is changed. -/
theorem C101_merge (h : Memory) (ok : h.Ok) (a b : Ptr) (us vs : Members) (A B : List Nat)
    (oa : Owned h.cells a (.obj us) A) (ob : Owned h.cells b (.obj vs) B) (d : Apart A B) :
    ∃ h' A', mergeObj h a b = some ((mergeInto us vs).2, h') ∧ Owned h'.cells a (.obj (mergeInto us vs).1) A' ∧
      Owned h'.cells b (.obj vs) B ∧ Apart A' B ∧ ∀ n, n ∉ A' → h'.cells n = if n ∈ A then none else h.cells n := by
  obtain ⟨h', A', e, o, u⟩ := mergeObj_owned vs h ok a b B us A oa ob d
  refine ⟨h', A', e, o, ob.upd ok u fun n hn ha => d n ha hn, fun n hn hb => ?_, u.rest⟩
  rcases u.new n hn with h1 | h1
  · exact d n h1 hb
  · have := ob.lt ok n hb; omega

/-! ## A history that meets the hypotheses -/

namespace Examples

/-- `{"a": 1}` is copied, the copy gets a member more and is merged with the original; then the original gets a member whose
type is not that of the copy, and the merge fails; all handles go away. -/
def history : List Op :=
  [.make 0 .obj, .make 1 (.int 1), .set 0 "a" 1, .copy 2 0, .make 1 .arr, .set 2 "b" 1, .merge 2 0,
    .make 1 (.str "x"), .set 0 "b" 1, .merge 2 0, .member 3 2 "b", .drop 0, .drop 2, .drop 3]

example : ∀ op ∈ history, op.Proper := by simp [history, Op.Proper]

/-- The second merge throws. -/
example : (steps (fun _ => none) history).1 =
    [true, true, true, true, true, true, true, true, true, false, true, true, true, true] := by
  simp [history, steps, step, assign, Fresh.value, Kvs.set, lookup, mergeInto, mergeItem, mergeValue, Json.type]

/-- After the second merge, there is still the array in the copy. -/
example : (steps (fun _ => none) (history.take 11)).2 3 = some (.arr []) := by
  simp [history, steps, step, assign, Fresh.value, Kvs.set, lookup, mergeInto, mergeItem, mergeValue, Json.type]

/-- At the end there is no cell left. -/
example : ∃ h e, run .empty (fun _ => none) history = some ((steps (fun _ => none) history).1, h, e) ∧
    ∀ n, h.cells n = none := by
  have hp : ∀ op ∈ history, op.Proper := by simp [history, Op.Proper]
  obtain ⟨h, e, hr, hx, _⟩ := C101_history history hp
  refine ⟨h, e, hr, C101_noLeak history hp h e _ hr fun x => ?_⟩
  rcases hx x with ⟨h1, _⟩ | ⟨p, v, F, _, h2, _⟩
  · exact h1
  · exfalso
    revert h2
    simp [history, steps, step, assign, Fresh.value, Kvs.set, lookup, mergeInto, mergeItem, mergeValue, Json.type]
    intro h3 h2 h0
    by_cases h1 : x = 1 <;> simp [h0, h1, h2, h3]

end Examples

end Maike.Kvs.Heap
