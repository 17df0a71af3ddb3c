import Verif.Graph.Spec

/-! # Loop invariant and termination measure for the traversal -/

namespace Maike.Graph

variable {E : Type}

theorem Reach.trans {g : Graph E} {a b c : Nat} (h₁ : Reach g a b) (h₂ : Reach g b c) :
    Reach g a c := by
  induction h₂ with
  | refl => exact h₁
  | tail _ hadj ih => exact .tail ih hadj

theorem ReachPlus.toReach {g : Graph E} {a b : Nat} (h : ReachPlus g a b) : Reach g a b := by
  obtain ⟨w, h₁, h₂⟩ := h
  exact .tail h₁ h₂

theorem Adj.plus {g : Graph E} {a b : Nat} (h : Adj g a b) : ReachPlus g a b :=
  ⟨a, .refl a, h⟩

theorem ReachPlus.tail {g : Graph E} {a b c : Nat} (h : ReachPlus g a b) (h' : Adj g b c) :
    ReachPlus g a c := ⟨b, h.toReach, h'⟩

theorem ReachPlus.trans_reach {g : Graph E} {a b c : Nat} (h : ReachPlus g a b)
    (h' : Reach g b c) : ReachPlus g a c := by
  induction h' with
  | refl => exact h
  | tail h₁ hadj ih => exact ⟨_, ih.toReach, hadj⟩

theorem ReachPlus.trans {g : Graph E} {a b c : Nat} (h : ReachPlus g a b)
    (h' : ReachPlus g b c) : ReachPlus g a c := h.trans_reach h'.toReach

/-- First occurrence of a member of a list. -/
theorem exists_first {l : List Nat} {a : Nat} (h : a ∈ l) :
    ∃ l₁ l₂, l = l₁ ++ a :: l₂ ∧ a ∉ l₁ := by
  induction l with
  | nil => cases h
  | cons b l ih =>
    by_cases hab : a = b
    · subst hab; exact ⟨[], l, rfl, by simp⟩
    · have : a ∈ l := by
        cases h with
        | head => exact absurd rfl hab
        | tail _ h => exact h
      obtain ⟨l₁, l₂, hl, hn⟩ := ih this
      exact ⟨b :: l₁, l₂, by simp [hl], by simp [hab, hn]⟩

theorem DepsFirst.reach_mem {g : Graph E} {l : List Nat} (h : DepsFirst g l) {u v : Nat}
    (hu : u ∈ l) (hr : Reach g u v) : v ∈ l := by
  induction hr with
  | refl => exact hu
  | tail _ hadj ih =>
    obtain ⟨l₁, l₂, hl, _⟩ := exists_first ih
    have := h _ _ _ hl _ hadj
    rw [hl]; simp [this]

theorem DepsFirst.plus_mem {g : Graph E} {l l₁ l₂ : List Nat} {u v : Nat} (h : DepsFirst g l)
    (hl : l = l₁ ++ u :: l₂) (hr : ReachPlus g u v) : v ∈ l₁ := by
  obtain ⟨w, hw, hadj⟩ := hr
  have key : ∀ w, Reach g u w → w = u ∨ w ∈ l₁ := by
    intro w hw
    induction hw with
    | refl => exact .inl rfl
    | tail _ hadj ih =>
      right
      rcases ih with rfl | hm
      · exact h _ _ _ hl _ hadj
      · obtain ⟨a, b, hab, _⟩ := exists_first hm
        have := h a _ (b ++ u :: l₂) (by rw [hl, hab]; simp) _ hadj
        rw [hab]; simp [this]
  rcases key w hw with rfl | hm
  · exact h _ _ _ hl _ hadj
  · obtain ⟨a, b, hab, _⟩ := exists_first hm
    have := h a _ (b ++ u :: l₂) (by rw [hl, hab]; simp) _ hadj
    rw [hab]; simp [this]

/-- A list in which dependencies come first contains no node on a cycle. -/
theorem DepsFirst.acyclic {g : Graph E} {l : List Nat} (h : DepsFirst g l) {u : Nat}
    (hu : u ∈ l) : ¬ OnCycle g u := by
  intro hc
  obtain ⟨l₁, l₂, hl, hn⟩ := exists_first hu
  exact hn (h.plus_mem hl hc)

theorem DepsFirst.nil (g : Graph E) : DepsFirst g [] := by
  intro l₁ u l₂ h
  simp at h

theorem DepsFirst.snoc {g : Graph E} {l : List Nat} {u : Nat} (h : DepsFirst g l)
    (hu : ∀ v, Adj g u v → v ∈ l) : DepsFirst g (l ++ [u]) := by
  intro l₁ w l₂ hl v hv
  rcases List.eq_nil_or_concat l₂ with rfl | ⟨l₃, x, rfl⟩
  · have := List.append_inj' hl rfl
    obtain ⟨rfl, hw⟩ := this
    have hw : u = w := by simpa using hw
    subst hw; exact hu v hv
  · have hl' : l ++ [u] = (l₁ ++ w :: l₃) ++ [x] := by simpa using hl
    have := List.append_inj' hl' rfl
    exact h _ _ _ this.1 v hv

/-! ## Marks -/

@[simp] theorem setMark_same (m : Nat → Mark) (i : Nat) (a : Mark) : setMark m i a i = a := by
  simp [setMark]

theorem setMark_ne (m : Nat → Mark) {i j : Nat} (a : Mark) (h : j ≠ i) :
    setMark m i a j = m j := by simp [setMark, h]

/-! ## Termination -/

/-- What is still to be pushed: the edges of nodes that have not been entered. -/
def pending (g : Graph E) (marks : Nat → Mark) : Nat → Nat
  | 0 => 0
  | n + 1 => pending g marks n + (if marks n = .init then (g.edges n).length + 1 else 0)

theorem pending_le (g : Graph E) (marks : Nat → Mark) (n : Nat) :
    pending g marks n ≤ edgeBound g n := by
  induction n with
  | zero => simp [pending, edgeBound]
  | succ n ih => simp only [pending, edgeBound]; split <;> omega

theorem pending_set_ge (g : Graph E) (marks : Nat → Mark) (u : Nat) (a : Mark) (n : Nat)
    (h : n ≤ u) : pending g (setMark marks u a) n = pending g marks n := by
  induction n with
  | zero => rfl
  | succ n ih =>
    have : n ≠ u := by omega
    simp only [pending, setMark_ne marks a this]
    rw [ih (by omega)]

theorem pending_enter (g : Graph E) (marks : Nat → Mark) (u n : Nat) (h : u < n)
    (hu : marks u = .init) :
    pending g (setMark marks u .inProgress) n + (g.edges u).length + 1 = pending g marks n := by
  induction n with
  | zero => omega
  | succ n ih =>
    by_cases hn : n = u
    · subst hn
      simp only [pending, setMark_same, hu]
      rw [pending_set_ge g marks n _ n (Nat.le_refl _)]
      simp; omega
    · simp only [pending, setMark_ne marks _ hn]
      have := ih (by omega)
      omega

theorem pending_leave (g : Graph E) (marks : Nat → Mark) (u n : Nat)
    (hu : marks u = .inProgress) :
    pending g (setMark marks u .done) n = pending g marks n := by
  induction n with
  | zero => rfl
  | succ n ih =>
    by_cases hn : n = u
    · subst hn; simp [pending, setMark_same, hu, ih]
    · simp [pending, setMark_ne marks _ hn, ih]

theorem pushEdges_length (g : Graph E) (marks : Nat → Mark) (es : List E) :
    ∀ (s s' : List (Nat × Option E)), pushEdges g marks es s = .ok s' →
      s'.length ≤ s.length + es.length := by
  induction es with
  | nil => intro s s' h; simp [pushEdges] at h; subst h; simp
  | cons e es ih =>
    intro s s' h
    simp only [pushEdges] at h
    split at h
    · have := ih _ _ h; simp; omega
    · split at h
      · split at h
        · have := ih _ _ h; simp at this ⊢; omega
        · simp at h
        · have := ih _ _ h; simp; omega
      · simp at h

/-- Every iteration decreases this number. -/
def measure (g : Graph E) (st : State E) : Nat := pending g st.marks g.size + st.stack.length

theorem step_measure (g : Graph E) (st st' : State E) (u : Nat) (inc : Option E)
    (rest : List (Nat × Option E)) (hs : st.stack = (u, inc) :: rest)
    (h : step g st u inc rest = .ok st') : measure g st' < measure g st := by
  unfold step at h
  split at h
  · rename_i hu
    split at h
    · rename_i hm
      simp only at h
      split at h
      · rename_i stack hp
        simp at h; subst h
        have h1 := pushEdges_length _ _ _ _ _ hp
        have h2 := pending_enter g st.marks u g.size hu hm
        simp only [measure, hs]
        simp at h1 ⊢
        omega
      · simp at h
    · rename_i hm
      simp at h; subst h
      simp [measure, hs, pending_leave g st.marks u g.size hm]
    · simp at h; subst h
      simp [measure, hs]
  · simp at h

theorem run_fuel (g : Graph E) : ∀ (fuel : Nat) (st : State E), measure g st ≤ fuel →
    (run g fuel st).1 ≠ .outOfFuel := by
  intro fuel
  induction fuel with
  | zero =>
    intro st h
    have : st.stack = [] := by
      have : st.stack.length = 0 := by unfold measure at h; omega
      exact List.length_eq_zero_iff.mp this
    unfold run; rw [this]; simp
  | succ n ih =>
    intro st h
    unfold run
    split
    · simp
    · rename_i u inc rest hs
      simp only
      split
      · rename_i e he
        intro hc
        unfold step at he
        split at he
        · split at he
          · simp only at he
            split at he
            · simp at he
            · rename_i o ho
              simp at he; subst he
              simp at hc; subst hc
              have : ∀ es s, pushEdges g (setMark st.marks u .inProgress) es s ≠ .error .outOfFuel := by
                intro es
                induction es with
                | nil => intro s; simp [pushEdges]
                | cons e es ih =>
                  intro s
                  simp only [pushEdges]
                  split
                  · exact ih _
                  · split
                    · split
                      · exact ih _
                      · simp
                      · exact ih _
                    · simp
              exact this _ _ ho
          · simp at he
          · simp at he
        · simp at he; subst he; simp at hc
      · rename_i st' hst
        have := step_measure g st st' u inc rest hs hst
        exact ih st' (by omega)

/-! ## The loop invariant -/

/-- Facts that hold between two calls of `visitFrom` for the same marks. -/
structure Settled (g : Graph E) (marks : Nat → Mark) (out : List (Nat × Option E)) : Prop where
  done_iff : ∀ u, u ∈ nodesOf out ↔ marks u = .done
  nodup : (nodesOf out).Nodup
  first : DepsFirst g (nodesOf out)
  bounded : ∀ u ∈ nodesOf out, u < g.size

/-- How a call `cb(x, inc)` made while visiting from `root` came about. -/
def Justified (g : Graph E) (root : Nat) (x : Nat) (inc : Option E) : Prop :=
  (x = root ∧ inc = none) ∨
    (x ≠ root ∧ ∃ e u, inc = some e ∧ e ∈ g.edges u ∧ g.ref e = some x ∧ Reach g root u)

/-- Loop invariant of `processGraphNodeRecursive` for the root `root`, started with output `out₀`. -/
structure Inv (g : Graph E) (root : Nat) (out₀ : List (Nat × Option E)) (st : State E) : Prop where
  settled : Settled g st.marks st.out
  on_stack : ∀ u, st.marks u = .inProgress → u ∈ nodesOf st.stack
  above_reach : ∀ l₁ p l₂, nodesOf st.stack = l₁ ++ p :: l₂ → p ∉ l₁ → st.marks p = .inProgress →
    ∀ x ∈ l₁, ReachPlus g p x
  above_succ : ∀ l₁ p l₂, nodesOf st.stack = l₁ ++ p :: l₂ → p ∉ l₁ → st.marks p = .inProgress →
    ∀ v, Adj g p v → st.marks v = .done ∨ v ∈ l₁
  bounded : ∀ u ∈ nodesOf st.stack, u < g.size
  reach : ∀ u ∈ nodesOf st.stack, Reach g root u
  just : ∀ x inc, (x, inc) ∈ st.stack → Justified g root x inc
  out_ext : ∃ new, st.out = out₀ ++ new ∧
    (∀ x inc, (x, inc) ∈ new → Justified g root x inc ∧ Reach g root x)
  /-- the root is at the bottom of the stack, or has been reported last -/
  root_pos : (∃ pre, st.stack = pre ++ [(root, none)] ∧ root ∉ nodesOf pre ∧
      (st.marks root = .inProgress ∨ (st.marks root = .init ∧ pre = []))) ∨
    (st.stack = [] ∧ st.marks root = .done ∧ ∃ pre, st.out = pre ++ [(root, none)])

theorem nodesOf_append (a b : List (Nat × Option E)) : nodesOf (a ++ b) = nodesOf a ++ nodesOf b := by
  simp [nodesOf]

@[simp] theorem nodesOf_cons (a : Nat × Option E) (b : List (Nat × Option E)) :
    nodesOf (a :: b) = a.1 :: nodesOf b := rfl

@[simp] theorem nodesOf_nil : nodesOf ([] : List (Nat × Option E)) = [] := rfl

/-- What `pushEdges` does to the stack when it succeeds. -/
theorem pushEdges_ok (g : Graph E) (marks : Nat → Mark) (es : List E) :
    ∀ (s s' : List (Nat × Option E)), pushEdges g marks es s = .ok s' →
      ∃ new, s' = new ++ s ∧
        (∀ x inc, (x, inc) ∈ new → x < g.size ∧ marks x = .init ∧
            ∃ e ∈ es, inc = some e ∧ g.ref e = some x) ∧
        (∀ e ∈ es, ∀ v, g.ref e = some v → marks v = .done ∨ v ∈ nodesOf new) := by
  induction es with
  | nil =>
    intro s s' h
    simp [pushEdges] at h; subst h
    exact ⟨[], by simp, by simp, by simp⟩
  | cons e es ih =>
    intro s s' h
    simp only [pushEdges] at h
    split at h
    · rename_i hr
      obtain ⟨new, h1, h2, h3⟩ := ih _ _ h
      refine ⟨new, h1, ?_, ?_⟩
      · intro x inc hx
        obtain ⟨a, b, e', he', c⟩ := h2 x inc hx
        exact ⟨a, b, e', List.mem_cons_of_mem _ he', c⟩
      · intro e' he' v hv
        cases he' with
        | head => rw [hr] at hv; cases hv
        | tail _ he' => exact h3 e' he' v hv
    · rename_i w hr
      split at h
      · rename_i hw
        split at h
        · rename_i hm
          obtain ⟨new, h1, h2, h3⟩ := ih _ _ h
          refine ⟨new ++ [(w, some e)], by simp [h1], ?_, ?_⟩
          · intro x inc hx
            rcases List.mem_append.mp hx with hx | hx
            · obtain ⟨a, b, e', he', c⟩ := h2 x inc hx
              exact ⟨a, b, e', List.mem_cons_of_mem _ he', c⟩
            · simp at hx
              obtain ⟨rfl, rfl⟩ := hx
              exact ⟨hw, hm, e, List.mem_cons_self, rfl, hr⟩
          · intro e' he' v hv
            cases he' with
            | head =>
              rw [hr] at hv; cases hv
              right; simp [nodesOf_append]
            | tail _ he' =>
              rcases h3 e' he' v hv with hd | hd
              · exact .inl hd
              · right; rw [nodesOf_append]; exact List.mem_append_left _ hd
        · simp at h
        · rename_i hm
          obtain ⟨new, h1, h2, h3⟩ := ih _ _ h
          refine ⟨new, h1, ?_, ?_⟩
          · intro x inc hx
            obtain ⟨a, b, e', he', c⟩ := h2 x inc hx
            exact ⟨a, b, e', List.mem_cons_of_mem _ he', c⟩
          · intro e' he' v hv
            cases he' with
            | head => rw [hr] at hv; cases hv; exact .inl hm
            | tail _ he' => exact h3 e' he' v hv
      · simp at h

/-- Why `pushEdges` fails. -/
theorem pushEdges_error (g : Graph E) (marks : Nat → Mark) (es : List E) (o : Outcome) :
    ∀ (s : List (Nat × Option E)), pushEdges g marks es s = .error o →
      (o = .cyclic ∧ ∃ e ∈ es, ∃ v, g.ref e = some v ∧ marks v = .inProgress) ∨
      (o = .outOfBounds ∧ ∃ e ∈ es, ∃ v, g.ref e = some v ∧ ¬ v < g.size) := by
  induction es with
  | nil => intro s h; simp [pushEdges] at h
  | cons e es ih =>
    intro s h
    simp only [pushEdges] at h
    have lift : ((o = .cyclic ∧ ∃ e ∈ es, ∃ v, g.ref e = some v ∧ marks v = .inProgress) ∨
      (o = .outOfBounds ∧ ∃ e ∈ es, ∃ v, g.ref e = some v ∧ ¬ v < g.size)) →
      (o = .cyclic ∧ ∃ e' ∈ e :: es, ∃ v, g.ref e' = some v ∧ marks v = .inProgress) ∨
      (o = .outOfBounds ∧ ∃ e' ∈ e :: es, ∃ v, g.ref e' = some v ∧ ¬ v < g.size) := by
      rintro (⟨ho, e', he', r⟩ | ⟨ho, e', he', r⟩)
      · exact .inl ⟨ho, e', List.mem_cons_of_mem _ he', r⟩
      · exact .inr ⟨ho, e', List.mem_cons_of_mem _ he', r⟩
    split at h
    · exact lift (ih _ h)
    · rename_i w hr
      split at h
      · split at h
        · exact lift (ih _ h)
        · rename_i hm
          simp at h
          exact .inl ⟨h.symm, e, List.mem_cons_self, w, hr, hm⟩
        · exact lift (ih _ h)
      · rename_i hw
        simp at h
        exact .inr ⟨h.symm, e, List.mem_cons_self, w, hr, hw⟩

theorem append_cons_split {a b l₁ l₂ : List Nat} {p : Nat} (h : a ++ b = l₁ ++ p :: l₂) :
    (∃ c, a = l₁ ++ p :: c ∧ l₂ = c ++ b) ∨ (∃ c, l₁ = a ++ c ∧ b = c ++ p :: l₂) := by
  rcases List.append_eq_append_iff.mp h with ⟨c, h1, h2⟩ | ⟨c, h1, h2⟩
  · exact .inr ⟨c, h1, h2⟩
  · cases c with
    | nil => right; exact ⟨[], by simpa using h1.symm, by simpa using h2.symm⟩
    | cons x c =>
      simp at h2
      obtain ⟨rfl, h2⟩ := h2
      exact .inl ⟨c, h1, h2⟩

theorem step_inv (g : Graph E) (hwf : WellFormed g) (root : Nat) (out₀ : List (Nat × Option E))
    (st st' : State E) (u : Nat) (inc : Option E)
    (rest : List (Nat × Option E)) (hs : st.stack = (u, inc) :: rest) (hi : Inv g root out₀ st)
    (h : step g st u inc rest = .ok st') : Inv g root out₀ st' := by
  have hnodes : nodesOf st.stack = u :: nodesOf rest := by rw [hs]; rfl
  unfold step at h
  split at h
  · rename_i hu
    split at h
    · -- entering a node
      rename_i hm
      simp only at h
      split at h
      · rename_i stack hp
        simp only [Except.ok.injEq] at h; subst h
        obtain ⟨new, rfl, hnew, hsucc⟩ := pushEdges_ok _ _ _ _ _ hp
        have hnewi : ∀ x ∈ nodesOf new, setMark st.marks u .inProgress x = .init ∧ x < g.size ∧ Adj g u x := by
          intro x hx
          simp only [nodesOf, List.mem_map] at hx
          obtain ⟨⟨x', inc'⟩, hx, rfl⟩ := hx
          obtain ⟨a, b, e, he, _, c⟩ := hnew _ _ hx
          exact ⟨b, a, e, he, c⟩
        have hunew : u ∉ nodesOf new := by
          intro hx
          have := (hnewi u hx).1
          simp at this
        have hmk : ∀ p, setMark st.marks u .inProgress p = .inProgress → p ≠ u →
            st.marks p = .inProgress := by
          intro p hp hpu
          rwa [setMark_ne _ _ hpu] at hp
        have hdone : ∀ p, setMark st.marks u .inProgress p = .done ↔ st.marks p = .done := by
          intro p
          by_cases hpu : p = u
          · subst hpu; simp [hm]
          · rw [setMark_ne _ _ hpu]
        have hreach_u : Reach g root u := hi.reach u (by rw [hnodes]; exact List.mem_cons_self)
        refine ⟨⟨?_, hi.settled.nodup, hi.settled.first, hi.settled.bounded⟩, ?_, ?_, ?_, ?_, ?_, ?_, ?_, ?_⟩
        · intro p; rw [hi.settled.done_iff, hdone]
        · intro p hp
          rw [nodesOf_append, nodesOf_cons]
          by_cases hpu : p = u
          · subst hpu; simp
          · have := hi.on_stack p (hmk p hp hpu)
            rw [hnodes] at this
            exact List.mem_append_right _ this
        · intro l₁ p l₂ hl hpl hp x hx
          rw [nodesOf_append, nodesOf_cons] at hl
          rcases append_cons_split hl with ⟨c, hc, _⟩ | ⟨c, rfl, hc⟩
          · have hpn : p ∈ nodesOf new := by rw [hc]; simp
            have := (hnewi p hpn).1
            simp only at hp
            rw [hp] at this; cases this
          · have hpc : p ∉ c := fun h => hpl (List.mem_append_right _ h)
            by_cases hpu : p = u
            · subst hpu
              cases c with
              | nil =>
                simp at hx
                exact (hnewi x hx).2.2.plus
              | cons y c => simp at hc; exact absurd (by simp [hc.1]) hpc
            · have hc' : nodesOf st.stack = c ++ p :: l₂ := by rw [hnodes]; exact hc
              have hold := hi.above_reach c p l₂ hc' hpc (hmk p hp hpu)
              have huc : u ∈ c := by
                cases c with
                | nil => simp at hc; exact absurd hc.1.symm hpu
                | cons y c => simp at hc; simp [hc.1]
              rcases List.mem_append.mp hx with hx | hx
              · exact (hold u huc).tail (hnewi x hx).2.2
              · exact hold x hx
        · intro l₁ p l₂ hl hpl hp v hv
          rw [nodesOf_append, nodesOf_cons] at hl
          simp only
          rcases append_cons_split hl with ⟨c, hc, _⟩ | ⟨c, rfl, hc⟩
          · have hpn : p ∈ nodesOf new := by rw [hc]; simp
            have := (hnewi p hpn).1
            simp only at hp
            rw [hp] at this; cases this
          · have hpc : p ∉ c := fun h => hpl (List.mem_append_right _ h)
            by_cases hpu : p = u
            · subst hpu
              obtain ⟨e, he, hev⟩ := hv
              rcases hsucc e he v hev with hd | hd
              · exact .inl hd
              · exact .inr (List.mem_append_left _ hd)
            · have hc' : nodesOf st.stack = c ++ p :: l₂ := by rw [hnodes]; exact hc
              rcases hi.above_succ c p l₂ hc' hpc (hmk p hp hpu) v hv with hd | hd
              · exact .inl ((hdone v).mpr hd)
              · exact .inr (List.mem_append_right _ hd)
        · intro x hx
          rw [nodesOf_append, nodesOf_cons] at hx
          rcases List.mem_append.mp hx with hx | hx
          · exact (hnewi x hx).2.1
          · exact hi.bounded x (by rw [hnodes]; exact hx)
        · intro x hx
          rw [nodesOf_append, nodesOf_cons] at hx
          rcases List.mem_append.mp hx with hx | hx
          · exact .tail hreach_u (hnewi x hx).2.2
          · exact hi.reach x (by rw [hnodes]; exact hx)
        · intro x inc' hx
          rcases List.mem_append.mp hx with hx | hx
          · obtain ⟨_, hxi, e, he, h1, h2⟩ := hnew x inc' hx
            right
            refine ⟨?_, e, u, h1, he, h2, hreach_u⟩
            rintro rfl
            rcases hi.root_pos with ⟨pre, hpre, _, hr⟩ | ⟨hnil, _⟩
            · rcases hr with hr | ⟨hr, rfl⟩
              · by_cases hxu : x = u
                · subst hxu; rw [setMark_same] at hxi; cases hxi
                · rw [setMark_ne _ _ hxu, hr] at hxi; cases hxi
              · rw [hs] at hpre
                simp at hpre
                rw [← hpre.1.1] at hxi
                simp at hxi
            · rw [hs] at hnil; cases hnil
          · exact hi.just x inc' (by rw [hs]; exact hx)
        · exact hi.out_ext
        · left
          rcases hi.root_pos with ⟨pre, hpre, hrp, hr⟩ | ⟨hnil, _⟩
          · refine ⟨new ++ pre, ?_, ?_, ?_⟩
            · simp only; rw [← hs, hpre]; simp
            · rw [nodesOf_append]
              intro hmem
              rcases List.mem_append.mp hmem with hx | hx
              · have hxi := (hnewi _ hx).1
                rcases hr with hr | ⟨hr, rfl⟩
                · by_cases hxu : root = u
                  · subst hxu; rw [hr] at hm; cases hm
                  · rw [setMark_ne _ _ hxu, hr] at hxi; cases hxi
                · rw [hs] at hpre
                  simp at hpre
                  rw [← hpre.1.1] at hxi
                  simp at hxi
              · exact hrp hx
            · left
              simp only
              rcases hr with hr | ⟨hr, rfl⟩
              · by_cases hxu : root = u
                · subst hxu; simp
                · rw [setMark_ne _ _ hxu, hr]
              · rw [hs] at hpre
                simp at hpre
                rw [← hpre.1.1]; simp
          · rw [hs] at hnil; cases hnil
      · simp at h
    · -- leaving a node
      rename_i hm
      simp only [Except.ok.injEq] at h; subst h
      have hsuccs : ∀ v, Adj g u v → st.marks v = .done := by
        intro v hv
        rcases hi.above_succ [] u (nodesOf rest) hnodes (by simp) hm v hv with hd | hd
        · exact hd
        · simp at hd
      have hnew : u ∉ nodesOf st.out := by
        rw [hi.settled.done_iff, hm]; simp
      refine ⟨⟨?_, ?_, ?_, ?_⟩, ?_, ?_, ?_, ?_, ?_, ?_, ?_, ?_⟩
      · intro p
        simp only [nodesOf_append, nodesOf_cons, nodesOf_nil, List.mem_append, List.mem_singleton]
        by_cases hpu : p = u
        · subst hpu; simp
        · rw [setMark_ne _ _ hpu, hi.settled.done_iff]; simp [hpu]
      · simp only [nodesOf_append, nodesOf_cons, nodesOf_nil]
        rw [List.nodup_append]
        refine ⟨hi.settled.nodup, by simp, ?_⟩
        intro a ha b hb hab
        simp at hb; subst hb; subst hab
        exact hnew ha
      · simp only [nodesOf_append, nodesOf_cons, nodesOf_nil]
        exact hi.settled.first.snoc (fun v hv => (hi.settled.done_iff v).mpr (hsuccs v hv))
      · intro p hp
        simp only [nodesOf_append, nodesOf_cons, nodesOf_nil, List.mem_append, List.mem_singleton] at hp
        rcases hp with hp | rfl
        · exact hi.settled.bounded p hp
        · exact hu
      · intro p hp
        simp only at hp ⊢
        have hpu : p ≠ u := by rintro rfl; simp at hp
        rw [setMark_ne _ _ hpu] at hp
        have := hi.on_stack p hp
        rw [hnodes] at this
        cases this with
        | head => exact absurd rfl hpu
        | tail _ h => exact h
      · intro l₁ p l₂ hl hpl hp x hx
        simp only at hp hl
        have hpu : p ≠ u := by rintro rfl; simp at hp
        rw [setMark_ne _ _ hpu] at hp
        exact hi.above_reach (u :: l₁) p l₂ (by rw [hnodes, hl]; rfl) (by simp [hpu, hpl]) hp x
          (List.mem_cons_of_mem _ hx)
      · intro l₁ p l₂ hl hpl hp v hv
        simp only at hp hl ⊢
        have hpu : p ≠ u := by rintro rfl; simp at hp
        rw [setMark_ne _ _ hpu] at hp
        rcases hi.above_succ (u :: l₁) p l₂ (by rw [hnodes, hl]; rfl) (by simp [hpu, hpl]) hp v hv with hd | hd
        · left
          by_cases hvu : v = u
          · subst hvu; simp
          · rw [setMark_ne _ _ hvu]; exact hd
        · cases hd with
          | head => left; simp
          | tail _ h => exact .inr h
      · intro x hx; exact hi.bounded x (by rw [hnodes]; exact List.mem_cons_of_mem _ hx)
      · intro x hx; exact hi.reach x (by rw [hnodes]; exact List.mem_cons_of_mem _ hx)
      · intro x inc' hx; exact hi.just x inc' (by rw [hs]; exact List.mem_cons_of_mem _ hx)
      · obtain ⟨new, h1, h2⟩ := hi.out_ext
        refine ⟨new ++ [(u, inc)], by simp [h1], ?_⟩
        intro x inc' hx
        rcases List.mem_append.mp hx with hx | hx
        · exact h2 x inc' hx
        · simp at hx
          obtain ⟨rfl, rfl⟩ := hx
          exact ⟨hi.just _ _ (by rw [hs]; exact List.mem_cons_self),
            hi.reach _ (by rw [hnodes]; exact List.mem_cons_self)⟩
      · rcases hi.root_pos with ⟨pre, hpre, hrp, hr⟩ | ⟨hnil, _⟩
        · cases pre with
          | nil =>
            rw [hs] at hpre
            simp at hpre
            obtain ⟨⟨rfl, rfl⟩, rfl⟩ := hpre
            right
            exact ⟨rfl, by simp, st.out, rfl⟩
          | cons y pre =>
            rw [hs] at hpre
            simp at hpre
            obtain ⟨rfl, rfl⟩ := hpre
            left
            refine ⟨pre, rfl, ?_, ?_⟩
            · intro h; exact hrp (List.mem_cons_of_mem _ h)
            · left
              have hru : root ≠ u := by
                rintro rfl; exact hrp List.mem_cons_self
              simp only
              rw [setMark_ne _ _ hru]
              rcases hr with hr | ⟨_, hr⟩
              · exact hr
              · cases hr
        · rw [hs] at hnil; cases hnil
    · -- an entry that has been dealt with already
      rename_i hm
      simp only [Except.ok.injEq] at h; subst h
      have hne : ∀ p, st.marks p = .inProgress → p ≠ u := by
        rintro p hp rfl; rw [hm] at hp; cases hp
      refine ⟨hi.settled, ?_, ?_, ?_, ?_, ?_, ?_, hi.out_ext, ?_⟩
      · intro p hp
        have := hi.on_stack p hp
        rw [hnodes] at this
        cases this with
        | head => exact absurd rfl (hne _ hp)
        | tail _ h => exact h
      · intro l₁ p l₂ hl hpl hp x hx
        exact hi.above_reach (u :: l₁) p l₂ (by rw [hnodes]; simp only at hl; rw [hl]; rfl)
          (by simp [hne p hp, hpl]) hp x (List.mem_cons_of_mem _ hx)
      · intro l₁ p l₂ hl hpl hp v hv
        rcases hi.above_succ (u :: l₁) p l₂ (by rw [hnodes]; simp only at hl; rw [hl]; rfl)
          (by simp [hne p hp, hpl]) hp v hv with hd | hd
        · exact .inl hd
        · cases hd with
          | head => exact .inl hm
          | tail _ h => exact .inr h
      · intro x hx; exact hi.bounded x (by rw [hnodes]; exact List.mem_cons_of_mem _ hx)
      · intro x hx; exact hi.reach x (by rw [hnodes]; exact List.mem_cons_of_mem _ hx)
      · intro x inc' hx; exact hi.just x inc' (by rw [hs]; exact List.mem_cons_of_mem _ hx)
      · rcases hi.root_pos with ⟨pre, hpre, hrp, hr⟩ | ⟨hnil, _⟩
        · cases pre with
          | nil =>
            rw [hs] at hpre
            simp at hpre
            obtain ⟨⟨rfl, rfl⟩, rfl⟩ := hpre
            rcases hr with hr | ⟨hr, _⟩
            · rw [hr] at hm; cases hm
            · rw [hr] at hm; cases hm
          | cons y pre =>
            rw [hs] at hpre
            simp at hpre
            obtain ⟨rfl, rfl⟩ := hpre
            left
            refine ⟨pre, rfl, ?_, ?_⟩
            · intro h; exact hrp (List.mem_cons_of_mem _ h)
            · rcases hr with hr | ⟨_, hr⟩
              · exact .inl hr
              · cases hr
        · rw [hs] at hnil; cases hnil
  · simp at h

/-- When an iteration stops the traversal, there is a cycle, and the callback has seen a
consistent prefix. -/
theorem step_error (g : Graph E) (hwf : WellFormed g) (root : Nat) (out₀ : List (Nat × Option E))
    (st : State E) (u : Nat) (inc : Option E) (r : Outcome × State E)
    (rest : List (Nat × Option E)) (hs : st.stack = (u, inc) :: rest) (hi : Inv g root out₀ st)
    (h : step g st u inc rest = .error r) :
    r.1 = .cyclic ∧ r.2.out = st.out ∧ ∃ c, Reach g root c ∧ OnCycle g c := by
  have hnodes : nodesOf st.stack = u :: nodesOf rest := by rw [hs]; rfl
  have humem : u ∈ nodesOf st.stack := by rw [hnodes]; exact List.mem_cons_self
  unfold step at h
  split at h
  · rename_i hu
    split at h
    · rename_i hm
      simp only at h
      split at h
      · simp at h
      · rename_i o ho
        simp only [Except.error.injEq] at h; subst h
        rcases pushEdges_error _ _ _ _ _ ho with ⟨rfl, e, he, v, hv, hmv⟩ | ⟨_, e, he, v, hv, hlt⟩
        · refine ⟨rfl, rfl, u, hi.reach u humem, ?_⟩
          have hadj : Adj g u v := ⟨e, he, hv⟩
          by_cases hvu : v = u
          · subst hvu; exact hadj.plus
          · rw [setMark_ne _ _ hvu] at hmv
            obtain ⟨l₁, l₂, hl, hn⟩ := exists_first (hi.on_stack v hmv)
            have hul : u ∈ l₁ := by
              cases l₁ with
              | nil => rw [hnodes] at hl; simp at hl; exact absurd hl.1.symm hvu
              | cons y l => rw [hnodes] at hl; simp at hl; simp [hl.1]
            have := hi.above_reach l₁ v l₂ hl hn hmv u hul
            exact hadj.plus.trans this
        · exact absurd (hwf u v ⟨e, he, hv⟩) hlt
    · simp at h
    · simp at h
  · rename_i hu
    exact absurd (hi.bounded u humem) hu

theorem run_spec (g : Graph E) (hwf : WellFormed g) (root : Nat) (out₀ : List (Nat × Option E)) :
    ∀ (fuel : Nat) (st : State E), measure g st ≤ fuel → Inv g root out₀ st →
      ((run g fuel st).1 = .ok ∧ Inv g root out₀ (run g fuel st).2 ∧ (run g fuel st).2.stack = []) ∨
      ((run g fuel st).1 = .cyclic ∧ (∃ c, Reach g root c ∧ OnCycle g c) ∧
        ∃ st', Inv g root out₀ st' ∧ (run g fuel st).2.out = st'.out) := by
  intro fuel
  induction fuel with
  | zero =>
    intro st h hi
    have : st.stack = [] := by
      have : st.stack.length = 0 := by unfold measure at h; omega
      exact List.length_eq_zero_iff.mp this
    left
    have hr : run g 0 st = (.ok, st) := by unfold run; rw [this]
    rw [hr]; exact ⟨rfl, hi, this⟩
  | succ n ih =>
    intro st h hi
    rcases hs : st.stack with _ | ⟨⟨u, inc⟩, rest⟩
    · left
      have hr : run g (n + 1) st = (.ok, st) := by unfold run; rw [hs]
      rw [hr]; exact ⟨rfl, hi, hs⟩
    · rcases hst : step g st u inc rest with e | st'
      · have hr : run g (n + 1) st = e := by unfold run; rw [hs]; simp only; rw [hst]
        obtain ⟨h1, h2, h3⟩ := step_error g hwf root out₀ st u inc e rest hs hi hst
        right
        rw [hr]
        exact ⟨h1, h3, st, hi, h2⟩
      · have hr : run g (n + 1) st = run g n st' := by
          conv => lhs; unfold run
          rw [hs]; simp only; rw [hst]
        rw [hr]
        have hm := step_measure g st st' u inc rest hs hst
        exact ih st' (by omega) (step_inv g hwf root out₀ st st' u inc rest hs hi hst)

/-- Summary of one call of `visitFrom` starting with settled marks. -/
theorem visitFrom_spec (g : Graph E) (hwf : WellFormed g) (root : Nat) (hroot : root < g.size)
    (marks : Nat → Mark) (out : List (Nat × Option E)) (hset : Settled g marks out)
    (hnip : ∀ u, marks u ≠ .inProgress) :
    ((visitFrom g root marks out).1 = .ok ∧
      Settled g (visitFrom g root marks out).2.marks (visitFrom g root marks out).2.out ∧
      (∀ u, (visitFrom g root marks out).2.marks u ≠ .inProgress) ∧
      (visitFrom g root marks out).2.marks root = .done ∧
      ∃ new, (visitFrom g root marks out).2.out = out ++ new ∧
        (∀ x inc, (x, inc) ∈ new → Justified g root x inc ∧ Reach g root x) ∧
        (marks root = .init → ∃ pre, new = pre ++ [(root, none)])) ∨
    ((visitFrom g root marks out).1 = .cyclic ∧ (∃ c, Reach g root c ∧ OnCycle g c) ∧
      ∃ m, Settled g m (visitFrom g root marks out).2.out) := by
  unfold visitFrom
  rw [if_pos hroot]
  rcases hm : marks root with _ | _ | _
  · simp only
    have hinv : Inv g root out { marks := marks, stack := [(root, none)], out := out } := by
      refine ⟨hset, ?_, ?_, ?_, ?_, ?_, ?_, ⟨[], by simp, by simp⟩, ?_⟩
      · intro u hu; exact absurd hu (hnip u)
      · intro _ p _ _ _ hp; exact absurd hp (hnip p)
      · intro _ p _ _ _ hp; exact absurd hp (hnip p)
      · intro u hu; simp at hu; subst hu; exact hroot
      · intro u hu; simp at hu; subst hu; exact .refl _
      · intro x inc hx; simp at hx; exact .inl hx
      · exact .inl ⟨[], rfl, by simp, .inr ⟨hm, rfl⟩⟩
    have hfuel : measure g { marks := marks, stack := [(root, none)], out := out } ≤
        edgeBound g g.size + 1 := by
      have := pending_le g marks g.size
      simp [measure]; omega
    rcases run_spec g hwf root out _ _ hfuel hinv with ⟨h1, h2, h3⟩ | ⟨h1, h2, st', h3, h4⟩
    · left
      refine ⟨h1, h2.settled, ?_, ?_, ?_⟩
      · intro u hu
        have := h2.on_stack u hu
        rw [h3] at this; simp at this
      · rcases h2.root_pos with ⟨pre, hp, _⟩ | ⟨_, hd, _⟩
        · rw [h3] at hp; simp at hp
        · exact hd
      · obtain ⟨new, hn1, hn2⟩ := h2.out_ext
        refine ⟨new, hn1, hn2, fun _ => ?_⟩
        rcases h2.root_pos with ⟨pre, hp, _⟩ | ⟨_, hd, pre, hp⟩
        · rw [h3] at hp; simp at hp
        · have hroot_out : root ∉ nodesOf out := by
            rw [hset.done_iff, hm]; simp
          rcases List.eq_nil_or_concat new with rfl | ⟨pre', x, rfl⟩
          · simp at hn1
            rw [hn1] at hp
            exact absurd (by rw [hp, nodesOf_append]; simp) hroot_out
          · rw [hn1] at hp
            have : (out ++ pre') ++ [x] = pre ++ [(root, none)] := by simpa using hp
            have := List.append_inj' this rfl
            have hx : x = (root, none) := by simpa using this.2
            subst hx
            exact ⟨pre', by simp⟩
    · right
      refine ⟨h1, h2, st'.marks, ?_⟩
      rw [h4]; exact h3.settled
  · exact absurd hm (hnip root)
  · left
    exact ⟨rfl, hset, hnip, hm, [], by simp, by simp, by simp⟩

theorem settled_empty (g : Graph E) : Settled g (fun _ => .init) [] := by
  refine ⟨by simp, by simp, DepsFirst.nil g, by simp⟩

theorem visitAll_spec (g : Graph E) (hwf : WellFormed g) :
    ∀ (us : List Nat) (marks : Nat → Mark) (out : List (Nat × Option E)),
      (∀ u ∈ us, u < g.size) → Settled g marks out → (∀ u, marks u ≠ .inProgress) →
      ((visitAll g us marks out).1 = .ok ∧
        (∃ m, Settled g m (visitAll g us marks out).2 ∧ (∀ u ∈ us, m u = .done) ∧
          (∀ u, marks u = .done → m u = .done))) ∨
      ((visitAll g us marks out).1 = .cyclic ∧ (∃ c, OnCycle g c ∧ ∃ r < g.size, Reach g r c) ∧
        ∃ m, Settled g m (visitAll g us marks out).2) := by
  intro us
  induction us with
  | nil =>
    intro marks out _ hset _
    left
    exact ⟨rfl, marks, hset, by simp, fun _ h => h⟩
  | cons u us ih =>
    intro marks out hb hset hnip
    have hub : u < g.size := hb u List.mem_cons_self
    rcases visitFrom_spec g hwf u hub marks out hset hnip with
      ⟨h1, h2, h3, h4, new, h5, _⟩ | ⟨h1, ⟨c, hc1, hc2⟩, m, h3⟩
    · have hr : visitAll g (u :: us) marks out =
          visitAll g us (visitFrom g u marks out).2.marks (visitFrom g u marks out).2.out := by
        conv => lhs; unfold visitAll
        rcases hv : visitFrom g u marks out with ⟨o, st⟩
        rw [hv] at h1; simp only at h1; subst h1
        rfl
      rw [hr]
      have hmono : ∀ v, marks v = .done → (visitFrom g u marks out).2.marks v = .done := by
        intro v hv
        rw [← hset.done_iff] at hv
        rw [← h2.done_iff, h5, nodesOf_append]
        exact List.mem_append_left _ hv
      rcases ih _ _ (fun v hv => hb v (List.mem_cons_of_mem _ hv)) h2 h3 with
        ⟨a1, m, a2, a3, a4⟩ | a
      · left
        refine ⟨a1, m, a2, ?_, fun v hv => a4 v (hmono v hv)⟩
        intro v hv
        cases hv with
        | head => exact a4 _ h4
        | tail _ hv => exact a3 v hv
      · exact .inr a
    · right
      have hr : visitAll g (u :: us) marks out = (.cyclic, (visitFrom g u marks out).2.out) := by
        unfold visitAll
        rcases hv : visitFrom g u marks out with ⟨o, st⟩
        rw [hv] at h1; simp only at h1; subst h1
        rfl
      rw [hr]
      exact ⟨rfl, ⟨c, hc2, u, hub, hc1⟩, m, h3⟩

end Maike.Graph
