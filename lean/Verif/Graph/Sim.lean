import Verif.Graph.Model

/-!
# Traversals of graphs that correspond to each other

If two graphs look the same from a node on, up to the numbers of nodes, then the traversals from there visit the same nodes in the same order.
-/

namespace Maike.Graph

/-- Two lists of the same length whose elements are related one by one. -/
inductive All2 {α β : Type} (R : α → β → Prop) : List α → List β → Prop
  | nil : All2 R [] []
  | cons {a b l m} : R a b → All2 R l m → All2 R (a :: l) (b :: m)

theorem All2.append {α β : Type} {R : α → β → Prop} {l l' : List α} {m m' : List β} (h : All2 R l m) (h' : All2 R l' m') : All2 R (l ++ l') (m ++ m') := by
  induction h with
  | nil => exact h'
  | cons ha _ ih => exact .cons ha ih

theorem All2.imp {α β : Type} {R S : α → β → Prop} (hRS : ∀ a b, R a b → S a b) {l : List α} {m : List β} (h : All2 R l m) : All2 S l m := by
  induction h with
  | nil => exact .nil
  | cons ha _ ih => exact .cons (hRS _ _ ha) ih

theorem All2.flatMap {α β γ : Type} {R : α → β → Prop} {f : α → List γ} {f' : β → List γ} (hf : ∀ a b, R a b → f a = f' b) {l : List α} {m : List β}
    (h : All2 R l m) : l.flatMap f = m.flatMap f' := by
  induction h with
  | nil => rfl
  | cons ha _ ih => simp only [List.flatMap_cons, hf _ _ ha, ih]

theorem All2.of_map {α β γ : Type} {f : α → γ} {f' : β → γ} : ∀ {l : List α} {m : List β}, l.map f = m.map f' → All2 (fun a b => f a = f' b) l m
  | [], [], _ => .nil
  | [], _ :: _, h => by cases h
  | _ :: _, [], h => by cases h
  | _ :: _, _ :: _, h => by
    simp only [List.map_cons, List.cons.injEq] at h
    exact .cons h.1 (of_map h.2)

theorem All2.and_mem {α β : Type} {R : α → β → Prop} {l : List α} {m : List β} (h : All2 R l m) : All2 (fun a b => R a b ∧ a ∈ l ∧ b ∈ m) l m := by
  induction h with
  | nil => exact .nil
  | cons ha _ ih => exact .cons ⟨ha, by simp, by simp⟩ (ih.imp fun _ _ h => ⟨h.1, by simp [h.2.1], by simp [h.2.2]⟩)

/-- Both are missing, or both are there and related. -/
inductive Opt2 {α β : Type} (R : α → β → Prop) : Option α → Option β → Prop
  | none : Opt2 R none none
  | some {a b} : R a b → Opt2 R (some a) (some b)

variable {E E' : Type} {g : Graph E} {g' : Graph E'} {R : Nat → Nat → Prop} {S : E → E' → Prop}

/-- Entries of stacks and calls that correspond to each other. -/
def Entry (R : Nat → Nat → Prop) (S : E → E' → Prop) (c : Nat × Option E) (c' : Nat × Option E') : Prop := R c.1 c'.1 ∧ Opt2 S c.2 c'.2

theorem pushEdges_sim {marks marks' : Nat → Mark} (hm : ∀ u v, R u v → marks u = marks' v) {es : List E} {es' : List E'}
    (hes : All2 (fun e e' => S e e' ∧ Opt2 R (g.ref e) (g'.ref e')) es es') {st : List (Nat × Option E)} {st' : List (Nat × Option E')} (hst : All2 (Entry R S) st st')
    {s : List (Nat × Option E)} {s' : List (Nat × Option E')} (h : pushEdges g marks es st = .ok s) (h' : pushEdges g' marks' es' st' = .ok s') : All2 (Entry R S) s s' := by
  induction hes generalizing st st' with
  | nil =>
    simp only [pushEdges, Except.ok.injEq] at h h'
    subst h h'
    exact hst
  | @cons e e' es es' he _ ih =>
    obtain ⟨hS, href⟩ := he
    simp only [pushEdges] at h h'
    cases hr : g.ref e with
    | none =>
      rw [hr] at href h
      cases hr' : g'.ref e' with
      | some _ => rw [hr'] at href; cases href
      | none =>
        rw [hr'] at h'
        exact ih hst h h'
    | some v =>
      rw [hr] at href h
      cases hr' : g'.ref e' with
      | none => rw [hr'] at href; cases href
      | some v' =>
        rw [hr'] at href h'
        cases href with
        | some hv =>
          simp only at h h'
          split at h
          · split at h'
            · have hmv := hm v v' hv
              rw [← hmv] at h'
              cases hmk : marks v with
              | init =>
                rw [hmk] at h h'
                exact ih (.cons ⟨hv, .some hS⟩ hst) h h'
              | inProgress => rw [hmk] at h; cases h
              | done =>
                rw [hmk] at h h'
                exact ih hst h h'
            · cases h'
          · cases h

theorem setMark_sim (hfun : ∀ u v v', R u v → R u v' → v = v') (hinj : ∀ u u' v, R u v → R u' v → u = u') {marks marks' : Nat → Mark}
    (hm : ∀ u v, R u v → marks u = marks' v) {a b : Nat} (hab : R a b) (m : Mark) : ∀ u v, R u v → setMark marks a m u = setMark marks' b m v := by
  intro u v huv
  unfold setMark
  by_cases hua : u = a
  · subst hua
    rw [if_pos rfl, if_pos (hfun _ _ _ huv hab)]
  · have hvb : v ≠ b := by rintro rfl; exact hua (hinj _ _ _ huv hab)
    rw [if_neg hua, if_neg hvb]
    exact hm u v huv

theorem pushEdges_sim_error {marks : Nat → Mark} {es : List E} {st : List (Nat × Option E)} {o : Outcome} (h : pushEdges g marks es st = .error o) : o ≠ .ok := by
  induction es generalizing st with
  | nil => cases h
  | cons e es ih =>
    simp only [pushEdges] at h
    split at h
    · exact ih h
    · split at h
      · split at h
        · exact ih h
        · simp only [Except.error.injEq] at h; subst h; simp
        · exact ih h
      · simp only [Except.error.injEq] at h; subst h; simp

theorem step_fails {st : State E} {u : Nat} {inc : Option E} {rest : List (Nat × Option E)} {e : Outcome × State E} (h : step g st u inc rest = .error e) : e.1 ≠ .ok := by
  unfold step at h
  split at h
  · split at h
    · simp only at h
      split at h
      · cases h
      · rename_i he
        simp only [Except.error.injEq] at h
        subst h
        exact pushEdges_sim_error he
    · cases h
    · cases h
  · simp only [Except.error.injEq] at h; subst h; simp

theorem step_sim (hfun : ∀ u v v', R u v → R u v' → v = v') (hinj : ∀ u u' v, R u v → R u' v → u = u')
    (hedges : ∀ u v, R u v → All2 (fun e e' => S e e' ∧ Opt2 R (g.ref e) (g'.ref e')) (g.edges u) (g'.edges v)) {st : State E} {st' : State E'}
    (hm : ∀ u v, R u v → st.marks u = st'.marks v) (hout : All2 (Entry R S) st.out st'.out) {u v : Nat} (huv : R u v) {inc : Option E} {inc' : Option E'}
    (hinc : Opt2 S inc inc') {rest : List (Nat × Option E)} {rest' : List (Nat × Option E')} (hrest : All2 (Entry R S) rest rest') {s : State E} {s' : State E'}
    (h : step g st u inc rest = .ok s) (h' : step g' st' v inc' rest' = .ok s') :
    (∀ u v, R u v → s.marks u = s'.marks v) ∧ All2 (Entry R S) s.stack s'.stack ∧ All2 (Entry R S) s.out s'.out := by
  unfold step at h h'
  split at h
  · split at h'
    · rw [← hm u v huv] at h'
      cases hmk : st.marks u with
      | init =>
        rw [hmk] at h h'
        simp only at h h'
        cases hp : pushEdges g (setMark st.marks u .inProgress) (g.edges u) ((u, inc) :: rest) with
        | error => rw [hp] at h; cases h
        | ok stack =>
          rw [hp] at h
          cases hp' : pushEdges g' (setMark st'.marks v .inProgress) (g'.edges v) ((v, inc') :: rest') with
          | error => rw [hp'] at h'; cases h'
          | ok stack' =>
            rw [hp'] at h'
            simp only [Except.ok.injEq] at h h'
            subst h h'
            have hm' := setMark_sim hfun hinj hm huv .inProgress
            exact ⟨hm', pushEdges_sim hm' (hedges u v huv) (.cons ⟨huv, hinc⟩ hrest) hp hp', hout⟩
      | inProgress =>
        rw [hmk] at h h'
        simp only [Except.ok.injEq] at h h'
        subst h h'
        exact ⟨setMark_sim hfun hinj hm huv .done, hrest, hout.append (.cons ⟨huv, hinc⟩ .nil)⟩
      | done =>
        rw [hmk] at h h'
        simp only [Except.ok.injEq] at h h'
        subst h h'
        exact ⟨hm, hrest, hout⟩
    · cases h'
  · cases h

theorem run_sim (hfun : ∀ u v v', R u v → R u v' → v = v') (hinj : ∀ u u' v, R u v → R u' v → u = u')
    (hedges : ∀ u v, R u v → All2 (fun e e' => S e e' ∧ Opt2 R (g.ref e) (g'.ref e')) (g.edges u) (g'.edges v)) (fuel fuel' : Nat) {st : State E} {st' : State E'}
    (hm : ∀ u v, R u v → st.marks u = st'.marks v) (hst : All2 (Entry R S) st.stack st'.stack) (hout : All2 (Entry R S) st.out st'.out)
    {s : State E} {s' : State E'} (h : run g fuel st = (.ok, s)) (h' : run g' fuel' st' = (.ok, s')) : All2 (Entry R S) s.out s'.out := by
  induction fuel generalizing fuel' st st' with
  | zero =>
    obtain ⟨marks, stack, out⟩ := st
    obtain ⟨marks', stack', out'⟩ := st'
    simp only at hst hout hm
    cases hst with
    | nil =>
      unfold run at h h'
      simp only [Prod.mk.injEq, true_and] at h h'
      subst h h'
      exact hout
    | cons _ _ => unfold run at h; simp at h
  | succ fuel ih =>
    obtain ⟨marks, stack, out⟩ := st
    obtain ⟨marks', stack', out'⟩ := st'
    simp only at hst hout hm
    cases hst with
    | nil =>
      unfold run at h h'
      simp only [Prod.mk.injEq, true_and] at h h'
      subst h h'
      exact hout
    | @cons c c' rest rest' hc hrest =>
      obtain ⟨u, inc⟩ := c
      obtain ⟨v, inc'⟩ := c'
      obtain ⟨huv, hinc⟩ := hc
      simp only at huv hinc
      cases fuel' with
      | zero => unfold run at h'; simp at h'
      | succ fuel' =>
        unfold run at h h'
        simp only at h h'
        cases hs : step g ⟨marks, (u, inc) :: rest, out⟩ u inc rest with
        | error e =>
          rw [hs] at h
          simp only at h
          exact absurd (congrArg Prod.fst h) (step_fails hs)
        | ok st1 =>
          rw [hs] at h
          cases hs' : step g' ⟨marks', (v, inc') :: rest', out'⟩ v inc' rest' with
          | error e =>
            rw [hs'] at h'
            simp only at h'
            exact absurd (congrArg Prod.fst h') (step_fails hs')
          | ok st1' =>
            rw [hs'] at h'
            obtain ⟨h1, h2, h3⟩ := step_sim hfun hinj hedges hm hout huv hinc hrest hs hs'
            exact ih fuel' h1 h2 h3 h h'

/-- Traversals from nodes that correspond to each other make calls that correspond to each other, in the same order. -/
theorem traversal_sim (hfun : ∀ u v v', R u v → R u v' → v = v') (hinj : ∀ u u' v, R u v → R u' v → u = u')
    (hedges : ∀ u v, R u v → All2 (fun e e' => S e e' ∧ Opt2 R (g.ref e) (g'.ref e')) (g.edges u) (g'.edges v)) {a b : Nat} (hab : R a b)
    (hok : (processGraphNodeRecursive g a).1 = .ok) (hok' : (processGraphNodeRecursive g' b).1 = .ok) :
    All2 (Entry R S) (processGraphNodeRecursive g a).2 (processGraphNodeRecursive g' b).2 := by
  simp only [processGraphNodeRecursive, visitFrom] at hok hok' ⊢
  split at hok
  · split at hok'
    · rename_i h1 h2
      simp only [h1, h2, if_true]
      exact run_sim hfun hinj hedges _ _ (fun _ _ _ => rfl) (.cons ⟨hab, .none⟩ .nil) .nil (Prod.ext hok rfl) (Prod.ext hok' rfl)
    · cases hok'
  · cases hok

end Maike.Graph
