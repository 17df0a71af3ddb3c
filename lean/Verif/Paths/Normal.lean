import Verif.Fs.Path

/-!
# Where paths lead to, and normal forms

`walk` defines to which directory a path leads if there are no symbolic links. The theorems below relate `lexically_normal`,
`lexically_relative` and `operator/` to it.
-/

namespace Maike.Paths

open Fs

/-! ## Specification -/

/-- A step from the place `at_`, which is given as a list of names, the innermost first. -/
def walkStep (at_ : List Str) (name : Str) : List Str :=
  if name = dotdot then at_.tail else if name = dot ∨ name = [] then at_ else name :: at_

/-- Where a path leads to, when it is interpreted in the directory `cwd`. -/
def walk (cwd : List Str) (p : Path) : List Str := p.names.foldl walkStep (if p.root then [] else cwd)

/-- A name of a directory entry. -/
def IsName (n : Str) : Prop := n ≠ dotdot ∧ n ≠ dot ∧ n ≠ []

instance (n : Str) : Decidable (IsName n) := inferInstanceAs (Decidable (_ ∧ _))

/-- Normal forms of relative paths are `k` times `..` followed by names, or `.`; those of absolute paths are `/` followed by names. A
separator at the end occurs only after a name. -/
inductive IsNormal : Path → Prop
  | empty : IsNormal Path.empty
  | dot : IsNormal ⟨false, [Fs.dot], false⟩
  | rel (k : Nat) (ns : List Str) (t : Bool) : (∀ n ∈ ns, IsName n) → (ns = [] → t = false ∧ 0 < k) →
      IsNormal ⟨false, List.replicate k dotdot ++ ns, t⟩
  | abs (ns : List Str) (t : Bool) : (∀ n ∈ ns, IsName n) → (ns = [] → t = false) → IsNormal ⟨true, ns, t⟩

/-! ## Walking -/

theorem foldl_names (ns : List Str) (h : ∀ n ∈ ns, IsName n) (c : List Str) : ns.foldl walkStep c = ns.reverse ++ c := by
  induction ns generalizing c with
  | nil => rfl
  | cons n ns ih =>
    have hn := h n (by simp)
    rw [List.foldl_cons, ih fun m hm => h m (by simp [hm])]
    simp [walkStep, hn.1, hn.2.1, hn.2.2]

theorem foldl_dotdots (k : Nat) (c : List Str) : (List.replicate k dotdot).foldl walkStep c = c.drop k := by
  induction k generalizing c with
  | zero => simp
  | succ k ih =>
    rw [List.replicate_succ, List.foldl_cons, ih]
    cases c <;> simp [walkStep]

/-- `a / b` is `b`, interpreted in `a`. -/
theorem walk_append (cwd : List Str) (a b : Path) : walk cwd (a / b) = walk (walk cwd a) b := by
  show walk cwd (a.append b) = _
  unfold Path.append
  cases hb : b.root with
  | true => simp [walk, hb]
  | false =>
    simp only [Bool.false_eq_true, if_false]
    split
    · rename_i h
      simp [walk, h, hb]
    · simp [walk, List.foldl_append, hb]

/-! ## Normalisation -/

/-- Invariant of the loop in `lexically_normal`: the stack consists of names, on top of `..` if the path is relative. -/
def StackOk (root : Bool) (st : List Str) : Prop :=
  ∃ (k : Nat) (ns : List Str), st = ns.reverse ++ List.replicate k dotdot ∧ (∀ n ∈ ns, IsName n) ∧ (root = true → k = 0)

theorem normStep_ok (root : Bool) (s : Norm) (e : Str) (h : StackOk root s.stack) : StackOk root (normStep root s e).stack := by
  obtain ⟨k, ns, hs, hn, hr⟩ := h
  unfold normStep
  split
  · split
    · rename_i hst
      split
      · exact ⟨k, ns, hs, hn, hr⟩
      · rename_i hroot
        exact ⟨1, [], rfl, by simp, fun h => absurd h (by simpa using hroot)⟩
    · rename_i top rest hst
      rw [hs] at hst
      rcases List.eq_nil_or_concat ns with rfl | ⟨ns', n, rfl⟩
      · simp only [List.reverse_nil, List.nil_append] at hst
        cases k with
        | zero => simp at hst
        | succ k =>
          rw [List.replicate_succ] at hst
          simp only [List.cons.injEq] at hst
          obtain ⟨rfl, rfl⟩ := hst
          rw [if_pos rfl]
          refine ⟨k + 2, [], by simp [List.replicate_succ], by simp, ?_⟩
          intro h
          have := hr h
          omega
      · simp only [List.concat_eq_append, List.reverse_append, List.reverse_cons, List.reverse_nil, List.nil_append,
          List.cons_append, List.cons.injEq] at hst
        obtain ⟨rfl, rfl⟩ := hst
        have := hn n (by simp)
        rw [if_neg this.1]
        exact ⟨k, ns', rfl, fun m hm => hn m (by simp [hm]), hr⟩
  · split
    · exact ⟨k, ns, hs, hn, hr⟩
    · rename_i h1 h2
      simp only [not_or] at h2
      refine ⟨k, ns ++ [e], by simp [hs], ?_, hr⟩
      intro m hm
      rcases List.mem_append.mp hm with hm | hm
      · exact hn m hm
      · simp only [List.mem_singleton] at hm
        subst hm
        exact ⟨h1, h2.1, h2.2⟩

theorem normStep_walk (root : Bool) (s : Norm) (e : Str) (h : StackOk root s.stack) (c : List Str) (hc : root = true → c = []) :
    (normStep root s e).stack.reverse.foldl walkStep c = walkStep (s.stack.reverse.foldl walkStep c) e := by
  obtain ⟨k, ns, hs, hn, hr⟩ := h
  unfold normStep
  split
  · rename_i he
    subst he
    split
    · rename_i hst
      split
      · rename_i hroot
        rw [hst]
        simp [hc hroot, walkStep]
      · rw [hst]
        simp [walkStep]
    · rename_i top rest hst
      rw [hst]
      split
      · rename_i ht
        subst ht
        simp [List.foldl_append, walkStep]
      · rename_i ht
        have hname : IsName top := by
          rw [hs] at hst
          rcases List.eq_nil_or_concat ns with rfl | ⟨ns', n, rfl⟩
          · simp only [List.reverse_nil, List.nil_append] at hst
            cases k with
            | zero => simp at hst
            | succ k =>
              rw [List.replicate_succ] at hst
              simp only [List.cons.injEq] at hst
              exact absurd hst.1.symm ht
          · simp only [List.concat_eq_append, List.reverse_append, List.reverse_cons, List.reverse_nil, List.nil_append,
              List.cons_append, List.cons.injEq] at hst
            rw [← hst.1]
            exact hn n (by simp)
        simp only [List.reverse_cons, List.foldl_append, List.foldl_cons, List.foldl_nil]
        simp [walkStep, hname.1, hname.2.1, hname.2.2]
  · rename_i h1
    split
    · rename_i h2
      simp [walkStep, h1, h2]
    · rename_i h2
      simp [List.foldl_append, walkStep, h1, h2]

theorem norm_foldl (root : Bool) (es : List Str) (s : Norm) (h : StackOk root s.stack) (c : List Str) (hc : root = true → c = []) :
    StackOk root (es.foldl (normStep root) s).stack ∧
    (es.foldl (normStep root) s).stack.reverse.foldl walkStep c = es.foldl walkStep (s.stack.reverse.foldl walkStep c) := by
  induction es generalizing s with
  | nil => exact ⟨h, rfl⟩
  | cons e es ih =>
    obtain ⟨h1, h2⟩ := ih (normStep root s e) (normStep_ok root s e h)
    rw [List.foldl_cons, List.foldl_cons]
    exact ⟨h1, by rw [h2, normStep_walk root s e h c hc]⟩

theorem foldl_elems (p : Path) (c : List Str) : p.elems.foldl walkStep c = p.names.foldl walkStep c := by
  unfold Path.elems
  split
  · simp [List.foldl_append, walkStep, dotdot]
  · simp

theorem nil_ok (root : Bool) : StackOk root [] := ⟨0, [], rfl, by simp, fun _ => rfl⟩

/-- Normalisation does not change where a path leads to. -/
theorem walk_normal (cwd : List Str) (p : Path) : walk cwd p.normal = walk cwd p := by
  unfold Path.normal
  split
  · rfl
  · dsimp only
    have hmain := fun c hc => norm_foldl p.root p.elems ⟨[], false⟩ (nil_ok _) c hc
    split
    · rename_i hst
      cases hroot : p.root with
      | true =>
        obtain ⟨_, h2⟩ := hmain [] (fun _ => rfl)
        rw [hroot] at hst h2
        rw [hst, foldl_elems] at h2
        simp only [walk, hroot, if_true]
        exact h2
      | false =>
        obtain ⟨_, h2⟩ := hmain cwd (fun h => by rw [hroot] at h; cases h)
        rw [hroot] at hst h2
        rw [hst, foldl_elems] at h2
        simp only [walk, hroot, Bool.false_eq_true, if_false]
        exact h2
    · rename_i top rest hst
      obtain ⟨_, h2⟩ := hmain (if p.root then [] else cwd) (fun h => by rw [h]; rfl)
      rw [hst, foldl_elems] at h2
      exact h2

/-- The result of normalisation is in normal form. -/
theorem normal_isNormal (p : Path) : IsNormal p.normal := by
  unfold Path.normal
  split
  · rename_i h; rw [h]; exact .empty
  · dsimp only
    obtain ⟨⟨k, ns, hs, hn, hr⟩, _⟩ := norm_foldl p.root p.elems ⟨[], false⟩ (nil_ok _) [] (fun _ => rfl)
    split
    · split
      · exact .abs [] false (by simp) (by simp)
      · exact .dot
    · rename_i top rest hst
      rw [hs] at hst
      have hrev : (top :: rest).reverse = List.replicate k dotdot ++ ns := by rw [← hst]; simp
      rw [hrev]
      have htop : ns = [] → top = dotdot ∧ 0 < k := by
        rintro rfl
        cases k with
        | zero => simp at hst
        | succ k =>
          rw [List.replicate_succ] at hst
          simp only [List.reverse_nil, List.nil_append, List.cons.injEq] at hst
          exact ⟨hst.1.symm, by omega⟩
      cases hroot : p.root with
      | true =>
        rw [hr hroot] at *
        simp only [List.replicate_zero, List.nil_append]
        refine .abs ns _ hn ?_
        intro h
        have := (htop h).2
        omega
      | false =>
        refine .rel k ns _ hn ?_
        intro h
        refine ⟨?_, (htop h).2⟩
        simp [(htop h).1]

theorem normFold_names (root : Bool) (ns : List Str) (h : ∀ n ∈ ns, IsName n) (s : Norm) :
    ns.foldl (normStep root) s = ⟨ns.reverse ++ s.stack, if ns = [] then s.trailing else false⟩ := by
  induction ns generalizing s with
  | nil => simp
  | cons n ns ih =>
    have hn := h n (by simp)
    rw [List.foldl_cons, ih fun m hm => h m (by simp [hm])]
    simp [normStep, hn.1, hn.2.1, hn.2.2]

theorem normFold_dotdots (k j : Nat) :
    (List.replicate k dotdot).foldl (normStep false) ⟨List.replicate j dotdot, false⟩ = ⟨List.replicate (j + k) dotdot, false⟩ := by
  induction k generalizing j with
  | zero => simp
  | succ k ih =>
    rw [List.replicate_succ, List.foldl_cons]
    have : normStep false ⟨List.replicate j dotdot, false⟩ dotdot = ⟨List.replicate (j + 1) dotdot, false⟩ := by
      cases j with
      | zero => simp [normStep]
      | succ j => simp [normStep, List.replicate_succ]
    rw [this, ih]
    congr 2
    omega

/-- Paths in normal form are not changed by normalisation. -/
theorem normal_eq_self {p : Path} (h : IsNormal p) : p.normal = p := by
  have fin : ∀ (root : Bool) (k : Nat) (ns : List Str) (t : Bool), (∀ n ∈ ns, IsName n) → (root = true → k = 0) → (ns = [] → t = false) →
      (Path.elems ⟨root, List.replicate k dotdot ++ ns, t⟩).foldl (normStep root) ⟨[], false⟩ =
        ⟨ns.reverse ++ List.replicate k dotdot, t⟩ := by
    intro root k ns t hn hr ht
    have hdd : (List.replicate k dotdot).foldl (normStep root) ⟨[], false⟩ = ⟨List.replicate k dotdot, false⟩ := by
      cases root with
      | true => rw [hr rfl]; rfl
      | false => simpa using normFold_dotdots k 0
    unfold Path.elems
    simp only [List.foldl_append, hdd, normFold_names root ns hn]
    cases t with
    | false => simp
    | true =>
      have hne : ns ≠ [] := fun e => by have := ht e; cases this
      rcases List.eq_nil_or_concat ns with rfl | ⟨ns', n, rfl⟩
      · exact absurd rfl hne
      · simp [normStep, dotdot]
  cases h with
  | empty => rfl
  | dot => decide
  | rel k ns t hn ht =>
    have h1 := fin false k ns t hn (fun h => by cases h) (fun h => (ht h).1)
    unfold Path.normal
    have hne : (⟨false, List.replicate k dotdot ++ ns, t⟩ : Path) ≠ Path.empty := by
      intro e
      have := congrArg Path.names e
      simp only [Path.empty, List.append_eq_nil_iff] at this
      have h0 := (ht this.2).2
      have := congrArg List.length this.1
      simp at this
      omega
    rw [if_neg hne]
    dsimp only
    rw [h1]
    dsimp only
    split
    · rename_i e
      exfalso
      apply hne
      simp only [List.append_eq_nil_iff, List.reverse_eq_nil_iff] at e
      rw [e.1, e.2, (ht e.1).1]
      rfl
    · rename_i top rest e
      rw [← e]
      simp only [List.reverse_append, List.reverse_replicate, List.reverse_reverse, Path.mk.injEq, true_and, Bool.and_eq_left_iff_imp]
      intro htt
      rcases List.eq_nil_or_concat ns with rfl | ⟨ns', n, rfl⟩
      · rw [(ht rfl).1] at htt; cases htt
      · have e1 : n = top := by
          have := congrArg List.head? e
          simpa using this
        rw [← e1]
        simpa using (hn n (by simp)).1
  | abs ns t hn ht =>
    have h1 := fin true 0 ns t hn (fun _ => rfl) ht
    simp only [List.replicate_zero, List.nil_append, List.append_nil] at h1
    unfold Path.normal
    rw [if_neg (by simp [Path.empty])]
    dsimp only
    rw [h1]
    dsimp only
    split
    · rename_i e
      simp only [List.reverse_eq_nil_iff] at e
      simp [e, ht e]
    · rename_i top rest e
      rw [← e]
      simp only [List.reverse_reverse, Path.mk.injEq, true_and, Bool.and_eq_left_iff_imp]
      intro htt
      rcases List.eq_nil_or_concat ns with rfl | ⟨ns', n, rfl⟩
      · rw [ht rfl] at htt; cases htt
      · have e1 : n = top := by
          have := congrArg List.head? e
          simpa using this
        rw [← e1]
        simpa using (hn n (by simp)).1

theorem normal_normal (p : Path) : p.normal.normal = p.normal := normal_eq_self (normal_isNormal p)

theorem normal_root (p : Path) : p.normal.root = p.root := by
  unfold Path.normal
  split
  · rfl
  · dsimp only
    split
    · split
      · rename_i h; exact h.symm
      · rename_i h; simp only [Bool.not_eq_true] at h; exact h.symm
    · rfl

theorem normal_eq_empty (p : Path) : p.normal = Path.empty ↔ p = Path.empty := by
  constructor
  · intro h
    unfold Path.normal at h
    split at h
    · assumption
    · dsimp only at h
      split at h
      · split at h <;> simp [Path.empty] at h
      · have := congrArg Path.names h
        simp [Path.empty] at this
  · rintro rfl; rfl

/-- A name that does not occur in a list. -/
theorem exists_fresh (l : List Str) : ∃ n, n ∉ l ∧ IsName n := by
  let m := l.foldl (fun m n => max m n.length) 0
  have hm : ∀ (l : List Str) (m : Nat), m ≤ l.foldl (fun m n => max m n.length) m ∧
      ∀ n ∈ l, n.length ≤ l.foldl (fun m n => max m n.length) m := by
    intro l
    induction l with
    | nil => simp
    | cons a l ih =>
      intro m
      obtain ⟨h1, h2⟩ := ih (max m a.length)
      rw [List.foldl_cons]
      refine ⟨by omega, ?_⟩
      intro n hn
      rcases List.mem_cons.mp hn with rfl | hn
      · omega
      · exact h2 n hn
  refine ⟨List.replicate (m + 3) 'x', ?_, ?_⟩
  · intro h
    have := (hm l 0).2 _ h
    simp only [List.length_replicate] at this
    show False
    have hmm : m = l.foldl (fun m n => max m n.length) 0 := rfl
    omega
  · refine ⟨?_, ?_, ?_⟩ <;> simp [List.replicate_succ, dotdot, dot]

theorem core_unique (k k' : Nat) (ns ns' : List Str) (hn : ∀ n ∈ ns, IsName n) (hn' : ∀ n ∈ ns', IsName n)
    (h : ∀ c, (List.replicate k dotdot ++ ns).foldl walkStep c = (List.replicate k' dotdot ++ ns').foldl walkStep c) :
    k = k' ∧ ns = ns' := by
  obtain ⟨f, hf, _⟩ := exists_fresh (ns ++ ns')
  simp only [List.mem_append, not_or] at hf
  have h' : ∀ c : List Str, ns.reverse ++ c.drop k = ns'.reverse ++ c.drop k' := by
    intro c
    have := h c
    simpa only [List.foldl_append, foldl_dotdots, foldl_names ns hn, foldl_names ns' hn'] using this
  have hc := h' (List.replicate (k + k') f)
  simp only [List.drop_replicate] at hc
  have hlen := congrArg List.length hc
  have hcount := congrArg (List.count f) hc
  simp only [List.count_append, List.count_reverse, List.count_eq_zero_of_not_mem hf.1, List.count_eq_zero_of_not_mem hf.2,
    List.count_replicate_self, Nat.zero_add] at hcount
  have hk : k = k' := by omega
  subst hk
  refine ⟨rfl, ?_⟩
  have := List.append_cancel_right hc
  exact List.reverse_inj.mp this

/-- Two paths that lead to the same place from everywhere have the same normal form, except for a separator at the end. -/
theorem normal_unique (p q : Path) (hp : p ≠ Path.empty) (hq : q ≠ Path.empty) (hroot : p.root = q.root)
    (h : ∀ cwd, walk cwd p = walk cwd q) : p.normal.names = q.normal.names := by
  have h : ∀ cwd, walk cwd p.normal = walk cwd q.normal := fun cwd => by rw [walk_normal, walk_normal, h]
  have hroot : p.normal.root = q.normal.root := by rw [normal_root, normal_root, hroot]
  have hp : p.normal ≠ Path.empty := fun e => hp ((normal_eq_empty p).mp e)
  have hq : q.normal ≠ Path.empty := fun e => hq ((normal_eq_empty q).mp e)
  have hpn := normal_isNormal p
  have hqn := normal_isNormal q
  generalize p.normal = p at *
  generalize q.normal = q at *
  have dotfold : ∀ c : List Str, [dot].foldl walkStep c = (List.replicate 0 dotdot ++ []).foldl walkStep c := by
    intro c; simp [walkStep, dot, dotdot]
  cases hpn with
  | empty => exact absurd rfl hp
  | dot =>
    cases hqn with
    | empty => exact absurd rfl hq
    | dot => rfl
    | rel k ns t hn ht =>
      exfalso
      have := core_unique 0 k [] ns (by simp) hn (fun c => by
        have := h c
        simp only [walk, Bool.false_eq_true, if_false] at this
        rw [← dotfold c]; exact this)
      have h2 := ht this.2.symm
      omega
    | abs => cases hroot
  | rel k ns t hn ht =>
    cases hqn with
    | empty => exact absurd rfl hq
    | dot =>
      exfalso
      have := core_unique k 0 ns [] hn (by simp) (fun c => by
        have := h c
        simp only [walk, Bool.false_eq_true, if_false] at this
        rw [← dotfold c]; exact this)
      have h2 := ht this.2
      omega
    | rel k' ns' t' hn' ht' =>
      have := core_unique k k' ns ns' hn hn' (fun c => by
        have := h c
        simpa only [walk, Bool.false_eq_true, if_false] using this)
      simp [this.1, this.2]
    | abs => cases hroot
  | abs ns t hn ht =>
    cases hqn with
    | empty => cases hroot
    | dot => cases hroot
    | rel => cases hroot
    | abs ns' t' hn' ht' =>
      have := h []
      simp only [walk, if_true, foldl_names ns hn, foldl_names ns' hn', List.append_nil] at this
      exact List.reverse_inj.mp this

/-! ## Relative paths -/

theorem mismatch_append (l a b : List Str) : mismatch (l ++ a) (l ++ b) = mismatch a b := by
  induction l with
  | nil => rfl
  | cons x l ih => simp [mismatch, ih]

theorem names_elems_last (sub : List Str) (t : Bool) (hne : sub ≠ []) (h : ∀ n ∈ sub, n ≠ []) :
    decide ((sub ++ (if t then [[]] else [])).getLast? = some []) = t ∧
    (sub ++ (if t then [[]] else [])).filter (fun s => decide (s ≠ [])) = sub := by
  have hf : sub.filter (fun s => decide (s ≠ [])) = sub := by
    rw [List.filter_eq_self]
    intro a ha
    simpa using h a ha
  cases t with
  | true =>
    constructor
    · simp
    · rw [List.filter_append, hf]; simp
  | false =>
    simp only [Bool.false_eq_true, if_false, List.append_nil]
    refine ⟨?_, hf⟩
    rcases List.eq_nil_or_concat sub with rfl | ⟨l, n, rfl⟩
    · exact absurd rfl hne
    · have := h n (by simp)
      simp [this]

/-- `lexically_relative`, when the path begins with the base. -/
theorem relativeTo_inside (base : Path) (sub : List Str) (t : Bool) (hne : sub ≠ []) (h : ∀ n ∈ sub, n ≠ []) :
    Path.relativeTo ⟨base.root, base.names ++ sub, t⟩ base = ⟨false, sub, t⟩ := by
  have hl := names_elems_last sub t hne h
  unfold Path.relativeTo Path.elems
  simp only [ne_eq, not_true, if_false, List.append_assoc, mismatch_append]
  cases sub with
  | nil => exact absurd rfl hne
  | cons n sub =>
    have hn := h n (by simp)
    simp only [List.cons_append] at hl ⊢
    have hm : mismatch (n :: (sub ++ (if t then [[]] else []))) (if base.trailing then [[]] else []) =
        (n :: (sub ++ (if t then [[]] else [])), if base.trailing then [[]] else []) := by
      cases base.trailing <;> simp [mismatch, hn]
    have hc : countUp (if base.trailing then [[]] else []) = 0 := by cases base.trailing <;> simp [countUp, dotdot]
    have hl2 := hl.2
    simp only [ne_eq] at hl2
    simp only [hm, hc, hl2, reduceCtorEq, false_and, if_false, List.head?_cons, Option.some.injEq, hn, or_self, and_false,
      Int.le_refl, if_true, ge_iff_le, Int.toNat_zero, List.replicate_zero, List.nil_append, hl.1]
    simp

/-- `lexically_relative`, when the base is `.` but the path does not begin with it. -/
theorem relativeTo_dot (base : Path) (hb : base.names = [dot]) (hroot : base.root = false) (sub : List Str) (t : Bool)
    (hne : sub ≠ []) (h : ∀ n ∈ sub, n ≠ []) (hd : sub.head? ≠ some dot) :
    Path.relativeTo ⟨false, sub, t⟩ base = ⟨false, sub, t⟩ := by
  have hl := names_elems_last sub t hne h
  unfold Path.relativeTo Path.elems
  simp only [hroot, ne_eq, not_true, if_false, hb]
  cases sub with
  | nil => exact absurd rfl hne
  | cons n sub =>
    have hn := h n (by simp)
    have hnd : n ≠ dot := by simpa using hd
    simp only [List.cons_append, List.nil_append] at hl ⊢
    have hm : mismatch (n :: (sub ++ (if t then [[]] else []))) (dot :: (if base.trailing then [[]] else [])) =
        (n :: (sub ++ (if t then [[]] else [])), dot :: (if base.trailing then [[]] else [])) := by
      simp [mismatch, hnd]
    have hc : countUp (dot :: (if base.trailing then [[]] else [])) = 0 := by cases base.trailing <;> simp [countUp, dotdot, dot]
    have hl2 := hl.2
    simp only [ne_eq] at hl2
    simp only [hm, hc, hl2, reduceCtorEq, false_and, if_false, List.head?_cons, Option.some.injEq, hn, or_self, and_false,
      Int.le_refl, if_true, ge_iff_le, Int.toNat_zero, List.replicate_zero, List.nil_append, hl.1]
    simp

end Maike.Paths
