import Verif.Tree.ScanTheorems

/-!
# Symbolic links in the source directory (C111)

In `Scanner.lean`, the file system is what `is_directory` and `directory_iterator` tell. Here it is made of files, directories and symbolic links, and paths are resolved by the
kernel, which follows symbolic links, at most `limit` of them for one path (40 on Linux), path_resolution(7).
-/

namespace Maike.Tree

open Fs Paths

/-! ## Model of the file system -/

/-- What there may be at a place. -/
inductive Node where
  | file
  | dir
  | link (target : Path)
deriving DecidableEq

/-- A file system with symbolic links. A place is the list of names of the directories it is in, the innermost first, as in `walk`; these are not names of links. -/
structure Links where
  node : List Str → Option Node
  /-- the entries of a directory -/
  entries : List Str → List Str
  /-- the working directory -/
  cwd : List Str
  /-- the number of links the kernel follows for a path -/
  limit : Nat

/-- Why a path cannot be resolved: `ENOENT`, `ENOTDIR`, `ELOOP`. -/
inductive Errno where
  | noent
  | notdir
  | loop
deriving DecidableEq

/-- The names in a path. A separator at the end is like `.`. -/
def steps (p : Path) : List Str := p.names ++ if p.trailing then [dot] else []

/-- Follow the names until there is a link, and go on with `next`. `k` links may be followed. -/
def Links.along (L : Links) (k : Nat) (next : List Str → List Str → Except Errno (Nat × List Str)) : List Str → List Str → Except Errno (Nat × List Str)
  | a, [] => .ok (k, a)
  | a, n :: rest =>
    match L.node a with
    | none => .error .noent
    | some .dir =>
      if n = dotdot then L.along k next a.tail rest
      else if n = dot ∨ n = [] then L.along k next a rest
      else match L.node (n :: a) with
        | none => .error .noent
        | some (.link t) => next (if t.root then [] else a) (steps t ++ rest)
        | some _ => L.along k next (n :: a) rest
    | some _ => .error .notdir

/-- Resolve names, starting from place `a`, where at most `k` links may be followed. The result is the place and how many links might still have been followed. -/
def Links.resolve (L : Links) : Nat → List Str → List Str → Except Errno (Nat × List Str)
  | 0 => L.along 0 fun _ _ => .error .loop
  | k + 1 => L.along (k + 1) (L.resolve k)

/-- Where the path leads to. -/
def Links.lookup (L : Links) (p : Path) : Except Errno (Nat × List Str) :=
  if p = Path.empty then .error .noent else L.resolve L.limit (if p.root then [] else L.cwd) (steps p)

/-- `std::filesystem::is_directory`, which is called by core/source_tree_loader/directory_scanner.cpp:46 and 72, and by core/source_tree_loader/source_file_loader_delegator.cpp:22. It throws
an exception for errors other than that nothing is found: [fs.op.status]. -/
def Links.isDir (L : Links) (msg : Path → Str) (p : Path) : Except Str Bool :=
  match L.lookup p with
  | .ok (_, a) => .ok (decide (L.node a = some .dir))
  | .error .loop => .error (msg p)
  | .error _ => .ok false

/-- `directory_iterator`, core/source_tree_loader/directory_scanner.cpp:74. -/
def Links.list (L : Links) (msg : Path → Str) (p : Path) : List Str × Option Str :=
  match L.lookup p with
  | .ok (_, a) => if L.node a = some .dir then (L.entries a, none) else ([], some (msg p))
  | .error _ => ([], some (msg p))

/-- The scanner looks at this file system. Before anything else, the loader asks whether a path is a directory, core/source_tree_loader/source_file_loader_delegator.cpp:22; `msg` are the messages of
exceptions from the file system. -/
structure Sees {I : Type} (w : World I) (L : Links) (msg : Path → Str) : Prop where
  isDir : ∀ p, w.isDir p = L.isDir msg p
  names : ∀ p, w.names p = L.list msg p
  load : ∀ p m, L.isDir msg p = .error m → w.load p = .error m

/-! ## Specification -/

/-- The names `ns` lead from place `a` to place `b`, and there are `u` links on the way. -/
inductive Links.Leads (L : Links) : Nat → List Str → List Str → List Str → Prop
  | here {a} : L.Leads 0 a [] a
  | up {u a ns b} : L.node a = some .dir → L.Leads u a.tail ns b → L.Leads u a (dotdot :: ns) b
  | stay {u a n ns b} : L.node a = some .dir → n = dot ∨ n = [] → L.Leads u a ns b → L.Leads u a (n :: ns) b
  | enter {u a n ns b} : L.node a = some .dir → IsName n → L.node (n :: a) = some .file ∨ L.node (n :: a) = some .dir → L.Leads u (n :: a) ns b →
      L.Leads u a (n :: ns) b
  | link {u a n t ns b} : L.node a = some .dir → IsName n → L.node (n :: a) = some (.link t) → L.Leads u (if t.root then [] else a) (steps t ++ ns) b →
      L.Leads (u + 1) a (n :: ns) b

/-- Directories are listed as they are. -/
structure Links.Ok (L : Links) : Prop where
  nodup : ∀ a, (L.entries a).Nodup
  isName : ∀ a, ∀ n ∈ L.entries a, IsName n
  listed : ∀ a n, L.node a = some .dir → (n ∈ L.entries a ↔ IsName n ∧ (L.node (n :: a)).isSome)

/-- Directories are nested to a finite depth. Links do not matter here. -/
def Links.Finite (L : Links) : Prop := ∃ D, ∀ a, (L.node a).isSome → a.length ≤ D

/-! ## Resolution -/

variable {I : Type} {w : World I} {L : Links} {msg : Path → Str}

theorem dot_ne_dotdot : dot ≠ dotdot := by decide

theorem isName_iff {n : Str} : ¬ n = dotdot → ¬ (n = dot ∨ n = []) → IsName n := fun h1 h2 => ⟨h1, fun h => h2 (.inl h), fun h => h2 (.inr h)⟩

theorem Links.Leads.append {u v : Nat} {a b c : List Str} {xs ys : List Str} (h : L.Leads u a xs b) (g : L.Leads v b ys c) : L.Leads (u + v) a (xs ++ ys) c := by
  induction h with
  | here => simpa using g
  | up h1 _ ih => exact .up h1 (ih g)
  | stay h1 h2 _ ih => exact .stay h1 h2 (ih g)
  | enter h1 h2 h3 _ ih => exact .enter h1 h2 h3 (ih g)
  | @link u a n t ns b h1 h2 h3 _ ih =>
    rw [show u + 1 + v = u + v + 1 by omega]
    exact .link h1 h2 h3 (by have := ih g; rw [List.append_assoc] at this; exact this)

theorem Links.Leads.split {u : Nat} {a c : List Str} {zs : List Str} (h : L.Leads u a zs c) :
    ∀ xs ys, zs = xs ++ ys → ∃ v b, v ≤ u ∧ L.Leads v a xs b ∧ L.Leads (u - v) b ys c := by
  induction h with
  | here =>
    intro xs ys e
    obtain ⟨rfl, rfl⟩ := List.append_eq_nil_iff.mp e.symm
    exact ⟨0, _, by omega, .here, .here⟩
  | @up u a ns b h1 h2 ih =>
    intro xs ys e
    cases xs with
    | nil => simp only [List.nil_append] at e; subst e; exact ⟨0, _, by omega, .here, .up h1 h2⟩
    | cons x xs =>
      simp only [List.cons_append, List.cons.injEq] at e
      obtain ⟨v, b', g1, g2, g3⟩ := ih xs ys e.2
      exact ⟨v, b', g1, by rw [← e.1]; exact .up h1 g2, g3⟩
  | @stay u a n ns b h1 hn h2 ih =>
    intro xs ys e
    cases xs with
    | nil => simp only [List.nil_append] at e; subst e; exact ⟨0, _, by omega, .here, .stay h1 hn h2⟩
    | cons x xs =>
      simp only [List.cons_append, List.cons.injEq] at e
      obtain ⟨v, b', g1, g2, g3⟩ := ih xs ys e.2
      exact ⟨v, b', g1, by rw [← e.1]; exact .stay h1 hn g2, g3⟩
  | @enter u a n ns b h1 hn hx h2 ih =>
    intro xs ys e
    cases xs with
    | nil => simp only [List.nil_append] at e; subst e; exact ⟨0, _, by omega, .here, .enter h1 hn hx h2⟩
    | cons x xs =>
      simp only [List.cons_append, List.cons.injEq] at e
      obtain ⟨v, b', g1, g2, g3⟩ := ih xs ys e.2
      exact ⟨v, b', g1, by rw [← e.1]; exact .enter h1 hn hx g2, g3⟩
  | @link u a n t ns b h1 hn hx h2 ih =>
    intro xs ys e
    cases xs with
    | nil => simp only [List.nil_append] at e; subst e; exact ⟨0, _, by omega, .here, .link h1 hn hx h2⟩
    | cons x xs =>
      simp only [List.cons_append, List.cons.injEq] at e
      obtain ⟨v, b', g1, g2, g3⟩ := ih (steps t ++ xs) ys (by rw [e.2, List.append_assoc])
      exact ⟨v + 1, b', by omega, by rw [← e.1]; exact .link h1 hn hx g2, by rw [show u + 1 - (v + 1) = u - v by omega]; exact g3⟩

/-- The names lead to one place only. -/
theorem Links.Leads.unique {u v : Nat} {a b c : List Str} {xs : List Str} (h : L.Leads u a xs b) (g : L.Leads v a xs c) : u = v ∧ b = c := by
  induction h generalizing v with
  | here => cases g; exact ⟨rfl, rfl⟩
  | up h1 _ ih =>
    cases g with
    | up _ g => exact ih g
    | stay _ hn => rcases hn with hn | hn <;> exact absurd hn (by decide)
    | enter _ hn => exact absurd rfl hn.1
    | link _ hn => exact absurd rfl hn.1
  | stay h1 hn _ ih =>
    cases g with
    | up _ g => rcases hn with hn | hn <;> exact absurd hn (by decide)
    | stay _ _ g => exact ih g
    | enter _ hn' => rcases hn with hn | hn; exact absurd hn hn'.2.1; exact absurd hn hn'.2.2
    | link _ hn' => rcases hn with hn | hn; exact absurd hn hn'.2.1; exact absurd hn hn'.2.2
  | enter h1 hn hx _ ih =>
    cases g with
    | up _ g => exact absurd rfl hn.1
    | stay _ hn' => rcases hn' with hn' | hn'; exact absurd hn' hn.2.1; exact absurd hn' hn.2.2
    | enter _ _ _ g => exact ih g
    | link _ _ hy => rw [hy] at hx; simp at hx
  | link h1 hn hx _ ih =>
    cases g with
    | up _ g => exact absurd rfl hn.1
    | stay _ hn' => rcases hn' with hn' | hn'; exact absurd hn' hn.2.1; exact absurd hn' hn.2.2
    | enter _ _ hy => rw [hx] at hy; simp at hy
    | link _ _ hy g =>
      rw [hx] at hy
      simp only [Option.some.injEq, Node.link.injEq] at hy
      subst hy
      obtain ⟨e1, e2⟩ := ih g
      exact ⟨by omega, e2⟩

/-- One step of resolution, for any number of links. -/
theorem resolve_nil (k : Nat) (a : List Str) : L.resolve k a [] = .ok (k, a) := by cases k <;> rfl

theorem resolve_up {k : Nat} {a ns : List Str} (h : L.node a = some .dir) : L.resolve k a (dotdot :: ns) = L.resolve k a.tail ns := by
  cases k <;> simp [Links.resolve, Links.along, h]

theorem resolve_stay {k : Nat} {a ns : List Str} {n : Str} (h : L.node a = some .dir) (hn : n = dot ∨ n = []) : L.resolve k a (n :: ns) = L.resolve k a ns := by
  have : n ≠ dotdot := by rcases hn with rfl | rfl <;> decide
  cases k <;> simp only [Links.resolve, Links.along, h, this, hn, if_false, if_true]

theorem resolve_enter {k : Nat} {a ns : List Str} {n : Str} (h : L.node a = some .dir) (hn : IsName n) (hx : L.node (n :: a) = some .file ∨ L.node (n :: a) = some .dir) :
    L.resolve k a (n :: ns) = L.resolve k (n :: a) ns := by
  have h2 : ¬ (n = dot ∨ n = []) := fun h => h.elim hn.2.1 hn.2.2
  cases k <;> rcases hx with hx | hx <;> simp only [Links.resolve, Links.along, h, hn.1, h2, hx, if_false]

theorem resolve_link {k : Nat} {a ns : List Str} {n : Str} {t : Path} (h : L.node a = some .dir) (hn : IsName n) (hx : L.node (n :: a) = some (.link t)) :
    L.resolve (k + 1) a (n :: ns) = L.resolve k (if t.root then [] else a) (steps t ++ ns) := by
  have h2 : ¬ (n = dot ∨ n = []) := fun h => h.elim hn.2.1 hn.2.2
  simp only [Links.resolve, Links.along, h, hn.1, h2, hx, if_false]

theorem resolve_link_zero {a ns : List Str} {n : Str} {t : Path} (h : L.node a = some .dir) (hn : IsName n) (hx : L.node (n :: a) = some (.link t)) :
    L.resolve 0 a (n :: ns) = .error .loop := by
  have h2 : ¬ (n = dot ∨ n = []) := fun h => h.elim hn.2.1 hn.2.2
  simp only [Links.resolve, Links.along, h, hn.1, h2, hx, if_false]

theorem resolve_of_leads {u : Nat} {a b ns : List Str} (h : L.Leads u a ns b) (k : Nat) :
    L.resolve k a ns = if u ≤ k then .ok (k - u, b) else .error .loop := by
  induction h generalizing k with
  | here => simp [resolve_nil]
  | up h1 _ ih => rw [resolve_up h1, ih]
  | stay h1 hn _ ih => rw [resolve_stay h1 hn, ih]
  | enter h1 hn hx _ ih => rw [resolve_enter h1 hn hx, ih]
  | link h1 hn hx _ ih =>
    cases k with
    | zero => rw [resolve_link_zero h1 hn hx]; simp
    | succ k => rw [resolve_link h1 hn hx, ih]; simp

theorem leads_of_resolve (k : Nat) : ∀ (ns a b : List Str) (k' : Nat), L.resolve k a ns = .ok (k', b) → k' ≤ k ∧ L.Leads (k - k') a ns b := by
  induction k with
  | zero =>
    intro ns
    induction ns with
    | nil =>
      intro a b k' h
      rw [resolve_nil] at h
      simp only [Except.ok.injEq, Prod.mk.injEq] at h
      obtain ⟨rfl, rfl⟩ := h
      exact ⟨by omega, .here⟩
    | cons n ns ih =>
      intro a b k' h
      cases hd : L.node a with
      | none => simp [Links.resolve, Links.along, hd] at h
      | some x =>
        cases x with
        | file => simp [Links.resolve, Links.along, hd] at h
        | link t => simp [Links.resolve, Links.along, hd] at h
        | dir =>
          by_cases h1 : n = dotdot
          · subst h1; rw [resolve_up hd] at h; exact ⟨(ih _ _ _ h).1, .up hd (ih _ _ _ h).2⟩
          by_cases h2 : n = dot ∨ n = []
          · rw [resolve_stay hd h2] at h; exact ⟨(ih _ _ _ h).1, .stay hd h2 (ih _ _ _ h).2⟩
          have hn := isName_iff h1 h2
          cases hx : L.node (n :: a) with
          | none => simp [Links.resolve, Links.along, hd, h1, h2, hx] at h
          | some y =>
            cases y with
            | file => rw [resolve_enter hd hn (.inl hx)] at h; exact ⟨(ih _ _ _ h).1, .enter hd hn (.inl hx) (ih _ _ _ h).2⟩
            | dir => rw [resolve_enter hd hn (.inr hx)] at h; exact ⟨(ih _ _ _ h).1, .enter hd hn (.inr hx) (ih _ _ _ h).2⟩
            | link t => rw [resolve_link_zero hd hn hx] at h; cases h
  | succ k ihk =>
    intro ns
    induction ns with
    | nil =>
      intro a b k' h
      rw [resolve_nil] at h
      simp only [Except.ok.injEq, Prod.mk.injEq] at h
      obtain ⟨rfl, rfl⟩ := h
      exact ⟨by omega, by simpa using .here⟩
    | cons n ns ih =>
      intro a b k' h
      cases hd : L.node a with
      | none => simp [Links.resolve, Links.along, hd] at h
      | some x =>
        cases x with
        | file => simp [Links.resolve, Links.along, hd] at h
        | link t => simp [Links.resolve, Links.along, hd] at h
        | dir =>
          by_cases h1 : n = dotdot
          · subst h1; rw [resolve_up hd] at h; exact ⟨(ih _ _ _ h).1, .up hd (ih _ _ _ h).2⟩
          by_cases h2 : n = dot ∨ n = []
          · rw [resolve_stay hd h2] at h; exact ⟨(ih _ _ _ h).1, .stay hd h2 (ih _ _ _ h).2⟩
          have hn := isName_iff h1 h2
          cases hx : L.node (n :: a) with
          | none => simp [Links.resolve, Links.along, hd, h1, h2, hx] at h
          | some y =>
            cases y with
            | file => rw [resolve_enter hd hn (.inl hx)] at h; exact ⟨(ih _ _ _ h).1, .enter hd hn (.inl hx) (ih _ _ _ h).2⟩
            | dir => rw [resolve_enter hd hn (.inr hx)] at h; exact ⟨(ih _ _ _ h).1, .enter hd hn (.inr hx) (ih _ _ _ h).2⟩
            | link t =>
              rw [resolve_link hd hn hx] at h
              obtain ⟨g1, g2⟩ := ihk _ _ _ _ h
              refine ⟨by omega, ?_⟩
              rw [show k + 1 - k' = k - k' + 1 by omega]
              exact .link hd hn hx g2

/-- **C111.** What the kernel finds is what the names lead to, if there are not too many links on the way. -/
theorem C111_resolve (k : Nat) (a ns : List Str) (k' : Nat) (b : List Str) : L.resolve k a ns = .ok (k', b) ↔ k' ≤ k ∧ L.Leads (k - k') a ns b := by
  constructor
  · exact leads_of_resolve k ns a b k'
  · rintro ⟨h1, h2⟩
    rw [resolve_of_leads h2, if_pos (by omega), show k - (k - k') = k' by omega]

/-- **C111.** Without links, this is where `walk` leads to. -/
theorem C111_walk (hno : ∀ a t, L.node a ≠ some (.link t)) {k k' : Nat} {p : Path} {b : List Str} {cwd : List Str}
    (h : L.resolve k (if p.root then [] else cwd) (steps p) = .ok (k', b)) : b = walk cwd p ∧ k' = k := by
  have key : ∀ u a ns b, L.Leads u a ns b → u = 0 ∧ b = ns.foldl walkStep a := by
    intro u a ns b h
    induction h with
    | here => exact ⟨rfl, rfl⟩
    | up _ _ ih => exact ⟨ih.1, by rw [ih.2]; simp [walkStep]⟩
    | stay _ hn _ ih =>
      refine ⟨ih.1, ?_⟩
      rw [ih.2]
      rcases hn with rfl | rfl <;> simp [walkStep, dot, dotdot]
    | enter _ hn _ _ ih => exact ⟨ih.1, by rw [ih.2]; simp [walkStep, hn.1, hn.2.1, hn.2.2]⟩
    | link _ _ hx => exact absurd hx (hno _ _)
  obtain ⟨h1, h2⟩ := (C111_resolve _ _ _ _ _).mp h
  obtain ⟨e1, e2⟩ := key _ _ _ _ h2
  refine ⟨?_, by omega⟩
  rw [e2]
  unfold steps walk
  rw [List.foldl_append]
  cases p.trailing <;> simp [walkStep, dot, dotdot]

/-! ## Places -/

theorem leads_cons_dir {u : Nat} {a b ns : List Str} {n : Str} (h : L.Leads u a (n :: ns) b) : L.node a = some .dir := by cases h <;> assumption

theorem leads_listed (hL : L.Ok) {u : Nat} {a b ns : List Str} {n : Str} (hn : IsName n) (h : L.Leads u a (n :: ns) b) : n ∈ L.entries a := by
  rw [hL.listed _ _ (leads_cons_dir h)]
  refine ⟨hn, ?_⟩
  cases h with
  | up => exact absurd rfl hn.1
  | stay _ h => rcases h with h | h; exact absurd h hn.2.1; exact absurd h hn.2.2
  | enter _ _ h => rcases h with h | h <;> simp [h]
  | link _ _ h => simp [h]

/-- Names of entries lead deeper, or there is a link. -/
theorem leads_length {D : Nat} (hD : ∀ a, (L.node a).isSome → a.length ≤ D) : ∀ (ns : List Str), (∀ n ∈ ns, IsName n) → ∀ (u : Nat) (a b : List Str), L.Leads u a ns b →
    ns.length + a.length ≤ u * (D + 1) + b.length := by
  intro ns
  induction ns with
  | nil =>
    intro _ u a b h
    cases h
    simp
  | cons n ns ih =>
    intro hns u a b h
    have hn := hns n (by simp)
    have hns' : ∀ m ∈ ns, IsName m := fun m hm => hns m (by simp [hm])
    have hda := hD a (by rw [leads_cons_dir h]; rfl)
    cases h with
    | up => exact absurd rfl hn.1
    | stay _ h => rcases h with h | h; exact absurd h hn.2.1; exact absurd h hn.2.2
    | enter _ _ _ h =>
      have := ih hns' _ _ _ h
      simp only [List.length_cons] at this ⊢
      omega
    | @link u _ _ t _ _ _ _ _ h =>
      obtain ⟨v, c, g1, _, g3⟩ := h.split _ _ rfl
      have h1 := ih hns' _ _ _ g3
      have h2 : (u - v) * (D + 1) ≤ u * (D + 1) := Nat.mul_le_mul_right _ (by omega)
      have h3 : (u + 1) * (D + 1) = u * (D + 1) + (D + 1) := Nat.succ_mul _ _
      simp only [List.length_cons]
      omega

/-- Where a path leads to. -/
def Links.At (L : Links) (p : Path) (u : Nat) (a : List Str) : Prop := p ≠ Path.empty ∧ L.Leads u (if p.root then [] else L.cwd) (steps p) a

theorem lookup_ok {p : Path} {k : Nat} {a : List Str} : L.lookup p = .ok (k, a) ↔ k ≤ L.limit ∧ L.At p (L.limit - k) a := by
  unfold Links.lookup Links.At
  split
  · rename_i h; simp [h]
  · rename_i h; simp only [ne_eq, h, not_false_eq_true, true_and]; exact C111_resolve _ _ _ _ _

theorem lookup_of_at {p : Path} {u : Nat} {a : List Str} (h : L.At p u a) : L.lookup p = if u ≤ L.limit then .ok (L.limit - u, a) else .error .loop := by
  unfold Links.lookup
  rw [if_neg h.1, resolve_of_leads h.2]

theorem isDir_true {p : Path} (h : L.isDir msg p = .ok true) : ∃ u a, u ≤ L.limit ∧ L.At p u a ∧ L.node a = some .dir := by
  unfold Links.isDir at h
  split at h
  · rename_i k a hl
    obtain ⟨h1, h2⟩ := lookup_ok.mp hl
    exact ⟨_, a, by omega, h2, by simpa using h⟩
  · cases h
  · simp at h

theorem isDir_of_at {p : Path} {u : Nat} {a : List Str} (h : L.At p u a) : L.isDir msg p = if u ≤ L.limit then .ok (decide (L.node a = some .dir)) else .error (msg p) := by
  unfold Links.isDir
  rw [lookup_of_at h]
  by_cases hu : u ≤ L.limit
  · simp only [hu, if_true]
  · simp only [hu, if_false]

/-- The names of a path without the separator at its end. -/
theorem leads_names {p : Path} {u : Nat} {s a : List Str} (h : L.Leads u s (steps p) a) : L.Leads u s p.names a := by
  unfold steps at h
  split at h
  · obtain ⟨v, b, g1, g2, g3⟩ := h.split _ _ rfl
    generalize hv : u - v = x at g3
    cases g3 with
    | stay _ _ g => cases g; rw [show u = v by omega]; exact g2
    | enter _ hn => exact absurd rfl hn.2.1
    | link _ hn => exact absurd rfl hn.2.1
  · simpa using h

/-- How entries of a directory are found. -/
theorem entry_normal {p : Path} (hp : IsNormal p) (hne : p ≠ Path.empty) {n : Str} (hn : IsName n) :
    (p / ⟨false, [n], false⟩).normal = ⟨p.root, (if p.names = [dot] then [] else p.names) ++ [n], false⟩ := by
  obtain ⟨h1, h2⟩ := normal_inside p hp hne [n] (by simpa using hn)
  have h3 : (p / ⟨false, [n], false⟩).normal.trailing = false := by
    rw [entry_eq _ _ hn]
    exact normal_trailing hn
  generalize (p / ⟨false, [n], false⟩).normal = q at *
  obtain ⟨r, ns, t⟩ := q
  simp only at h1 h2 h3
  subst h2 h3
  rw [h1]
  unfold inside
  simp only [ne_eq, List.cons_ne_nil, not_false_eq_true, and_true, Path.mk.injEq, true_and]
  split <;> simp

theorem leads_entry {p : Path} {n : Str} {st : List Str} {v : Nat} {b : List Str} :
    L.Leads v st (p.names ++ [n]) b ↔ ∃ u a, u ≤ v ∧ L.Leads u st (steps p) a ∧ L.Leads (v - u) a [n] b := by
  constructor
  · intro h
    obtain ⟨u, a, g1, g2, g3⟩ := h.split _ _ rfl
    refine ⟨u, a, g1, ?_, g3⟩
    unfold steps
    split
    · have := g2.append (.stay (leads_cons_dir g3) (.inl rfl) .here : L.Leads 0 a [dot] a)
      simpa using this
    · simpa using g2
  · rintro ⟨u, a, g1, g2, g3⟩
    have := (leads_names g2).append g3
    rwa [show u + (v - u) = v by omega] at this

/-- An entry of a directory is what its name leads to from where the directory is, whatever links lead there. -/
theorem at_slash {p : Path} (hne : p ≠ Path.empty) {n : Str} (hn : IsName n) {v : Nat} {b : List Str} :
    L.At (p / ⟨false, [n], false⟩) v b ↔ ∃ u a, u ≤ v ∧ L.At p u a ∧ L.Leads (v - u) a [n] b := by
  rw [entry_eq _ _ hn]
  unfold Links.At
  simp only [ne_eq, hne, not_false_eq_true, true_and]
  have e : steps ⟨p.root, p.names ++ [n], false⟩ = p.names ++ [n] := by simp [steps]
  rw [e, leads_entry]
  simp [Path.empty]

/-- It makes no difference whether the path of the entry is in normal form. -/
theorem at_entry {p : Path} (hp : IsNormal p) (hne : p ≠ Path.empty) {n : Str} (hn : IsName n) {v : Nat} {b : List Str} :
    L.At (p / ⟨false, [n], false⟩).normal v b ↔ ∃ u a, u ≤ v ∧ L.At p u a ∧ L.Leads (v - u) a [n] b := by
  rw [← at_slash hne hn, entry_normal hp hne hn, entry_eq _ _ hn]
  unfold Links.At
  simp only [steps, Bool.false_eq_true, if_false, List.append_nil]
  generalize (if p.root = true then [] else L.cwd) = st
  have hd : L.Leads v st ((if p.names = [dot] then [] else p.names) ++ [n]) b ↔ L.Leads v st (p.names ++ [n]) b := by
    split
    · rename_i h
      rw [h]
      constructor
      · intro g; exact .stay (leads_cons_dir g) (.inl rfl) g
      · intro g
        cases g with
        | stay _ _ g => exact g
        | enter _ hn => exact absurd rfl hn.2.1
        | link _ hn => exact absurd rfl hn.2.1
    · exact Iff.rfl
  rw [hd]
  simp [Path.empty]

/-! ## The scan -/

theorem sees_ok (hL : L.Ok) (hs : Sees w L msg) (hr : w.root ≠ Path.empty) : w.Ok := by
  refine ⟨hr, fun p => ?_, fun p n hn => ?_⟩
  · rw [hs.names]
    unfold Links.list
    split
    · split
      · exact hL.nodup _
      · simp
    · simp
  · rw [hs.names] at hn
    unfold Links.list at hn
    split at hn
    · split at hn
      · exact hL.isName _ _ hn
      · simp at hn
    · simp at hn

/-- There is a bound on the number of names below the start directory. -/
theorem sees_height (hL : L.Ok) (hfin : L.Finite) (hs : Sees w L msg) (hr : w.root ≠ Path.empty) : ∃ h, w.Height h w.root := by
  have hw := sees_ok hL hs hr
  obtain ⟨D, hD⟩ := hfin
  have bound : ∀ p sub, Located w p sub → w.Enters p → sub.length ≤ L.limit * (D + 1) + D := by
    intro p sub hp he
    have h1 := he.2.2
    rw [hs.isDir] at h1
    obtain ⟨u, a, hu, hat, hdir⟩ := isDir_true h1
    have h2 := leads_names hat.2
    rw [hp.normalNames] at h2
    generalize (if p.normal.root = true then [] else L.cwd) = st at h2
    have hda := hD a (by rw [hdir]; rfl)
    have h3 : ∃ v s b, v ≤ u ∧ L.Leads v s sub b ∧ b.length ≤ D := by
      unfold inside at h2
      dsimp only at h2
      split at h2
      · exact ⟨u, _, a, Nat.le_refl _, h2, hda⟩
      · obtain ⟨v, b, g1, _, g3⟩ := h2.split _ _ rfl
        exact ⟨u - v, b, a, by omega, g3, hda⟩
    obtain ⟨v, s, b, g1, g2, g3⟩ := h3
    have h4 := leads_length hD sub hp.names _ _ _ g2
    have h5 : v * (D + 1) ≤ L.limit * (D + 1) := Nat.mul_le_mul_right _ (by omega)
    omega
  have key : ∀ k sub p, Located w p sub → sub.length + k = L.limit * (D + 1) + D + 1 → w.Height (k + 1) p := by
    intro k
    induction k with
    | zero =>
      intro sub p hp hlen he
      have := bound p sub hp he
      omega
    | succ k ih =>
      intro sub p hp hlen he n hn
      exact ih _ _ (located_entry hw hp (hw.isName _ _ hn)) (by simp only [List.length_append, List.length_singleton]; omega)
  obtain ⟨sub, hsub⟩ := located hw .root
  have e : sub = [] := by
    have h3 : Located w w.root [] := ⟨by simp, by unfold inside; simp, normal_root _, fun _ => rfl, by simp⟩
    exact inside_injective _ _ _ hsub.names h3.names (by rw [← hsub.normalNames, ← h3.normalNames])
  subst e
  exact ⟨_, key _ _ _ hsub (by simp; rfl)⟩

/-- **C111.** The scan ends whatever links there are, also if they lead to directories they are in: there is a number of steps that no schedule exceeds, and from wherever the scan is,
it can be completed. -/
theorem C111_ends (hL : L.Ok) (hfin : L.Finite) (hs : Sees w L msg) (hr : w.root ≠ Path.empty) :
    (∃ N, ∀ n t, Steps w n (Scan.init w) t → n ≤ N) ∧ ∀ n t, Steps w n (Scan.init w) t → ∃ m t', Steps w m t t' ∧ takeResult t' ≠ none := by
  obtain ⟨h, hh⟩ := sees_height hL hfin hs hr
  exact ⟨C49_terminates (sees_ok hL hs hr) hh, fun n t h => C49_ends (sees_ok hL hs hr) hh h⟩

/-- Without an error, there is nothing to say about paths. -/
theorem no_says (hw : w.Ok) {n : Nat} {s : Scan I} (h : Steps w n (Scan.init w) s) {files : List (Path × I)} (hres : takeResult s = some (.ok files))
    {p : Path} (hp : w.Reached p) (m : Str) : ¬ w.Says p m := by
  intro hm
  obtain ⟨text, e⟩ := (C50_throws hw h hres).mpr ⟨p, m, hp, hm⟩
  cases e

theorem load_of_no_says {p : Path} (h : ∀ m, ¬ w.Says p m) (hpass : w.Passes p) : ∃ i, w.load p = .ok i := by
  cases hl : w.load p with
  | ok i => exact ⟨i, rfl⟩
  | error m => exact absurd (.load hpass hl) (h m)

theorem list_of_at (hs : Sees w L msg) {p : Path} {u : Nat} {a : List Str} (hu : u ≤ L.limit) (hat : L.At p u a) (hdir : L.node a = some .dir) : (w.names p).1 = L.entries a := by
  rw [hs.names]
  unfold Links.list
  rw [lookup_of_at hat, if_pos hu]
  simp [hdir]

theorem enters_of_at (hs : Sees w L msg) {p : Path} (h : ∀ m, ¬ w.Says p m) (hpass : w.Passes p) {u : Nat} {a : List Str} (hat : L.At p.normal u a) (hdir : L.node a = some .dir) :
    u ≤ L.limit ∧ w.Enters p := by
  obtain ⟨i, hi⟩ := load_of_no_says h hpass
  have h1 : w.isDir p.normal = _ := (hs.isDir _).trans (isDir_of_at hat)
  by_cases hu : u ≤ L.limit
  · rw [if_pos hu] at h1
    exact ⟨hu, hpass, ⟨i, hi⟩, by rw [h1]; simp [hdir]⟩
  · rw [if_neg hu] at h1
    exact absurd (.isDir hpass hi h1) (h _)

/-- **C111.** What a scan without errors finds in a directory are the entries of the directory the path leads to, through links or not. -/
theorem C111_found (hL : L.Ok) (hs : Sees w L msg) (hr : w.root ≠ Path.empty) {n : Nat} {s : Scan I} (h : Steps w n (Scan.init w) s) {files : List (Path × I)}
    (hres : takeResult s = some (.ok files)) {p : Path} (hp : w.Reached p) (hpass : w.Passes p) {u : Nat} {a : List Str} (hat : L.At p.normal u a) (hdir : L.node a = some .dir)
    {x : Str} (hn : IsName x) (hx : w.Passes (p.normal / ⟨false, [x], false⟩)) :
    (∃ i, ((p.normal / ⟨false, [x], false⟩).normal, i) ∈ files) ↔ (L.node (x :: a)).isSome := by
  have hw := sees_ok hL hs hr
  obtain ⟨hu, hent⟩ := enters_of_at hs (no_says hw h hres hp) hpass hat hdir
  have hnames := list_of_at hs hu hat hdir
  constructor
  · rintro ⟨i, hi⟩
    obtain ⟨q, hq, _, _, e⟩ := (C49_result hw h hres _ _).mp hi
    obtain ⟨sub, h1⟩ := located hw hp
    have h2 := located_entry hw h1 hn
    obtain ⟨sub', h3⟩ := located hw hq
    have e2 := inside_injective _ _ _ h2.names h3.names (by rw [← h2.normalNames, ← h3.normalNames, e])
    have e3 : q = p.normal / ⟨false, [x], false⟩ := by rw [h2.isEntry _ _ rfl, h3.isEntry _ _ e2.symm]
    subst e3
    generalize e4 : p.normal / ⟨false, [x], false⟩ = q at hq
    cases hq with
    | root => exact absurd e4 (entry_ne_root hw hp hn)
    | @entry p' n' hp' _ hn' =>
      obtain ⟨e5, e6⟩ := entry_injective hw hp hp' hn (hw.isName _ _ hn') e4
      subst e5 e6
      rw [hnames] at hn'
      exact ((hL.listed _ _ hdir).mp hn').2
  · intro hsome
    have hreach : w.Reached (p.normal / ⟨false, [x], false⟩) := .entry hp hent (by rw [hnames]; exact (hL.listed _ _ hdir).mpr ⟨hn, hsome⟩)
    obtain ⟨i, hi⟩ := load_of_no_says (no_says hw h hres hreach) hx
    exact ⟨i, (C49_result hw h hres _ _).mpr ⟨_, hreach, hx, hi, rfl⟩⟩

/-- The scan goes where names lead to. -/
theorem descends (hL : L.Ok) (hs : Sees w L msg) (hr : w.root ≠ Path.empty) (hno : ∀ p, w.Reached p → ∀ m, ¬ w.Says p m) {b : List Str} :
    ∀ (ns : List Str), (∀ n ∈ ns, IsName n) → (∀ q, w.Reached q → q.filename ∈ ns → w.Passes q) → ∀ (v u : Nat) (a : List Str) (p : Path), w.Reached p → w.Passes p →
      L.At p.normal u a → L.Leads v a ns b → ∃ q, w.Reached q ∧ w.Passes q ∧ L.At q.normal (u + v) b := by
  have hw := sees_ok hL hs hr
  intro ns
  induction ns with
  | nil =>
    intro _ _ v u a p hp hpass hat hl
    cases hl
    exact ⟨p, hp, hpass, hat⟩
  | cons n ns ih =>
    intro hns hf v u a p hp hpass hat hl
    have hn := hns n (by simp)
    have hda := leads_cons_dir hl
    obtain ⟨hu, hent⟩ := enters_of_at hs (hno p hp) hpass hat hda
    have hreach : w.Reached (p.normal / ⟨false, [n], false⟩) := .entry hp hent (by rw [list_of_at hs hu hat hda]; exact leads_listed hL hn hl)
    obtain ⟨v1, c, g1, g2, g3⟩ := hl.split [n] ns rfl
    have hpn : IsNormal p.normal := normal_isNormal p
    have hpe : p.normal ≠ Path.empty := hat.1
    have hfile : (p.normal / ⟨false, [n], false⟩).filename = n := by
      rw [entry_eq _ _ hn]
      simp [Path.filename]
    have hq : L.At (p.normal / ⟨false, [n], false⟩).normal (u + v1) c := (at_entry hpn hpe hn).mpr ⟨u, a, by omega, hat, by rw [show u + v1 - u = v1 by omega]; exact g2⟩
    obtain ⟨q, h1, h2, h3⟩ := ih (fun m hm => hns m (by simp [hm])) (fun q hq hm => hf q hq (by simp [hm])) (v - v1) (u + v1) c _ hreach
      (hf _ hreach (by rw [hfile]; simp)) hq g3
    exact ⟨q, h1, h2, by rw [show u + v = u + v1 + (v - v1) by omega]; exact h3⟩

/-- Names of entries do not lead back without a link. -/
theorem leads_back_pos {ns : List Str} (hns : ∀ n ∈ ns, IsName n) (hne : ns ≠ []) {v : Nat} {a : List Str} (h : L.Leads v a ns a) : 0 < v := by
  have key : ∀ ns, (∀ n ∈ ns, IsName n) → ∀ v a b, L.Leads v a ns b → v = 0 → ns.length + a.length = b.length := by
    intro ns
    induction ns with
    | nil => intro _ v a b h _; cases h; simp
    | cons n ns ih =>
      intro hns v a b h hv
      have hn := hns n (by simp)
      cases h with
      | up => exact absurd rfl hn.1
      | stay _ h => rcases h with h | h; exact absurd h hn.2.1; exact absurd h hn.2.2
      | enter _ _ _ h =>
        have := ih (fun m hm => hns m (by simp [hm])) _ _ _ h hv
        simp only [List.length_cons] at this ⊢
        omega
      | link => omega
  refine Nat.pos_of_ne_zero fun hv => ?_
  have := key ns hns v a a h hv
  have : 0 < ns.length := List.length_pos_iff.mpr hne
  omega

/-- **C111.** When links lead from a directory in the source tree back to it, and no path with one of the names on the way is left out by the filters, then the scan fails. It does not
loop, and it does not leave out anything silently. -/
theorem C111_cycle (hL : L.Ok) (hs : Sees w L msg) (hr : w.root ≠ Path.empty) {p : Path} (hp : w.Reached p) (hpass : w.Passes p) {u : Nat} {a : List Str} (hat : L.At p.normal u a)
    {ns : List Str} (hne : ns ≠ []) (hns : ∀ n ∈ ns, IsName n) (hf : ∀ q, w.Reached q → q.filename ∈ ns → w.Passes q) {v : Nat} (hback : L.Leads v a ns a)
    {n : Nat} {s : Scan I} (h : Steps w n (Scan.init w) s) (hend : takeResult s ≠ none) : ∃ text, takeResult s = some (.error text) := by
  obtain ⟨r, hres⟩ := Option.ne_none_iff_exists'.mp hend
  cases r with
  | error text => exact ⟨text, hres⟩
  | ok files =>
    exfalso
    have hw := sees_ok hL hs hr
    have hno : ∀ p, w.Reached p → ∀ m, ¬ w.Says p m := fun p hp m => no_says hw h hres hp m
    have hda : L.node a = some .dir := by
      cases ns with
      | nil => exact absurd rfl hne
      | cons n ns => exact leads_cons_dir hback
    have hv := leads_back_pos hns hne hback
    have rounds : ∀ k, ∃ q, w.Reached q ∧ w.Passes q ∧ L.At q.normal (u + k * v) a := by
      intro k
      induction k with
      | zero => exact ⟨p, hp, hpass, by simpa using hat⟩
      | succ k ih =>
        obtain ⟨q, h1, h2, h3⟩ := ih
        obtain ⟨q', g1, g2, g3⟩ := descends hL hs hr hno ns hns hf v _ a q h1 h2 h3 hback
        exact ⟨q', g1, g2, by rw [Nat.succ_mul, ← Nat.add_assoc]; exact g3⟩
    obtain ⟨q, h1, h2, h3⟩ := rounds (L.limit + 1)
    have := (enters_of_at hs (hno q h1) h2 h3 hda).1
    have : L.limit + 1 ≤ (L.limit + 1) * v := Nat.le_mul_of_pos_right _ hv
    omega

/-- **C111.** If the scan of a tree with links fails, it is because of a path that needs more links than the kernel follows, or because of a file the loader rejects. -/
theorem C111_says (hs : Sees w L msg) {p : Path} {m : Str} (h : w.Says p m) :
    L.lookup p = .error .loop ∨ L.lookup p.normal = .error .loop ∨ w.Passes p ∧ w.load p = .error m := by
  have key : ∀ q m, w.isDir q = .error m → L.lookup q = .error .loop := by
    intro q m hq
    rw [hs.isDir] at hq
    unfold Links.isDir at hq
    split at hq
    · cases hq
    · assumption
    · cases hq
  cases h with
  | filter _ _ h => exact .inl (key _ _ h)
  | load h1 h2 => exact .inr (.inr ⟨h1, h2⟩)
  | isDir _ _ h => exact .inr (.inl (key _ _ h))
  | names h1 h2 =>
    obtain ⟨u, a, hu, hat, hdir⟩ := isDir_true ((hs.isDir _).symm.trans h1.2.2)
    rw [hs.names] at h2
    unfold Links.list at h2
    rw [lookup_of_at hat, if_pos hu] at h2
    simp [hdir] at h2

end Maike.Tree
