import Verif.Tree.Model

/-!
# Where references and targets are located
-/

namespace Maike.Tree

open Fs Kvs Paths
open Maike.Db (Origin RebuildPolicy isExternal)

/-! ## Specification -/

/-- A file or directory which is found by a scan: the source directory is in normal form, and the path is an entry in the directory
which is reached from the source directory by the names `sub`. -/
structure Found (c : Ctxt) (sub : List Str) (entry : Str) : Prop where
  normal : IsNormal c.sourceDir
  nonempty : c.sourceDir ≠ Path.empty
  names : ∀ n ∈ sub, IsName n
  isName : IsName entry
  path : c.srcPath = (c.sourceDir / ⟨false, sub, false⟩).normal / ⟨false, [entry], false⟩

/-- A relative path, as written in a source file. -/
def Relative (p : Path) : Prop := p.root = false ∧ p.names ≠ [] ∧ [] ∉ p.names

/-- `sub` inside of `base`, in normal form. -/
def inside (base : Path) (sub : List Str) : Path :=
  ⟨base.root, if base.names = [dot] ∧ sub ≠ [] then sub else base.names ++ sub, false⟩

/-! ## Lemmas -/

theorem walk_trailing (cwd : List Str) (r : Bool) (ns : List Str) (t t' : Bool) : walk cwd ⟨r, ns, t⟩ = walk cwd ⟨r, ns, t'⟩ := rfl

theorem foldl_dot (c : List Str) : walkStep c dot = c := by simp [walkStep, dot, dotdot]

theorem inside_normal (base : Path) (hb : IsNormal base) (hne : base ≠ Path.empty) (sub : List Str) (hs : ∀ n ∈ sub, IsName n) :
    IsNormal (inside base sub) := by
  unfold inside
  cases hb with
  | empty => exact absurd rfl hne
  | dot =>
    cases sub with
    | nil => exact .dot
    | cons n sub => simpa using IsNormal.rel 0 (n :: sub) false hs (by simp)
  | rel k ns t hn ht =>
    have hd : ¬ (List.replicate k dotdot ++ ns = [dot]) := by
      intro e
      have : ∀ x ∈ List.replicate k dotdot ++ ns, x ≠ dot := by
        intro x hx
        rcases List.mem_append.mp hx with h | h
        · rw [List.eq_of_mem_replicate h]; decide
        · exact (hn x h).2.1
      exact this dot (by rw [e]; simp) rfl
    simp only [hd, false_and, if_false, List.append_assoc]
    refine .rel k (ns ++ sub) false ?_ ?_
    · intro n h
      rcases List.mem_append.mp h with h | h
      · exact hn n h
      · exact hs n h
    · intro e
      exact ⟨rfl, (ht (List.append_eq_nil_iff.mp e).1).2⟩
  | abs ns t hn ht =>
    have hd : ¬ (ns = [dot]) := by
      intro e
      exact (hn dot (by rw [e]; simp)).2.1 rfl
    simp only [hd, false_and, if_false]
    refine .abs (ns ++ sub) false ?_ (fun _ => rfl)
    intro n h
    rcases List.mem_append.mp h with h | h
    · exact hn n h
    · exact hs n h

theorem inside_walk (base : Path) (sub : List Str) (cwd : List Str) : walk cwd (inside base sub) = sub.foldl walkStep (walk cwd base) := by
  unfold inside
  split
  · rename_i h
    unfold walk
    dsimp only
    rw [h.1]
    simp [foldl_dot]
  · simp [walk, List.foldl_append]

theorem inside_ne_empty (base : Path) (hb : IsNormal base) (hne : base ≠ Path.empty) (sub : List Str) : inside base sub ≠ Path.empty := by
  intro e
  unfold inside Path.empty at e
  injection e with e1 e2
  split at e2
  · rename_i h; exact h.2 e2
  · have := (List.append_eq_nil_iff.mp e2).1
    cases hb with
    | empty => exact hne rfl
    | dot => simp at this
    | rel k ns t hn ht =>
      simp at this
      have := ht this.2
      omega
    | abs ns t hn ht => simp at e1

theorem normal_inside (base : Path) (hb : IsNormal base) (hne : base ≠ Path.empty) (sub : List Str) (hs : ∀ n ∈ sub, IsName n) :
    (base / ⟨false, sub, false⟩).normal.names = (inside base sub).names ∧ (base / ⟨false, sub, false⟩).normal.root = base.root := by
  have hroot : (base / ⟨false, sub, false⟩).root = base.root := by
    show (base.append _).root = _
    unfold Path.append
    simp only [Bool.false_eq_true, if_false]
    split <;> rfl
  constructor
  · rw [← normal_eq_self (inside_normal base hb hne sub hs)]
    apply normal_unique
    · intro e
      have h2 : base.append ⟨false, sub, false⟩ = Path.empty := e
      unfold Path.append Path.empty at h2
      simp only [Bool.false_eq_true, if_false] at h2
      split at h2
      · injection h2 with e1 e2 e3
        rw [e2] at e3
        apply inside_ne_empty base hb hne []
        simp [inside, Path.empty, e1, e2]
      · rename_i hsub
        injection h2 with e1 e2
        exact hsub (List.append_eq_nil_iff.mp e2).2
    · exact inside_ne_empty base hb hne sub
    · rw [hroot]; rfl
    · intro cwd
      rw [walk_append, inside_walk]
      simp [walk]
  · rw [normal_root, hroot]

theorem Found.fileDir {c : Ctxt} {sub : List Str} {entry : Str} (h : Found c sub entry) : c.fileDir = inside c.sourceDir sub := by
  obtain ⟨h1, h2⟩ := normal_inside c.sourceDir h.normal h.nonempty sub h.names
  have hp : c.srcPath.parent = inside c.sourceDir sub := by
    rw [h.path]
    show ((c.sourceDir / ⟨false, sub, false⟩).normal.append ⟨false, [entry], false⟩).parent = _
    unfold Path.append Path.parent
    simp only [Bool.false_eq_true, if_false, reduceCtorEq, List.append_eq_nil_iff, and_false, List.dropLast_concat, h1, h2]
    rfl
  unfold Ctxt.fileDir
  rw [hp]
  exact normal_eq_self (inside_normal c.sourceDir h.normal h.nonempty sub h.names)

theorem relative_step (a : Path) (p : Path) (h : Relative p) : a / p = ⟨a.root, a.names ++ p.names, p.trailing⟩ := by
  show a.append p = _
  unfold Path.append
  rw [h.1, if_neg (by simp), if_neg h.2.1]

/-- A path that is read from a string has no empty names. -/
theorem parse_names (s : Str) : [] ∉ (parse s).names := by
  have : ∀ (s cur : Str), [] ∉ splitNames s cur := by
    intro s
    induction s with
    | nil => intro cur; unfold splitNames; split <;> simp_all
    | cons x s ih =>
      intro cur
      unfold splitNames
      split
      · split
        · exact ih _
        · rename_i h
          simp only [List.mem_cons, not_or]
          exact ⟨fun e => h e.symm, ih _⟩
      · exact ih _
  exact this s []

/-! ### Leading dot-dots -/

theorem normFold_keeps (root : Bool) (k : Nat) (es : List Str) (s : Norm) (h : ∃ l, s.stack = l ++ List.replicate k dotdot) :
    ∃ l, (es.foldl (normStep root) s).stack = l ++ List.replicate k dotdot := by
  induction es generalizing s with
  | nil => exact h
  | cons e es ih =>
    rw [List.foldl_cons]
    apply ih
    obtain ⟨l, hl⟩ := h
    unfold normStep
    split
    · split
      · rename_i hs
        rw [hs] at hl
        have := List.append_eq_nil_iff.mp hl.symm
        split
        · exact ⟨l, by rw [hs, hl]⟩
        · refine ⟨[dotdot], ?_⟩
          rw [this.2]; rfl
      · rename_i top rest hs
        split
        · refine ⟨dotdot :: l, ?_⟩
          simp only [List.cons_append, ← hl, hs]
        · rename_i htop
          cases l with
          | nil =>
            rw [hs, List.nil_append] at hl
            have : top ∈ List.replicate k dotdot := by rw [← hl]; simp
            exact absurd (List.eq_of_mem_replicate this) htop
          | cons x l =>
            rw [hs] at hl
            injection hl with h1 h2
            exact ⟨l, h2⟩
    · split
      · exact ⟨l, hl⟩
      · exact ⟨e :: l, by simp [hl]⟩

theorem normal_keeps (k : Nat) (r : Bool) (ns : List Str) (t : Bool) (hr : r = true → k = 0) :
    ∃ ns', (Path.normal ⟨r, List.replicate k dotdot ++ ns, t⟩).names = List.replicate k dotdot ++ ns' := by
  cases k with
  | zero => exact ⟨_, rfl⟩
  | succ k =>
    have hr : r = false := by cases r <;> simp_all
    subst hr
    unfold Path.normal
    rw [if_neg (by simp [Path.empty, List.replicate_succ])]
    have : ∃ l, ((Path.elems ⟨false, List.replicate (k + 1) dotdot ++ ns, t⟩).foldl (normStep false) ⟨[], false⟩).stack =
        l ++ List.replicate (k + 1) dotdot := by
      unfold Path.elems
      rw [List.append_assoc, List.foldl_append]
      apply normFold_keeps
      have := normFold_dotdots (k + 1) 0
      simp only [List.replicate_zero, Nat.zero_add] at this
      rw [this]
      exact ⟨[], rfl⟩
    obtain ⟨l, hl⟩ := this
    dsimp only
    rw [hl]
    split
    · rename_i h
      simp [List.replicate_succ] at h
    · rename_i top rest h
      refine ⟨l.reverse, ?_⟩
      show (top :: rest).reverse = _
      rw [← h, List.reverse_append, List.reverse_replicate]

theorem mismatch_snd_sub (a b : List Str) : ∀ x ∈ (mismatch a b).2, x ∈ b := by
  intro x hx
  obtain ⟨pre, _, h⟩ := mismatch_spec a b
  rw [h]
  simp [hx]

theorem normal_split (base : Path) (hb : IsNormal base) : ∃ k ns, base.names = List.replicate k dotdot ++ ns ∧ dotdot ∉ ns ∧
    (base.root = true → k = 0) := by
  cases hb with
  | empty => exact ⟨0, [], rfl, by simp, by simp⟩
  | dot => exact ⟨0, [Fs.dot], rfl, by decide, by simp⟩
  | rel k ns t hn ht => exact ⟨k, ns, rfl, fun h => (hn _ h).1 rfl, by simp⟩
  | abs ns t hn ht => exact ⟨0, ns, rfl, fun h => (hn _ h).1 rfl, by simp⟩

/-- Paths whose names begin with those of a directory stay in the reach of `lexically_relative` after normalisation. -/
theorem reach (base : Path) (hb : IsNormal base) (ns : List Str) (t : Bool) :
    dotdot ∉ (mismatch (Path.normal ⟨base.root, base.names ++ ns, t⟩).elems base.elems).2 := by
  obtain ⟨k, bs, h1, h2, h3⟩ := normal_split base hb
  obtain ⟨ns', h4⟩ := normal_keeps k base.root (bs ++ ns) t h3
  rw [h1, List.append_assoc]
  intro hm
  have he : base.elems = List.replicate k dotdot ++ (bs ++ if base.trailing then [[]] else []) := by
    unfold Path.elems; rw [h1, List.append_assoc]
  rw [he] at hm
  unfold Path.elems at hm
  rw [h4, List.append_assoc, mismatch_append] at hm
  have := mismatch_snd_sub _ _ _ hm
  rcases List.mem_append.mp this with h | h
  · exact h2 h
  · split at h <;> simp [dotdot] at h

theorem isNormal_names (p : Path) (h : IsNormal p) : [] ∉ p.names := by
  cases h with
  | empty => simp [Path.empty]
  | dot => decide
  | rel k ns t hn ht =>
    simp only [List.mem_append, not_or]
    refine ⟨fun h => ?_, fun h => (hn _ h).2.2 rfl⟩
    have := List.eq_of_mem_replicate h
    simp [dotdot] at this
  | abs ns t hn ht => exact fun h => (hn _ h).2.2 rfl

/-- The same, where the path is given by `inside`. -/
theorem reach_inside (base : Path) (hb : IsNormal base) (sub ns : List Str) (t : Bool) :
    dotdot ∉ (mismatch (Path.normal ⟨base.root, (inside base sub).names ++ ns, t⟩).elems base.elems).2 := by
  unfold inside
  dsimp only
  split
  · rename_i h
    intro hm
    have := mismatch_snd_sub _ _ _ hm
    unfold Path.elems at this
    rw [h.1] at this
    rcases List.mem_append.mp this with h | h
    · simp [dot, dotdot] at h
    · split at h <;> simp [dotdot] at h
  · rw [List.append_assoc]
    exact reach base hb _ t

/-! ## Theorems -/

theorem splitNames_head (s cur : Str) (h : cur ≠ []) :
    splitNames s cur = (cur ++ s.takeWhile (· ≠ '/')) :: splitNames (s.dropWhile (· ≠ '/')) [] := by
  induction s generalizing cur with
  | nil => simp [splitNames, h]
  | cons x s ih =>
    rw [splitNames]
    split
    · rename_i hx
      subst hx
      simp [splitNames]
    · rename_i hx
      rw [ih _ (by simp)]
      simp [hx]

theorem splitNames_nil (s : Str) (h : splitNames s [] = []) : ∀ x ∈ s, x = '/' := by
  induction s with
  | nil => simp
  | cons x s ih =>
    rw [splitNames] at h
    split at h
    · rename_i hx
      simp only [if_true] at h
      intro y hy
      rcases List.mem_cons.mp hy with e | e
      · rw [e, hx]
      · exact ih h y e
    · rw [splitNames_head _ _ (by simp)] at h
      simp at h

/-- C46: A path starts with `./` iff the string it was made from does. -/
theorem C46_dotSlash (s : Str) : startsWithDotSlash (parse s) = true ↔ ['.', '/'] <+: s := by
  unfold startsWithDotSlash parse
  dsimp only
  constructor
  · intro h
    simp only [Bool.and_eq_true, Bool.not_eq_true', decide_eq_false_iff_not, beq_iff_eq, Bool.or_eq_true, decide_eq_true_eq] at h
    obtain ⟨⟨h1, h2⟩, h3⟩ := h
    cases s with
    | nil => simp [splitNames] at h2
    | cons x s =>
      have hx : x ≠ '/' := by simpa using h1
      rw [splitNames, if_neg hx, splitNames_head _ _ (by simp)] at h2 h3
      simp only [List.nil_append, List.cons_append, List.head?_cons, Option.some.injEq, dot, List.cons.injEq] at h2
      obtain ⟨rfl, h2⟩ := h2
      cases s with
      | nil => simp [splitNames] at h3
      | cons y s =>
        by_cases hy : y = '/'
        · subst hy
          exact ⟨s, rfl⟩
        · simp [hy] at h2
  · rintro ⟨s, rfl⟩
    have hsplit : splitNames ('.' :: '/' :: s) [] = dot :: splitNames s [] := by simp [splitNames, dot]
    simp only [List.cons_append, List.nil_append, hsplit, List.head?_cons, Bool.and_eq_true, Bool.not_eq_true', decide_eq_false_iff_not,
      beq_iff_eq, Bool.or_eq_true, decide_eq_true_eq, Option.some.injEq]
    refine ⟨⟨by decide, trivial⟩, ?_⟩
    cases hs : splitNames s [] with
    | cons n l => left; simp
    | nil =>
      right
      refine ⟨?_, by simp⟩
      have hall := splitNames_nil s hs
      rcases List.eq_nil_or_concat s with rfl | ⟨l, y, rfl⟩
      · rfl
      · have := hall y (by simp [List.concat_eq_append])
        subst this
        simp [List.getLast?_cons]

/-- C46: The directory of a source file is the one that contains it. -/
theorem C46_fileDir (c : Ctxt) (sub : List Str) (entry : Str) (h : Found c sub entry) (cwd : List Str) :
    walk cwd c.srcPath = entry :: walk cwd c.fileDir ∧ walk cwd c.fileDir = sub.foldl walkStep (walk cwd c.sourceDir) ∧
    IsNormal c.fileDir := by
  have hd := h.fileDir
  refine ⟨?_, ?_, ?_⟩
  · rw [h.path, hd, walk_append, walk_normal, walk_append, inside_walk]
    have := h.isName
    simp [walk, walkStep, this.1, this.2.1, this.2.2]
  · rw [hd, inside_walk]
  · rw [hd]; exact inside_normal _ h.normal h.nonempty _ h.names

/-- C46: External names are left alone. -/
theorem C46_external (c : Ctxt) (p : Path) (o : Origin) (h : isExternal o = true) : prependSearchPath c p o = p := by
  cases o <;> simp_all [isExternal, prependSearchPath]

/-- C46: A reference to a file of the project leads to where it leads to in the directory of the referring file if it starts with
`./`, and in the source directory otherwise. -/
theorem C46_project (c : Ctxt) (p : Path) :
    IsNormal (prependSearchPath c p .project) ∧
    ∀ cwd, walk cwd (prependSearchPath c p .project) =
      walk (walk cwd (if startsWithDotSlash p then c.fileDir else c.sourceDir)) p := by
  have h : prependSearchPath c p .project = (if startsWithDotSlash p then (c.fileDir / p).normal else c.sourceDir / p).normal := by
    simp [prependSearchPath]
  rw [h]
  refine ⟨normal_isNormal _, fun cwd => ?_⟩
  rw [walk_normal]
  split
  · rw [walk_normal, walk_append]
  · rw [walk_append]

/-- The path that `prependSearchPath` takes to the target directory. -/
def fromSource (c : Ctxt) (p : Path) : Path :=
  (if startsWithDotSlash p then (c.fileDir / p).normal else c.sourceDir / p).relativeTo c.sourceDir

theorem generated_eq (c : Ctxt) (p : Path) : prependSearchPath c p .generated = (c.targetDir / fromSource c p).normal := by
  simp [prependSearchPath, fromSource]

/-- C46: A reference to a generated file leads to the place in the target directory that corresponds to the place in the source
directory the reference would lead to: the same relative path `r` leads to both. -/
theorem C46_generated (c : Ctxt) (sub : List Str) (entry : Str) (h : Found c sub entry) (p : Path) (hp : Relative p) :
    IsNormal (prependSearchPath c p .generated) ∧
    ∃ r, Relative r ∧
      (∀ cwd, walk (walk cwd c.sourceDir) r = walk (walk cwd (if startsWithDotSlash p then c.fileDir else c.sourceDir)) p) ∧
      ∀ cwd, walk cwd (prependSearchPath c p .generated) = walk (walk cwd c.targetDir) r := by
  rw [generated_eq]
  refine ⟨normal_isNormal _, fromSource c p, ?_⟩
  have main : Relative (fromSource c p) ∧
      ∀ cwd, walk (walk cwd c.sourceDir) (fromSource c p) =
        walk (walk cwd (if startsWithDotSlash p then c.fileDir else c.sourceDir)) p := by
    unfold fromSource
    split
    · have hd := h.fileDir
      rw [relative_step _ _ hp, hd]
      have hr : (inside c.sourceDir sub).root = c.sourceDir.root := rfl
      rw [hr]
      have h1 := reach_inside c.sourceDir h.normal sub p.names p.trailing
      obtain ⟨g1, g2, g3, g4⟩ := relativeTo_walk _ c.sourceDir
        (isNormal_names _ (normal_isNormal ⟨c.sourceDir.root, (inside c.sourceDir sub).names ++ p.names, p.trailing⟩))
        (by rw [normal_root]) h1
      refine ⟨⟨g1, g2, g3⟩, fun cwd => ?_⟩
      rw [g4, walk_normal]
      unfold walk
      dsimp only
      rw [List.foldl_append, hp.1, hr]
      rfl
    · rw [relative_step _ _ hp, relativeTo_inside _ _ _ hp.2.1 (fun n hn e => hp.2.2 (e ▸ hn))]
      refine ⟨⟨rfl, hp.2⟩, fun cwd => ?_⟩
      simp [walk, hp.1]
  refine ⟨main.1, main.2, fun cwd => ?_⟩
  rw [walk_normal, walk_append]

theorem relative_ne_empty (a p : Path) (hp : Relative p) : a / p ≠ Path.empty := by
  rw [relative_step a p hp]
  intro e
  injection e with _ e
  exact hp.2.1 (List.append_eq_nil_iff.mp e).2

theorem relative_root (a p : Path) (hp : Relative p) : (a / p).root = a.root := by
  rw [relative_step a p hp]

/-- C46: Different spellings of a reference to a file of the project give the same names. -/
theorem C46_same (c : Ctxt) (hroot : c.fileDir.root = c.sourceDir.root) (p q : Path) (hp : Relative p) (hq : Relative q)
    (h : ∀ cwd, walk (walk cwd (if startsWithDotSlash p then c.fileDir else c.sourceDir)) p =
      walk (walk cwd (if startsWithDotSlash q then c.fileDir else c.sourceDir)) q) :
    (prependSearchPath c p .project).names = (prependSearchPath c q .project).names := by
  have hproj : ∀ p, prependSearchPath c p .project = ((if startsWithDotSlash p then c.fileDir else c.sourceDir) / p).normal := by
    intro p
    simp only [prependSearchPath, decide_true, Bool.true_or, Bool.not_true, Bool.false_eq_true, if_false, reduceCtorEq]
    split
    · rw [normal_normal]
    · rfl
  rw [hproj, hproj]
  apply normal_unique
  · exact relative_ne_empty _ _ hp
  · exact relative_ne_empty _ _ hq
  · rw [relative_root _ _ hp, relative_root _ _ hq]
    split <;> split <;> simp [hroot]
  · intro cwd
    rw [walk_append, walk_append, h]

/-- The same for references to generated files that start with `./`. -/
theorem C46_same_generated (c : Ctxt) (sub : List Str) (entry : Str) (hf : Found c sub entry) (p q : Path) (hp : Relative p)
    (hq : Relative q) (hps : startsWithDotSlash p = true) (hqs : startsWithDotSlash q = true)
    (h : ∀ cwd, walk (walk cwd c.fileDir) p = walk (walk cwd c.fileDir) q) :
    (prependSearchPath c p .generated).names = (prependSearchPath c q .generated).names := by
  have h1 : (c.fileDir / p).normal.names = (c.fileDir / q).normal.names := by
    apply normal_unique _ _ (relative_ne_empty _ _ hp) (relative_ne_empty _ _ hq)
    · rw [relative_root _ _ hp, relative_root _ _ hq]
    · intro cwd
      rw [walk_append, walk_append, h]
  have h2 : (fromSource c p).names = (fromSource c q).names := by
    unfold fromSource
    rw [if_pos hps, if_pos hqs]
    have hn : [] ∉ (c.fileDir / p).normal.names := isNormal_names _ (normal_isNormal _)
    have hr : (c.fileDir / p).normal.root = (c.fileDir / q).normal.root := by
      rw [normal_root, normal_root, relative_root _ _ hp, relative_root _ _ hq]
    generalize (c.fileDir / p).normal = x at *
    generalize (c.fileDir / q).normal = y at *
    obtain ⟨r, ns, t⟩ := x
    obtain ⟨r', ns', t'⟩ := y
    simp only at h1 hr hn
    subst h1 hr
    exact relativeTo_trailing _ _ _ _ hn _
  obtain ⟨_, r, hr, _⟩ := C46_generated c sub entry hf p hp
  have rel : ∀ p, Relative p → startsWithDotSlash p = true → Relative (fromSource c p) := by
    intro p hp hps
    unfold fromSource
    rw [if_pos hps, relative_step _ _ hp, hf.fileDir]
    obtain ⟨g1, g2, g3, _⟩ := relativeTo_walk _ c.sourceDir
      (isNormal_names _ (normal_isNormal ⟨c.sourceDir.root, (inside c.sourceDir sub).names ++ p.names, p.trailing⟩))
      (by rw [normal_root]) (reach_inside c.sourceDir hf.normal sub p.names p.trailing)
    exact ⟨g1, g2, g3⟩
  rw [generated_eq, generated_eq]
  apply normal_unique
  · exact relative_ne_empty _ _ (rel p hp hps)
  · exact relative_ne_empty _ _ (rel q hq hqs)
  · rw [relative_root _ _ (rel p hp hps), relative_root _ _ (rel q hq hqs)]
  · intro cwd
    rw [walk_append, walk_append]
    unfold walk
    rw [h2, (rel p hp hps).1, (rel q hq hqs).1]

/-- Names are not the whole story: a reference with a separator at the end is a different node. -/
theorem C46_trailing_separator :
    ∃ c p q, (∃ sub entry, Found c sub entry) ∧ (∀ cwd, walk (walk cwd c.sourceDir) p = walk (walk cwd c.sourceDir) q) ∧
      startsWithDotSlash p = false ∧ startsWithDotSlash q = false ∧
      prependSearchPath c p .project ≠ prependSearchPath c q .project := by
  refine ⟨⟨parse "./x".toList, parse ".".toList, parse "out".toList⟩, parse "a/".toList, parse "a".toList, ⟨[], "x".toList, ?_⟩, ?_, ?_⟩
  · refine ⟨.dot, by decide, by simp, by decide, by decide⟩
  · intro cwd
    rfl
  · decide

/-- A generated file that is referred to by leaving the source directory and entering it again is not found. -/
theorem C46_generated_detour :
    ∃ c, (∃ sub entry, Found c sub entry) ∧
      (∀ cwd, walk (walk cwd c.sourceDir) (parse "../src/a.o".toList) = walk (walk cwd c.sourceDir) (parse "a.o".toList)) ∧
      prependSearchPath c (parse "../src/a.o".toList) .generated = parse "src/a.o".toList ∧
      prependSearchPath c (parse "a.o".toList) .generated = parse "out/a.o".toList := by
  refine ⟨⟨parse "src/x".toList, parse "src".toList, parse "out".toList⟩, ⟨[], "x".toList, ?_⟩, ?_, ?_⟩
  · exact ⟨.rel 0 ["src".toList] false (by decide) (by decide), by decide, by simp, by decide, by decide⟩
  · intro cwd
    simp [walk, walkStep, parse, splitNames, dotdot, dot]
  · decide +kernel

/-! ### Targets -/

/-- C47: The name of a target is the target directory followed by the directory of the source file, relative to the source directory,
and the declared name. This holds if the source directory is given in normal form; see `C47_false`. -/
theorem C47_target_partial (c : Ctxt) (sub : List Str) (entry : Str) (h : Found c sub entry) (p : Path) (hp : Relative p) :
    makeTargetName c p = (c.targetDir / ⟨false, sub ++ p.names, p.trailing⟩).normal := by
  have hne : sub ++ p.names ≠ [] := fun e => hp.2.1 (List.append_eq_nil_iff.mp e).2
  have hnn : ∀ n ∈ sub ++ p.names, n ≠ [] := by
    intro n hn
    rcases List.mem_append.mp hn with hn | hn
    · exact (h.names n hn).2.2
    · exact fun e => hp.2.2 (e ▸ hn)
  unfold makeTargetName
  rw [relative_step _ _ hp, h.fileDir]
  congr 2
  unfold inside
  dsimp only
  split
  · rename_i hd
    have hr : c.sourceDir.root = false := by
      have := h.normal
      generalize c.sourceDir = b at *
      cases this with
      | empty => rfl
      | dot => rfl
      | rel => rfl
      | abs ns t hn ht => exact absurd rfl (hn dot (by have := hd.1; simp only at this; rw [this]; simp)).2.1
    rw [hr]
    refine relativeTo_dot _ hd.1 hr _ _ hne hnn ?_
    cases sub with
    | nil => exact absurd rfl hd.2
    | cons n sub =>
      simp only [List.cons_append, List.head?_cons, ne_eq, Option.some.injEq]
      exact (h.names n (by simp)).2.1
  · rw [List.append_assoc]
    exact relativeTo_inside _ _ _ hne hnn

/-- C47: If the declared name has no `..`, then the target is located inside of the target directory, in the corresponding
directory. -/
theorem C47_inside_partial (c : Ctxt) (sub : List Str) (entry : Str) (h : Found c sub entry) (p : Path) (hp : Relative p)
    (hd : dotdot ∉ p.names) (cwd : List Str) :
    walk cwd (makeTargetName c p) = (p.names.filter (· ≠ dot)).reverse ++ sub.reverse ++ walk cwd c.targetDir := by
  have hw : ∀ (ns : List Str) (l : List Str), dotdot ∉ ns → [] ∉ ns → ns.foldl walkStep l = (ns.filter (· ≠ dot)).reverse ++ l := by
    intro ns
    induction ns with
    | nil => intro l _ _; rfl
    | cons n ns ih =>
      intro l h1 h2
      simp only [List.mem_cons, not_or] at h1 h2
      rw [List.foldl_cons, ih _ h1.2 h2.2, List.filter_cons]
      have e1 : n ≠ dotdot := fun e => h1.1 e.symm
      have e2 : n ≠ [] := fun e => h2.1 e.symm
      by_cases hn : n = dot
      · simp [hn, foldl_dot]
      · simp [hn, walkStep, e1, e2]
  rw [C47_target_partial c sub entry h p hp, walk_normal, walk_append]
  show (sub ++ p.names).foldl walkStep (if false then [] else walk cwd c.targetDir) = _
  rw [List.foldl_append, foldl_names sub h.names, hw _ _ hd hp.2.2, List.append_assoc]
  rfl

/-- C47: Hence files in different directories never get the same target from plain names, and neither do different names in the same
directory. -/
theorem C47_injective_partial (c c' : Ctxt) (sub sub' : List Str) (entry entry' : Str) (h : Found c sub entry) (h' : Found c' sub' entry')
    (ht : c.targetDir = c'.targetDir) (n n' : Str) (hn : IsName n) (hn' : IsName n')
    (he : makeTargetName c ⟨false, [n], false⟩ = makeTargetName c' ⟨false, [n'], false⟩) : n = n' ∧ sub = sub' := by
  have rel : ∀ n, IsName n → Relative ⟨false, [n], false⟩ := fun n hn => ⟨rfl, by simp, by simpa using hn.2.2⟩
  have a := C47_inside_partial c sub entry h _ (rel n hn) (by simpa using Ne.symm hn.1) []
  have b := C47_inside_partial c' sub' entry' h' _ (rel n' hn') (by simpa using Ne.symm hn'.1) []
  rw [he, b, ht] at a
  have a := List.append_cancel_right a
  simp only [hn.2.1, hn'.2.1, ne_eq, not_false_eq_true, decide_true, List.filter_cons_of_pos, List.filter_nil, List.reverse_cons,
    List.reverse_nil, List.nil_append, List.cons_append, List.cons.injEq, List.reverse_inj] at a
  exact ⟨a.1.symm, a.2.symm⟩

/-- C47 is false if the source directory is not in normal form. With `--source-dir=./src` the target of `src/a.cpp` is not located in
the target directory but next to its source. -/
theorem C47_false :
    makeTargetName ⟨parse "src/a.cpp".toList, parse "./src".toList, parse "src_targets".toList⟩ (parse "a.o".toList) =
      parse "src/a.o".toList := by
  decide +kernel

/-! ### References find targets -/

theorem relativeTo_inside_eq (base : Path) (hb : IsNormal base) (ns : List Str) (hne : ns ≠ []) (hns : ∀ n ∈ ns, IsName n) :
    (inside base ns).relativeTo base = ⟨false, ns, false⟩ := by
  have hnn : ∀ n ∈ ns, n ≠ [] := fun n hn => (hns n hn).2.2
  unfold inside
  split
  · rename_i hd
    have hr : base.root = false := by
      cases hb with
      | empty => rfl
      | dot => rfl
      | rel => rfl
      | abs ns t hn ht => exact absurd rfl (hn dot (by have := hd.1; simp only at this; rw [this]; simp)).2.1
    rw [hr]
    refine relativeTo_dot _ hd.1 hr _ _ hne hnn ?_
    cases ns with
    | nil => exact absurd rfl hne
    | cons n ns =>
      simp only [List.head?_cons, ne_eq, Option.some.injEq]
      exact (hns n (by simp)).2.1
  · exact relativeTo_inside _ _ _ hne hnn

theorem normal_no_trailing (r : Bool) (l : List Str) (n : Str) (hn : IsName n) : (Path.normal ⟨r, l ++ [n], false⟩).trailing = false := by
  have : ((Path.elems ⟨r, l ++ [n], false⟩).foldl (normStep r) ⟨[], false⟩).trailing = false := by
    simp [Path.elems, List.foldl_append, normStep, hn.1, hn.2.1, hn.2.2]
  unfold Path.normal
  rw [if_neg (by simp [Path.empty])]
  dsimp only
  split
  · split <;> rfl
  · simp [this]

/-- C65: The target `n` declared in one source file, and a reference to a generated file in another one (or the same) which starts with
`./` and leads to where the target would be if it were a source file, have the same name. -/
theorem C65_dotSlash (c c' : Ctxt) (sub sub' : List Str) (entry entry' : Str) (h : Found c sub entry) (h' : Found c' sub' entry')
    (hs : c.sourceDir = c'.sourceDir) (ht : c.targetDir = c'.targetDir) (n : Str) (hn : IsName n)
    (p : Path) (hp : Relative p) (hd : startsWithDotSlash p = true) (hlast : p.names.getLast? = some n) (htr : p.trailing = false)
    (hw : ∀ cwd, walk (walk cwd c.fileDir) p = n :: walk cwd c'.fileDir) :
    prependSearchPath c p .generated = makeTargetName c' ⟨false, [n], false⟩ := by
  have rel : Relative ⟨false, [n], false⟩ := ⟨rfl, by simp, by simpa using hn.2.2⟩
  have hsub : ∀ x ∈ sub' ++ [n], IsName x := by
    intro x hx
    rcases List.mem_append.mp hx with hx | hx
    · exact h'.names x hx
    · simp only [List.mem_singleton] at hx; rw [hx]; exact hn
  have hret : (c.fileDir / p).normal = inside c.sourceDir (sub' ++ [n]) := by
    have hnorm := inside_normal c.sourceDir h.normal h.nonempty _ hsub
    have h1 : (c.fileDir / p).normal.names = (inside c.sourceDir (sub' ++ [n])).names := by
      rw [← normal_eq_self hnorm]
      apply normal_unique _ _ (relative_ne_empty _ _ hp) (inside_ne_empty _ h.normal h.nonempty _)
      · rw [relative_root _ _ hp, h.fileDir]; rfl
      · intro cwd
        rw [walk_append, hw, inside_walk, h'.fileDir, inside_walk, hs]
        simp [walkStep, hn.1, hn.2.1, hn.2.2]
    have h2 : (c.fileDir / p).normal.root = (inside c.sourceDir (sub' ++ [n])).root := by
      rw [normal_root, relative_root _ _ hp, h.fileDir]; rfl
    have h3 : (c.fileDir / p).normal.trailing = false := by
      rw [relative_step _ _ hp, htr]
      rcases List.eq_nil_or_concat p.names with e | ⟨l, x, e⟩
      · exact absurd e hp.2.1
      · rw [List.concat_eq_append] at e
        rw [e] at hlast ⊢
        simp only [List.getLast?_append, List.getLast?_singleton, Option.some_or, Option.some.injEq] at hlast
        rw [hlast, ← List.append_assoc]
        exact normal_no_trailing _ _ _ hn
    generalize (c.fileDir / p).normal = x at *
    obtain ⟨r, ns, t⟩ := x
    simp only at h1 h2 h3
    subst h3
    unfold inside at *
    simp_all
  rw [generated_eq, C47_target_partial c' sub' entry' h' _ rel]
  unfold fromSource
  rw [if_pos hd, hret, relativeTo_inside_eq _ h.normal _ (by simp) hsub, ht]

/-- C65: The same for a reference which gives the place relative to the source directory. -/
theorem C65_plain (c c' : Ctxt) (sub' : List Str) (entry' : Str) (h' : Found c' sub' entry') (ht : c.targetDir = c'.targetDir)
    (n : Str) (hn : IsName n) :
    prependSearchPath c ⟨false, sub' ++ [n], false⟩ .generated = makeTargetName c' ⟨false, [n], false⟩ := by
  have hsub : ∀ x ∈ sub' ++ [n], IsName x := by
    intro x hx
    rcases List.mem_append.mp hx with hx | hx
    · exact h'.names x hx
    · simp only [List.mem_singleton] at hx; rw [hx]; exact hn
  have hnd : startsWithDotSlash ⟨false, sub' ++ [n], false⟩ = false := by
    unfold startsWithDotSlash
    cases hh : (sub' ++ [n]).head? with
    | none => rfl
    | some x =>
      have := (hsub x (List.mem_of_head? hh)).2.1
      simp [this]
  rw [generated_eq, C47_target_partial c' sub' entry' h' _ ⟨rfl, by simp, by simpa using hn.2.2⟩]
  unfold fromSource
  rw [hnd, if_neg (by simp), relative_step c.sourceDir ⟨false, sub' ++ [n], false⟩ ⟨rfl, by simp, fun h => (hsub _ h).2.2 rfl⟩,
    relativeTo_inside _ _ _ (by simp) (fun x hx => (hsub x hx).2.2), ht]

/-! ### The source directory itself -/

theorem parent_filename_concat (r : Bool) (init : List Str) (x : Str) (hx : x ≠ []) (h : IsNormal ⟨r, init, false⟩) :
    (Path.parent ⟨r, init ++ [x], false⟩).normal / filenamePath ⟨r, init ++ [x], false⟩ = ⟨r, init ++ [x], false⟩ := by
  have h1 : Path.parent ⟨r, init ++ [x], false⟩ = ⟨r, init, false⟩ := by simp [Path.parent]
  have h2 : filenamePath ⟨r, init ++ [x], false⟩ = ⟨false, [x], false⟩ := by simp [filenamePath, Path.filename, hx]
  rw [h1, h2, normal_eq_self h, relative_step _ _ ⟨rfl, by simp, by simpa using hx⟩]

theorem parent_filename_trailing (r : Bool) (ns : List Str) (hne : ns ≠ []) (h : IsNormal ⟨r, ns, false⟩) :
    (Path.parent ⟨r, ns, true⟩).normal / filenamePath ⟨r, ns, true⟩ = ⟨r, ns, true⟩ := by
  have h1 : Path.parent ⟨r, ns, true⟩ = ⟨r, ns, false⟩ := by simp [Path.parent, hne]
  have h2 : filenamePath ⟨r, ns, true⟩ = ⟨false, [], false⟩ := by simp [filenamePath, Path.filename]
  rw [h1, h2, normal_eq_self h]
  show Path.append _ _ = _
  simp [Path.append, hne]

theorem parent_filename (b : Path) (hb : IsNormal b) : b.parent.normal / filenamePath b = b := by
  cases hb with
  | empty => decide
  | dot => decide
  | rel k ns t hn ht =>
    cases t with
    | true =>
      have hns : ns ≠ [] := fun e => by simpa using (ht e).1
      exact parent_filename_trailing _ _ (by simp [hns]) (.rel k ns false hn fun e => absurd e hns)
    | false =>
      rcases List.eq_nil_or_concat ns with rfl | ⟨l, x, rfl⟩
      · obtain ⟨j, rfl⟩ : ∃ j, k = j + 1 := ⟨k - 1, by have := (ht rfl).2; omega⟩
        rw [List.append_nil, List.replicate_succ']
        apply parent_filename_concat _ _ _ (by decide)
        cases j with
        | zero => exact .empty
        | succ j => simpa using IsNormal.rel (j + 1) [] false (by simp) (by simp)
      · rw [List.concat_eq_append] at hn ⊢
        rw [← List.append_assoc]
        apply parent_filename_concat _ _ _ (hn x (by simp)).2.2
        have hl : ∀ n ∈ l, IsName n := fun n h => hn n (by simp [h])
        cases k with
        | zero =>
          cases l with
          | nil => exact .empty
          | cons y l => exact .rel 0 (y :: l) false hl (by simp)
        | succ k => exact .rel (k + 1) l false hl (by simp)
  | abs ns t hn ht =>
    cases t with
    | true =>
      have hns : ns ≠ [] := fun e => by simpa using ht e
      exact parent_filename_trailing _ _ hns (.abs ns false hn fun _ => rfl)
    | false =>
      rcases List.eq_nil_or_concat ns with rfl | ⟨l, x, rfl⟩
      · decide
      · rw [List.concat_eq_append] at hn ⊢
        apply parent_filename_concat _ _ _ (hn x (by simp)).2.2
        exact .abs l false (fun n h => hn n (by simp [h])) (fun _ => rfl)

/-- C47: The source directory corresponds to the target directory. -/
theorem C47_root (c : Ctxt) (hb : IsNormal c.sourceDir) (h : c.srcPath = c.sourceDir) (cwd : List Str) :
    walk cwd (makeTargetName c (filenamePath c.srcPath)) = walk cwd c.targetDir := by
  unfold makeTargetName Ctxt.fileDir
  rw [h, parent_filename _ hb]
  have hm : ∀ l : List Str, mismatch l l = ([], []) := by
    intro l
    have := mismatch_append l [] []
    simpa [mismatch] using this
  have : c.sourceDir.relativeTo c.sourceDir = ⟨false, [dot], false⟩ := by
    unfold Path.relativeTo
    simp [hm]
  rw [this, walk_normal, walk_append]
  simp [walk, foldl_dot]

section Examples

/-- A file two levels below the source directory `../proj`. -/
def exampleCtxt : Ctxt := ⟨parse "../proj/lib/io/fifo.cpp".toList, parse "../proj".toList, parse "out".toList⟩

/-- The hypotheses of the theorems about `Found` are met. -/
theorem exampleFound : Found exampleCtxt ["lib".toList, "io".toList] "fifo.cpp".toList :=
  ⟨.rel 1 ["proj".toList] false (by decide) (by decide), by decide, by decide, by decide, by decide +kernel⟩

example : Found ⟨parse "a/b.cpp".toList, parse ".".toList, parse "out".toList⟩ ["a".toList] "b.cpp".toList :=
  ⟨.dot, by decide, by decide, by decide, by decide +kernel⟩

example : Found ⟨parse "/home/x/a/b.cpp".toList, parse "/home/x".toList, parse "out".toList⟩ ["a".toList] "b.cpp".toList :=
  ⟨.abs ["home".toList, "x".toList] false (by decide) (by decide), by decide, by decide, by decide, by decide +kernel⟩

example : Relative (parse "./../x.o".toList) ∧ startsWithDotSlash (parse "./../x.o".toList) = true := by
  constructor
  · exact ⟨by decide, by decide, by decide⟩
  · decide

/-- What the theorems say about the example. -/
example :
    prependSearchPath exampleCtxt (parse "./../x.o".toList) .generated = parse "out/lib/x.o".toList ∧
    prependSearchPath exampleCtxt (parse "./../x.hpp".toList) .project = parse "../proj/lib/x.hpp".toList ∧
    prependSearchPath exampleCtxt (parse "lib/./x.hpp".toList) .project = parse "../proj/lib/x.hpp".toList ∧
    prependSearchPath exampleCtxt (parse "z".toList) .system = parse "z".toList ∧
    makeTargetName exampleCtxt (parse "fifo.o".toList) = parse "out/lib/io/fifo.o".toList ∧
    prependSearchPath exampleCtxt (parse "./../../../x.o".toList) .generated = parse "x.o".toList := by
  decide +kernel

/-- The hypotheses of `C65_dotSlash` are met: `./../buf/x.o` in `lib/io/fifo.cpp` is the target `x.o` of `lib/buf/x.cpp`. -/
example : prependSearchPath exampleCtxt (parse "./../buf/x.o".toList) .generated =
    makeTargetName ⟨parse "../proj/lib/buf/x.cpp".toList, parse "../proj".toList, parse "out".toList⟩ (parse "x.o".toList) := by
  have h' : Found ⟨parse "../proj/lib/buf/x.cpp".toList, parse "../proj".toList, parse "out".toList⟩ ["lib".toList, "buf".toList]
      "x.cpp".toList :=
    ⟨.rel 1 ["proj".toList] false (by decide) (by decide), by decide, by decide, by decide, by decide +kernel⟩
  refine C65_dotSlash _ _ _ _ _ _ exampleFound h' rfl rfl "x.o".toList (by decide) _ ⟨by decide, by decide, by decide⟩ (by decide)
    (by decide) (by decide) ?_
  intro cwd
  rw [(C46_fileDir _ _ _ exampleFound cwd).2.1, (C46_fileDir _ _ _ h' cwd).2.1]
  simp [walk, walkStep, parse, splitNames, dotdot, dot, exampleCtxt]

/-- The hypotheses of `C46_same` are met by two spellings of the same file. -/
example : (prependSearchPath exampleCtxt (parse "./../x.hpp".toList) .project).names =
    (prependSearchPath exampleCtxt (parse "lib/x.hpp".toList) .project).names := by
  refine C46_same exampleCtxt (by decide +kernel) _ _ ⟨by decide, by decide, by decide⟩ ⟨by decide, by decide, by decide⟩ ?_
  intro cwd
  have h1 : startsWithDotSlash (parse "./../x.hpp".toList) = true := by decide
  have h2 : startsWithDotSlash (parse "lib/x.hpp".toList) = false := by decide
  rw [h1, h2, if_pos rfl, if_neg (by simp), (C46_fileDir _ _ _ exampleFound cwd).2.1]
  simp [walk, walkStep, parse, splitNames, dotdot, dot]

example : walk [] (makeTargetName ⟨parse "src".toList, parse "src".toList, parse "out".toList⟩ (filenamePath (parse "src".toList))) =
    ["out".toList] := by
  rw [C47_root _ (.rel 0 ["src".toList] false (by decide) (by decide)) rfl]
  decide

end Examples

end Maike.Tree
