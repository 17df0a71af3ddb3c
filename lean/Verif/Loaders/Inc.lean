import Verif.Loaders.Cxx

/-!
# Properties of the scanner for include directives
-/

namespace Maike.Loaders.Inc

variable {gen : List Char → Bool}

theorem loop_run (s : State) (input : List Char) : loop gen s input = (run (step gen) s input).2 := by
  induction input generalizing s with
  | nil => rfl
  | cons c cs ih => simp [loop, run, ih]

/-- Ready for a new line. -/
def Ready (s : State) : Prop := s.st = .newline ∧ s.path = []

/-- States in which the rest of the line is skipped. -/
def Skipping (st : St) (l : List Char) : Prop :=
  st = .skipLine ∨ (st = .commentFirst ∧ l.head? ≠ some '*') ∨ (st = .rawStringBegin ∧ l.head? ≠ some '"')

theorem skip_run {l : List Char} (h : Ordinary l) (s : State) (hs : Skipping s.st l) (hp : s.path = []) :
    Ready (run (step gen) s (l ++ ['\n'])).1 ∧ (run (step gen) s (l ++ ['\n'])).2 = [] := by
  induction l generalizing s with
  | nil =>
    obtain ⟨st, tag, mark, dir, path⟩ := s
    simp only at hp
    rcases hs with h | ⟨h, _⟩ | ⟨h, _⟩ <;> simp only at h <;> subst h <;> simp [run, step, Ready, hp]
  | cons c l ih =>
    obtain ⟨ho, hn, h1, h2⟩ := h.tail
    have key : Skipping (step gen s c).1.st l ∧ (step gen s c).2 = [] ∧ (step gen s c).1.path = [] := by
      rcases hs with h | ⟨h, hh⟩ | ⟨h, hh⟩
      · simp only [step, h, hn, ↓reduceIte]
        by_cases hR : c = 'R'
        · simp [hR, Skipping, h2 hR, hp]
        · by_cases hS : c = '/'
          · simp [hS, Skipping, h1 hS, hp]
          · simp [hR, hS, Skipping, hp, h]
      · simp only [List.head?_cons, ne_eq, Option.some.injEq] at hh
        simp [step, h, hh, hn, Skipping, hp]
      · simp only [List.head?_cons, ne_eq, Option.some.injEq] at hh
        simp [step, h, hh, hn, Skipping, hp]
    have := ih ho _ key.1 key.2.2
    simp only [List.cons_append, run, key.2.1, List.nil_append]
    exact this

theorem blank_run {l : List Char} (h : ∀ c ∈ l, blank c = true) (s : State) (hs : s.st = .newline) :
    run (step gen) s l = (s, []) := by
  induction l with
  | nil => rfl
  | cons c l ih =>
    have hb := h c (by simp)
    have hstep : step gen s c = (s, []) := by
      have h1 : c ≠ '/' := by rintro rfl; exact absurd hb (by decide)
      have h2 : c ≠ 'R' := by rintro rfl; exact absurd hb (by decide)
      have h3 : c ≠ '#' := by rintro rfl; exact absurd hb (by decide)
      simp [step, hs, h1, h2, h3, hb]
    simp only [run, hstep, ih (fun x hx => h x (List.mem_cons_of_mem _ hx))]
    rfl

theorem plain_run {l : List Char} (h : Ordinary l) (ht : (trimmed l).head? ≠ some '#') (s : State) (hs : Ready s) :
    Ready (run (step gen) s (l ++ ['\n'])).1 ∧ (run (step gen) s (l ++ ['\n'])).2 = [] := by
  induction l with
  | nil =>
    have := blank_run (gen := gen) (l := ['\n']) (by intro c hc; simp at hc; subst hc; exact blank_newline) s hs.1
    rw [List.nil_append, this]
    exact ⟨hs, rfl⟩
  | cons c l ih =>
    obtain ⟨ho, hn, h1, h2⟩ := h.tail
    by_cases hb : blank c = true
    · have hstep : run (step gen) s [c] = (s, []) := blank_run (by simpa using hb) s hs.1
      have ht' : (trimmed l).head? ≠ some '#' := by
        intro hx; apply ht
        simpa [trimmed, List.dropWhile_cons, hb] using hx
      have := ih ho ht'
      have e : c :: l ++ ['\n'] = [c] ++ (l ++ ['\n']) := rfl
      rw [e, run_append, hstep]
      exact ⟨this.1, by simpa using this.2⟩
    · have hH : c ≠ '#' := by
        rintro rfl
        apply ht
        simp [trimmed, List.dropWhile_cons, hb]
      have key : Skipping (step gen s c).1.st l ∧ (step gen s c).2 = [] ∧ (step gen s c).1.path = [] := by
        by_cases hS : c = '/'
        · subst hS; simp [step, hs.1, hs.2, Skipping, h1 rfl]
        · by_cases hR : c = 'R'
          · subst hR; simp [step, hs.1, hs.2, Skipping, h2 rfl]
          · simp [step, hs.1, hs.2, Skipping, hS, hR, hH, hb]
      have := skip_run (gen := gen) ho _ key.1 key.2.2
      simp only [List.cons_append, run, key.2.1, List.nil_append]
      exact this

/-- Code before a comment or a literal, read in the middle of a line. -/
theorem skipped_run {l : List Char} (h : Simple l) (s : State) (hs : s.st = .skipLine) :
    run (step gen) s l = (s, []) := by
  induction l with
  | nil => rfl
  | cons c l ih =>
    obtain ⟨hsim, hn, hS, _, hR⟩ := h.tail
    have hstep : step gen s c = (s, []) := by simp [step, hs, hn, hS, hR]
    simp only [run, hstep, ih hsim]
    rfl

/-- Code before a comment or a literal, read from the beginning of a line. -/
theorem simple_run {l : List Char} (h : Simple l) (ht : (trimmed l).head? ≠ some '#') (s : State) (hs : Ready s) :
    ((run (step gen) s l).1.st = .newline ∨ (run (step gen) s l).1.st = .skipLine) ∧
    (run (step gen) s l).1.path = [] ∧ (run (step gen) s l).2 = [] := by
  induction l with
  | nil => exact ⟨.inl hs.1, hs.2, rfl⟩
  | cons c l ih =>
    obtain ⟨hsim, hn, hS, _, hR⟩ := h.tail
    by_cases hb : blank c = true
    · have hstep : run (step gen) s [c] = (s, []) := blank_run (by simpa using hb) s hs.1
      have ht' : (trimmed l).head? ≠ some '#' := by
        intro hx; apply ht
        simpa [trimmed, List.dropWhile_cons, hb] using hx
      have := ih hsim ht'
      have e : c :: l = [c] ++ l := rfl
      rw [e, run_append, hstep]
      exact ⟨this.1, this.2.1, by simpa using this.2.2⟩
    · have hH : c ≠ '#' := by
        rintro rfl
        apply ht
        simp [trimmed, List.dropWhile_cons, hb]
      have hstep : step gen s c = ({ s with st := .skipLine }, []) := by simp [step, hs.1, hS, hR, hH, hb]
      have := skipped_run (gen := gen) hsim { s with st := .skipLine } rfl
      rw [run, hstep, this]
      exact ⟨.inr rfl, hs.2, by simp⟩

theorem body_run {l : List Char} (h : ¬ ['*', '/'] <:+: l) (s : State)
    (hs : s.st = .commentBlock ∨ (s.st = .commentBlockPreEnd ∧ l.head? ≠ some '/')) :
    ((run (step gen) s l).1.st = .commentBlock ∨
      ((run (step gen) s l).1.st = .commentBlockPreEnd ∧
        (l = [] ∧ s.st = .commentBlockPreEnd ∨ l.getLast? = some '*'))) ∧
    (run (step gen) s l).1.path = s.path ∧ (run (step gen) s l).2 = [] := by
  induction l generalizing s with
  | nil =>
    refine ⟨?_, rfl, rfl⟩
    rcases hs with hs | ⟨hs, _⟩
    · exact .inl hs
    · exact .inr ⟨hs, .inl ⟨rfl, hs⟩⟩
  | cons c l ih =>
    have hl : ¬ ['*', '/'] <:+: l := fun hx => h (hx.trans (List.suffix_cons _ _).isInfix)
    have hnext : c = '*' → l.head? ≠ some '/' := by
      rintro rfl hh
      cases l with
      | nil => simp at hh
      | cons d l => simp at hh; subst hh; exact h ⟨[], l, rfl⟩
    have key : ((step gen s c).1.st = .commentBlock ∨ (c = '*' ∧ (step gen s c).1.st = .commentBlockPreEnd)) ∧
        (step gen s c).1.path = s.path ∧ (step gen s c).2 = [] := by
      rcases hs with hs | ⟨hs, hh⟩
      · by_cases hst : c = '*'
        · simp [step, hs, hst]
        · simp [step, hs, hst]
      · simp only [List.head?_cons, ne_eq, Option.some.injEq] at hh
        simp [step, hs, hh]
    have hs' : (step gen s c).1.st = .commentBlock ∨
        ((step gen s c).1.st = .commentBlockPreEnd ∧ l.head? ≠ some '/') := by
      rcases key.1 with h | ⟨h, h'⟩
      · exact .inl h
      · exact .inr ⟨h', hnext h⟩
    obtain ⟨e1, e2, e4⟩ := ih hl _ hs'
    refine ⟨?_, e2.trans key.2.1, by simp [run, key.2.2, e4]⟩
    rcases e1 with e1 | ⟨e1, e3⟩
    · exact .inl e1
    · refine .inr ⟨e1, .inr ?_⟩
      rcases e3 with ⟨rfl, e3⟩ | e3
      · rcases key.1 with h | ⟨h, _⟩
        · rw [h] at e3; cases e3
        · simp [h]
      · rw [List.getLast?_cons, e3]; rfl

theorem delim_run {l : List Char} (h : Delim l) (s : State) (hs : s.st = .rawStringTag) :
    run (step gen) s l = ({ s with tag := s.tag ++ l }, []) := by
  induction l generalizing s with
  | nil => simp [run]
  | cons c l ih =>
    obtain ⟨h1, h2, h3, h4⟩ := h
    simp only [List.mem_cons, not_or] at h1 h2 h3 h4
    have hstep : step gen s c = ({ s with tag := s.tag ++ [c] }, []) := by
      have e1 : c ≠ '\n' := fun e => h1.1 e.symm
      have e2 : c ≠ '(' := fun e => h2.1 e.symm
      simp [step, hs, e1, e2]
    have := ih ⟨h1.2, h2.2, h3.2, h4.2⟩ { s with tag := s.tag ++ [c] } hs
    simp only [run, hstep, List.nil_append, this]
    simp

theorem mark_run {l : List Char} (h : Delim l) (s : State) (hs : s.st = .rawStringPreEnd) :
    run (step gen) s l = ({ s with mark := s.mark ++ l }, []) := by
  induction l generalizing s with
  | nil => simp [run]
  | cons c l ih =>
    obtain ⟨h1, h2, h3, h4⟩ := h
    simp only [List.mem_cons, not_or] at h1 h2 h3 h4
    have hstep : step gen s c = ({ s with mark := s.mark ++ [c] }, []) := by
      have e1 : c ≠ '\n' := fun e => h1.1 e.symm
      have e2 : c ≠ '"' := fun e => h4.1 e.symm
      simp [step, hs, e1, e2]
    have := ih ⟨h1.2, h2.2, h3.2, h4.2⟩ { s with mark := s.mark ++ [c] } hs
    simp only [run, hstep, List.nil_append, this]
    simp

theorem raw_run {l : List Char} (h : ')' ∉ l) (s : State) (hs : s.st = .rawString) :
    run (step gen) s l = (s, []) := by
  induction l with
  | nil => rfl
  | cons c l ih =>
    simp only [List.mem_cons, not_or] at h
    have hc : c ≠ ')' := fun e => h.1 e.symm
    have hstep : step gen s c = (s, []) := by simp [step, hs, hc]
    simp only [run, hstep, ih h.2]
    rfl

theorem comment_run {pre body post : List Char} (h1 : Simple pre) (ht : (trimmed pre).head? ≠ some '#')
    (h2 : CommentBody body) (h3 : Ordinary post) (s : State) (hs : Ready s) :
    Ready (run (step gen) s (Item.comment pre body post).render).1 ∧
    (run (step gen) s (Item.comment pre body post).render).2 = [] := by
  have hr : (Item.comment pre body post).render =
      pre ++ (['/', '*'] ++ (body ++ (['*', '/'] ++ (post ++ ['\n'])))) := by
    simp [Item.render]
  rw [hr]
  obtain ⟨p1, p2, p3⟩ := simple_run (gen := gen) h1 ht s hs
  rw [run_append, p3]
  generalize hs1 : (run (step gen) s pre).1 = s1 at p1 p2
  have hb : run (step gen) s1 ['/', '*'] = ({ s1 with st := .commentBlock }, []) := by
    rcases p1 with p1 | p1 <;> simp [run, step, p1]
  rw [run_append (step gen) s1, hb]
  obtain ⟨q1, q2, q3⟩ := body_run (gen := gen) h2.1 { s1 with st := .commentBlock } (.inl rfl)
  rw [run_append (step gen) _ body, q3]
  generalize hs3 : (run (step gen) { s1 with st := .commentBlock } body).1 = s3 at q1 q2
  have hs3' : s3.st = .commentBlock := by
    rcases q1 with q | ⟨_, ⟨_, q⟩ | q⟩
    · exact q
    · cases q
    · exact absurd q h2.2
  have he : run (step gen) s3 ['*', '/'] = ({ s3 with st := .skipLine }, []) := by simp [run, step, hs3']
  rw [run_append (step gen) s3, he]
  obtain ⟨r1, r2⟩ := skip_run (gen := gen) h3 { s3 with st := .skipLine } (.inl rfl) (q2.trans p2)
  exact ⟨r1, by simp [r2]⟩

theorem rawLine_run {pre delim body post : List Char} (h1 : Simple pre) (ht : (trimmed pre).head? ≠ some '#')
    (h2 : Delim delim) (h3 : ')' ∉ body) (h4 : Ordinary post) (s : State) (hs : Ready s) :
    Ready (run (step gen) s (Item.raw pre delim body post).render).1 ∧
    (run (step gen) s (Item.raw pre delim body post).render).2 = [] := by
  have hr : (Item.raw pre delim body post).render =
      pre ++ (['R', '"'] ++ (delim ++ (['('] ++ (body ++ ([')'] ++ (delim ++ (['"'] ++ (post ++ ['\n'])))))))) := by
    simp [Item.render]
  rw [hr]
  obtain ⟨p1, p2, p3⟩ := simple_run (gen := gen) h1 ht s hs
  rw [run_append, p3]
  generalize hs1 : (run (step gen) s pre).1 = s1 at p1 p2
  have hb : run (step gen) s1 ['R', '"'] = ({ s1 with st := .rawStringTag, tag := [], mark := [] }, []) := by
    rcases p1 with p1 | p1 <;> simp [run, step, p1]
  obtain ⟨st1, tag1, mark1, dir1, path1⟩ := s1
  simp only at p2
  subst p2
  rw [run_append (step gen) _ ['R', '"'], hb, run_append (step gen) _ delim, delim_run h2 _ rfl,
    run_append (step gen) _ ['(']]
  have hp : run (step gen) ⟨.rawStringTag, delim, [], dir1, []⟩ ['('] = (⟨.rawString, delim, [], dir1, []⟩, []) := by
    simp [run, step]
  simp only [List.nil_append, hp]
  rw [run_append (step gen) _ body, raw_run h3 _ rfl, run_append (step gen) _ [')']]
  have hp2 : run (step gen) ⟨.rawString, delim, [], dir1, []⟩ [')'] = (⟨.rawStringPreEnd, delim, [], dir1, []⟩, []) := by
    simp [run, step]
  rw [hp2, run_append (step gen) _ delim, mark_run h2 _ rfl, run_append (step gen) _ ['"']]
  have hp3 : run (step gen) ⟨.rawStringPreEnd, delim, delim, dir1, []⟩ ['"'] = (⟨.skipLine, delim, [], dir1, []⟩, []) := by
    simp [run, step]
  simp only [List.nil_append, hp3]
  exact skip_run h4 _ (.inl rfl) rfl

/-- Blanks between `#` and the name of the directive. -/
theorem gap_run {l : List Char} (h : ∀ c ∈ l, blank c = true) (s : State) (hs : s.st = .prePreprocessorDirective) :
    run (step gen) s l = (s, []) := by
  induction l with
  | nil => rfl
  | cons c l ih =>
    have hstep : step gen s c = (s, []) := by simp [step, hs, h c]
    simp only [run, hstep, ih (fun x hx => h x (List.mem_cons_of_mem _ hx))]
    rfl

theorem nameRest_run {l : List Char} (h : ∀ c ∈ l, blank c = false ∧ c ≠ '<' ∧ c ≠ '"') (s : State)
    (hs : s.st = .preprocessorDirective) :
    run (step gen) s l = ({ s with directive := s.directive ++ l }, []) := by
  induction l generalizing s with
  | nil => simp [run]
  | cons c l ih =>
    obtain ⟨h1, h2, h3⟩ := h c (by simp)
    have hstep : step gen s c = ({ s with directive := s.directive ++ [c] }, []) := by simp [step, hs, h1, h2, h3]
    have := ih (fun x hx => h x (List.mem_cons_of_mem _ hx)) { s with directive := s.directive ++ [c] } hs
    simp only [run, hstep, this]
    simp

theorem name_run {l : List Char} (hl : l ≠ []) (h : ∀ c ∈ l, blank c = false ∧ c ≠ '<' ∧ c ≠ '"') (s : State)
    (hs : s.st = .prePreprocessorDirective) :
    run (step gen) s l = ({ s with st := .preprocessorDirective, directive := s.directive ++ l }, []) := by
  cases l with
  | nil => exact absurd rfl hl
  | cons c l =>
    obtain ⟨h1, h2, h3⟩ := h c (by simp)
    have hstep : step gen s c =
        ({ s with st := .preprocessorDirective, directive := s.directive ++ [c] }, []) := by simp [step, hs, h1]
    have := nameRest_run (gen := gen) (fun x hx => h x (List.mem_cons_of_mem _ hx))
      { s with st := .preprocessorDirective, directive := s.directive ++ [c] } rfl
    simp only [run, hstep, this]
    simp

/-- Up to and including the name of a directive. -/
theorem head_run {indent gap name : List Char} (h1 : Indent indent) (h2 : Indent gap) (h3 : name ≠ [])
    (h4 : ∀ c ∈ name, blank c = false ∧ c ≠ '<' ∧ c ≠ '"') (s : State) (hs : Ready s) :
    run (step gen) s (indent ++ (['#'] ++ (gap ++ name))) =
      ({ s with st := .preprocessorDirective, directive := name }, []) := by
  have hh : run (step gen) s ['#'] = ({ s with st := .prePreprocessorDirective, directive := [] }, []) := by
    simp [run, step, hs.1]
  rw [run_append, blank_run h1.2 s hs.1, run_append, hh, run_append, gap_run h2.2 _ rfl, name_run h3 h4 _ rfl]
  simp

/-- Blanks after the name of a directive. -/
theorem preArg_run {l : List Char} (h : Indent l) (s : State) (hs : s.st = .preprocessorDirectivePreArg) :
    run (step gen) s l = (s, []) := by
  induction l with
  | nil => rfl
  | cons c l ih =>
    obtain ⟨h1, h2⟩ := h
    simp only [List.mem_cons, not_or] at h1
    have hc : c ≠ '\n' := fun e => h1.1 e.symm
    have hb := h2 c (by simp)
    have e1 : c ≠ '"' := by rintro rfl; exact absurd hb (by decide)
    have e2 : c ≠ '<' := by rintro rfl; exact absurd hb (by decide)
    have hstep : step gen s c = (s, []) := by simp [step, hs, hc, hb, e1, e2]
    simp only [run, hstep, ih ⟨h1.2, fun x hx => h2 x (List.mem_cons_of_mem _ hx)⟩]
    rfl

theorem gap₂_run {l : List Char} (h : Indent l) (hl : l ≠ []) (s : State) (hs : s.st = .preprocessorDirective) :
    run (step gen) s l = ({ s with st := .preprocessorDirectivePreArg }, []) := by
  cases l with
  | nil => exact absurd rfl hl
  | cons c l =>
    obtain ⟨h1, h2⟩ := h
    simp only [List.mem_cons, not_or] at h1
    have hb := h2 c (by simp)
    have e1 : c ≠ '"' := by rintro rfl; exact absurd hb (by decide)
    have e2 : c ≠ '<' := by rintro rfl; exact absurd hb (by decide)
    have hstep : step gen s c = ({ s with st := .preprocessorDirectivePreArg }, []) := by simp [step, hs, hb, e1, e2]
    have := preArg_run (gen := gen) ⟨h1.2, fun x hx => h2 x (List.mem_cons_of_mem _ hx)⟩
      { s with st := .preprocessorDirectivePreArg } rfl
    simp only [run, hstep, this]
    rfl

theorem project_run {l : List Char} (h1 : '\n' ∉ l) (h2 : '"' ∉ l) (s : State) (hs : s.st = .includeProject) :
    run (step gen) s l = ({ s with path := s.path ++ l }, []) := by
  induction l generalizing s with
  | nil => simp [run]
  | cons c l ih =>
    simp only [List.mem_cons, not_or] at h1 h2
    have hstep : step gen s c = ({ s with path := s.path ++ [c] }, []) := by
      have e1 : c ≠ '\n' := fun e => h1.1 e.symm
      have e2 : c ≠ '"' := fun e => h2.1 e.symm
      simp [step, hs, e1, e2]
    have := ih h1.2 h2.2 { s with path := s.path ++ [c] } hs
    simp only [run, hstep, this]
    simp

theorem system_run {l : List Char} (h1 : '\n' ∉ l) (h2 : '>' ∉ l) (s : State) (hs : s.st = .includeSystem) :
    run (step gen) s l = ({ s with path := s.path ++ l }, []) := by
  induction l generalizing s with
  | nil => simp [run]
  | cons c l ih =>
    simp only [List.mem_cons, not_or] at h1 h2
    have hstep : step gen s c = ({ s with path := s.path ++ [c] }, []) := by
      have e1 : c ≠ '\n' := fun e => h1.1 e.symm
      have e2 : c ≠ '>' := fun e => h2.1 e.symm
      simp [step, hs, e1, e2]
    have := ih h1.2 h2.2 { s with path := s.path ++ [c] } hs
    simp only [run, hstep, this]
    simp

theorem includeName_ok : ∀ c ∈ includeName, blank c = false ∧ c ≠ '<' ∧ c ≠ '"' := by decide

/-- The opening mark of a path, after the name of the directive and optional blanks. -/
theorem open_run {gap : List Char} (h : Indent gap) (s : State) (hs : s.st = .preprocessorDirective)
    (hd : s.directive = includeName) :
    run (step gen) s (gap ++ ['"']) = ({ s with st := .includeProject }, []) ∧
    run (step gen) s (gap ++ ['<']) = ({ s with st := .includeSystem }, []) := by
  by_cases hg : gap = []
  · subst hg
    simp [run, step, hs, hd, includeName]
  · rw [run_append, run_append, gap₂_run h hg s hs]
    simp [run, step]

theorem line_run {ln : Line} (h : ln.WellFormed) (s : State) (hs : Ready s) :
    Ready (run (step gen) s ln.render).1 ∧ (run (step gen) s ln.render).2 = ln.dependency gen := by
  cases ln with
  | includeProject indent gap₁ gap₂ path post =>
    obtain ⟨h1, h2, h3, h4, h5, h6⟩ := h
    have hr : (Line.includeProject indent gap₁ gap₂ path post).render =
        (indent ++ (['#'] ++ (gap₁ ++ includeName))) ++ ((gap₂ ++ ['"']) ++ (path ++ (['"'] ++ (post ++ ['\n'])))) := by
      simp [Line.render]
    rw [hr, run_append, head_run h1 h2 (by decide) includeName_ok s hs, run_append, (open_run h3 _ rfl rfl).1,
      run_append, project_run h4 h5 _ rfl, run_append]
    have hq : ∀ s : State, s.st = .includeProject →
        run (step gen) s ['"'] = ({ s with st := .skipLine, path := [] }, [(s.path, getOrigin gen s.path)]) := by
      intro s hs; simp [run, step, hs]
    rw [hq _ rfl]
    obtain ⟨r1, r2⟩ := skip_run (gen := gen) h6
      { s with st := .skipLine, directive := includeName, path := [] } (.inl rfl) rfl
    refine ⟨r1, ?_⟩
    simp [r2, Line.dependency, hs.2, getOrigin]
  | includeSystem indent gap₁ gap₂ path post =>
    obtain ⟨h1, h2, h3, h4, h5, h6⟩ := h
    have hr : (Line.includeSystem indent gap₁ gap₂ path post).render =
        (indent ++ (['#'] ++ (gap₁ ++ includeName))) ++ ((gap₂ ++ ['<']) ++ (path ++ (['>'] ++ (post ++ ['\n'])))) := by
      simp [Line.render]
    rw [hr, run_append, head_run h1 h2 (by decide) includeName_ok s hs, run_append, (open_run h3 _ rfl rfl).2,
      run_append, system_run h4 h5 _ rfl, run_append]
    have hq : ∀ s : State, s.st = .includeSystem →
        run (step gen) s ['>'] = ({ s with st := .skipLine, path := [] }, [(s.path, .system)]) := by
      intro s hs; simp [run, step, hs]
    rw [hq _ rfl]
    obtain ⟨r1, r2⟩ := skip_run (gen := gen) h6
      { s with st := .skipLine, directive := includeName, path := [] } (.inl rfl) rfl
    refine ⟨r1, ?_⟩
    simp [r2, Line.dependency, hs.2]
  | directive indent gap₁ name gap₂ arg post =>
    obtain ⟨h1, h2, h3, h4, h5, h6, h7, h8, h9, h10⟩ := h
    have hr : (Line.directive indent gap₁ name gap₂ arg post).render =
        (indent ++ (['#'] ++ (gap₁ ++ name))) ++ (gap₂ ++ ([arg] ++ (post ++ ['\n']))) := by
      simp [Line.render]
    have hq : ∀ s : State, s.st = .preprocessorDirectivePreArg →
        run (step gen) s [arg] = ({ s with st := .skipLine }, []) := by
      intro s hs
      have : arg ≠ '\n' := by rintro rfl; rw [blank_newline] at h7; cases h7
      simp [run, step, hs, h7, h8, h9, this]
    rw [hr, run_append, head_run h1 h2 h5 h6 s hs, run_append, gap₂_run h3 h4 _ rfl, run_append, hq _ rfl]
    obtain ⟨r1, r2⟩ := skip_run (gen := gen) h10 { s with st := .skipLine, directive := name } (.inl rfl) hs.2
    refine ⟨r1, ?_⟩
    simp [r2, Line.dependency]
  | tight indent gap₁ name mark post =>
    obtain ⟨h1, h2, h3, h4, h5, h6, h7⟩ := h
    have hr : (Line.tight indent gap₁ name mark post).render =
        (indent ++ (['#'] ++ (gap₁ ++ name))) ++ ([mark] ++ (post ++ ['\n'])) := by
      simp [Line.render]
    have hq : run (step gen) { s with st := .preprocessorDirective, directive := name } [mark] =
        ({ s with st := .skipLine, directive := name }, []) := by
      unfold includeName at h4
      rcases h6 with rfl | rfl <;> simp [run, step, h4]
    rw [hr, run_append, head_run h1 h2 h3 h5 s hs, run_append, hq]
    obtain ⟨r1, r2⟩ := skip_run (gen := gen) h7 { s with st := .skipLine, directive := name } (.inl rfl) hs.2
    refine ⟨r1, ?_⟩
    simp [r2, Line.dependency]
  | bare indent gap₁ name blanks =>
    obtain ⟨h1, h2, h3, h4, h5, h6⟩ := h
    have hr : (Line.bare indent gap₁ name blanks).render =
        (indent ++ (['#'] ++ (gap₁ ++ name))) ++ (blanks ++ ['\n']) := by
      simp [Line.render]
    rw [hr, run_append, head_run h1 h2 h3 h4 s hs]
    have hpre : ∀ (l : List Char), (∀ c ∈ l, blank c = true) → ∀ s : State, s.st = .preprocessorDirectivePreArg →
        run (step gen) s (l ++ ['\n']) = ({ s with st := .newline }, []) := by
      intro l hl
      induction l with
      | nil => intro s hs; simp [run, step, hs]
      | cons c l ih =>
        intro s hs
        by_cases hn : c = '\n'
        · subst hn
          have hstep : step gen s '\n' = ({ s with st := .newline }, []) := by simp [step, hs]
          have := blank_run (gen := gen) (l := l ++ ['\n']) (by
            intro c hc
            rcases List.mem_append.mp hc with hc | hc
            · exact hl c (List.mem_cons_of_mem _ hc)
            · simp at hc; subst hc; exact blank_newline) { s with st := .newline } rfl
          simp only [List.cons_append, run, hstep, this]
          simp
        · have hb := hl c (by simp)
          have e1 : c ≠ '"' := by rintro rfl; exact absurd hb (by decide)
          have e2 : c ≠ '<' := by rintro rfl; exact absurd hb (by decide)
          have hstep : step gen s c = (s, []) := by simp [step, hs, hn, hb, e1, e2]
          simp only [List.cons_append, run, hstep, ih (fun x hx => hl x (List.mem_cons_of_mem _ hx)) s hs]
          simp
    cases blanks with
    | nil => exact absurd rfl h5
    | cons c l =>
      have hb := h6 c (by simp)
      have e1 : c ≠ '"' := by rintro rfl; exact absurd hb (by decide)
      have e2 : c ≠ '<' := by rintro rfl; exact absurd hb (by decide)
      have hstep : step gen { s with st := .preprocessorDirective, directive := name } c =
          ({ s with st := .preprocessorDirectivePreArg, directive := name }, []) := by simp [step, hb, e1, e2]
      simp only [List.cons_append, run, hstep,
        hpre l (fun x hx => h6 x (List.mem_cons_of_mem _ hx))
          { s with st := .preprocessorDirectivePreArg, directive := name } rfl]
      exact ⟨⟨rfl, hs.2⟩, by simp [Line.dependency]⟩
  | plain l => exact plain_run h.1 h.2 s hs
  | comment pre body post => exact comment_run h.1 h.2.1 h.2.2.1 h.2.2.2 s hs
  | raw pre delim body post => exact rawLine_run h.1 h.2.1 h.2.2.1 h.2.2.2.1 h.2.2.2.2 s hs

theorem lines_run {lines : List Line} (h : ∀ ln ∈ lines, ln.WellFormed) (s : State) (hs : Ready s) :
    Ready (run (step gen) s (lines.flatMap Line.render)).1 ∧
    (run (step gen) s (lines.flatMap Line.render)).2 = lines.flatMap (Line.dependency gen) := by
  induction lines generalizing s with
  | nil => exact ⟨hs, rfl⟩
  | cons ln lines ih =>
    obtain ⟨e1, e2⟩ := line_run (gen := gen) (h ln (by simp)) s hs
    obtain ⟨e3, e4⟩ := ih (fun x hx => h x (List.mem_cons_of_mem _ hx)) _ e1
    rw [List.flatMap_cons, run_append]
    exact ⟨e3, by simp [e2, e4]⟩

/-! ## Theorems -/

/-- **C42.** For a file that consists of include directives, other directives with an argument, ordinary lines, and lines with
block comments or raw string literals, the result is the list of included names, in order, with the expected origin. In
particular nothing is found in comments or literals. -/
theorem C42_includes (gen : List Char → Bool) (lines : List Line) (h : ∀ ln ∈ lines, ln.WellFormed) :
    getDependencies gen (lines.flatMap Line.render) = lines.flatMap (Line.dependency gen) := by
  rw [getDependencies, loop_run]
  exact (lines_run h {} ⟨rfl, rfl⟩).2

/-- **C43** (partial). An include directive is found whatever follows it, if the lines before it are well-formed. Missing: files
in which an earlier line confuses the scanner, see `C43_false`. -/
theorem C43_partial (gen : List Char → Bool) (before : List Line) (ln : Line) (rest : List Char)
    (h : ∀ l ∈ before, l.WellFormed) (hln : ln.WellFormed) :
    ∀ dep ∈ ln.dependency gen, dep ∈ getDependencies gen (before.flatMap Line.render ++ ln.render ++ rest) := by
  intro dep hdep
  rw [getDependencies, loop_run, run_append, run_append]
  obtain ⟨e1, _⟩ := lines_run (gen := gen) h {} ⟨rfl, rfl⟩
  obtain ⟨_, e2⟩ := line_run (gen := gen) hln _ e1
  simp only [e2]
  exact List.mem_append_left _ (List.mem_append_right _ hdep)

/-- **C43 is false**: an include directive that directly follows `#endif` is not found. -/
theorem C43_false : ¬ ∀ (gen : List Char → Bool) (before path : List Char), '\n' ∉ path → '"' ∉ path →
    path ∈ (getDependencies gen (before ++ '\n' :: "#include \"".toList ++ path ++ "\"\n".toList)).map Prod.fst := by
  intro h
  have := h (fun _ => false) "#endif".toList ['x'] (by decide) (by decide)
  revert this
  decide +kernel

/-- Nor is one found after a comment that ends with `**/`. -/
theorem C43_star_star_slash : getDependencies (fun _ => false) "/** x **/\n#include \"x\"\n".toList = [] := by decide +kernel

/-- Nor is one found after a line comment that contains `/*`. -/
theorem C43_line_comment : getDependencies (fun _ => false) "// see a/*.cpp\n#include \"x\"\n".toList = [] := by
  decide +kernel

/-- The message of an error directive is taken as an include. -/
theorem C43_bogus : getDependencies (fun _ => false) "#error \"unsupported\"\n".toList =
    [("unsupported".toList, .project)] := by decide +kernel

/-- A path that is not terminated is put in front of the next one. -/
theorem C43_unterminated : getDependencies (fun _ => false) "#include \"a\n#include \"b\"\n".toList =
    [("ab".toList, .project)] := by decide +kernel

section Examples

example : ∀ ln ∈ [Line.plain "//@ {}".toList, .includeSystem [] [] " ".toList "vector".toList [],
    .comment [] "\n#include \"no.hpp\"\n".toList [],
    .includeProject "\t".toList " ".toList [] "a b.hpp".toList " // R".toList,
    .directive [] [] "if".toList " ".toList 'X' " > 1".toList, .tight [] [] "error".toList '"' "no\"".toList, .bare [] [] "endif".toList "\n".toList,
    .raw "auto x = ".toList "ab".toList "\n#include <no>\n".toList ";".toList], ln.WellFormed := by
  intro ln hln
  simp only [List.mem_cons, List.not_mem_nil, or_false] at hln
  rcases hln with rfl | rfl | rfl | rfl | rfl | rfl | rfl | rfl
  · exact ⟨⟨by decide, by decide +kernel, by decide +kernel⟩, by decide⟩
  · exact ⟨⟨by decide, by decide⟩, ⟨by decide, by decide⟩, ⟨by decide, by decide⟩, by decide, by decide,
      ⟨by decide, by decide +kernel, by decide +kernel⟩⟩
  · exact ⟨⟨by decide, by decide, by decide, by decide⟩, by decide, ⟨by decide +kernel, by decide⟩,
      ⟨by decide, by decide +kernel, by decide +kernel⟩⟩
  · exact ⟨⟨by decide, by decide⟩, ⟨by decide, by decide⟩, ⟨by decide, by decide⟩, by decide, by decide,
      ⟨by decide, by decide +kernel, by decide +kernel⟩⟩
  · exact ⟨⟨by decide, by decide⟩, ⟨by decide, by decide⟩, ⟨by decide, by decide⟩, by decide, by decide, by decide, by decide,
      by decide, by decide, ⟨by decide, by decide +kernel, by decide +kernel⟩⟩
  · exact ⟨⟨by decide, by decide⟩, ⟨by decide, by decide⟩, by decide, by decide, by decide, by decide,
      ⟨by decide, by decide +kernel, by decide +kernel⟩⟩
  · exact ⟨⟨by decide, by decide⟩, ⟨by decide, by decide⟩, by decide, by decide, by decide, by decide⟩
  · exact ⟨⟨by decide, by decide, by decide, by decide⟩, by decide, ⟨by decide, by decide, by decide, by decide⟩, by decide,
      ⟨by decide, by decide +kernel, by decide +kernel⟩⟩

example : getDependencies (fun p => p == "gen.hpp".toList)
    "#include <vector>\n/* #include <no> */\n # include\"a b.hpp\"\n#if X\n#include \"gen.hpp\"\n#endif\n\n#include <y>\n".toList =
    [("vector".toList, .system), ("a b.hpp".toList, .project), ("gen.hpp".toList, .generated), ("y".toList, .system)] := by
  decide +kernel

end Examples

end Maike.Loaders.Inc
