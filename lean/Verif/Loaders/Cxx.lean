import Verif.Loaders.Ext

/-!
# Properties of the tag filter for C++
-/

namespace Maike.Loaders

/-- An automaton with output. -/
def run {σ β : Type} (step : σ → Char → σ × List β) : σ → List Char → σ × List β
  | s, [] => (s, [])
  | s, c :: cs => ((run step (step s c).1 cs).1, (step s c).2 ++ (run step (step s c).1 cs).2)

theorem run_append {σ β : Type} (step : σ → Char → σ × List β) (s : σ) (a b : List Char) :
    run step s (a ++ b) = ((run step (run step s a).1 b).1, (run step s a).2 ++ (run step (run step s a).1 b).2) := by
  induction a generalizing s with
  | nil => simp [run]
  | cons c a ih => simp [run, ih]

theorem Ordinary.tail {c : Char} {l : List Char} (h : Ordinary (c :: l)) :
    Ordinary l ∧ c ≠ '\n' ∧ (c = '/' → l.head? ≠ some '*') ∧ (c = 'R' → l.head? ≠ some '"') := by
  obtain ⟨h1, h2, h3⟩ := h
  simp only [List.mem_cons, not_or] at h1
  refine ⟨⟨h1.2, ?_, ?_⟩, fun e => h1.1 e.symm, ?_, ?_⟩
  · intro h; exact h2 (h.trans (List.suffix_cons _ _).isInfix)
  · intro h; exact h3 (h.trans (List.suffix_cons _ _).isInfix)
  · rintro rfl hh
    cases l with
    | nil => simp at hh
    | cons d l =>
      simp at hh; subst hh
      exact h2 ⟨[], l, rfl⟩
  · rintro rfl hh
    cases l with
    | nil => simp at hh
    | cons d l =>
      simp at hh; subst hh
      exact h3 ⟨[], l, rfl⟩

theorem Simple.tail {c : Char} {l : List Char} (h : Simple (c :: l)) :
    Simple l ∧ c ≠ '\n' ∧ c ≠ '/' ∧ c ≠ '"' ∧ c ≠ 'R' := by
  obtain ⟨h1, h2, h3, h4⟩ := h
  simp only [List.mem_cons, not_or] at h1 h2 h3 h4
  exact ⟨⟨h1.2, h2.2, h3.2, h4.2⟩, fun e => h1.1 e.symm, fun e => h2.1 e.symm, fun e => h3.1 e.symm,
    fun e => h4.1 e.symm⟩

namespace Cxx

theorem loop_source (s : State) (input : List Char) : (loop s input).1 = input := by
  induction input generalizing s with
  | nil => rfl
  | cons c cs ih => simp [loop, ih]

theorem loop_tags (s : State) (input : List Char) : (loop s input).2 = (run step s input).2 := by
  induction input generalizing s with
  | nil => rfl
  | cons c cs ih => simp [loop, run, ih]

theorem step_newlines (s : State) (c : Char) : newlines (step s c).2 = newlines [c] := by
  obtain ⟨st, tag, mark⟩ := s
  by_cases hc : c = '\n'
  · subst hc
    cases st <;> simp [step, newlines, blank_newline]
  · cases st <;> simp only [step, newlines] <;> (repeat' split) <;> simp_all [newlines]

theorem run_newlines (s : State) (l : List Char) : newlines (run step s l).2 = newlines l := by
  induction l generalizing s with
  | nil => rfl
  | cons c l ih =>
    have h1 := step_newlines s c
    have h2 := ih (step s c).1
    simp only [newlines, run, List.count_append, List.count_cons, List.count_nil] at *
    omega

/-- Output that consists of blanks. -/
def AllBlank (l : List Char) : Prop := ∀ c ∈ l, blank c = true

theorem AllBlank.append {a b : List Char} (h1 : AllBlank a) (h2 : AllBlank b) : AllBlank (a ++ b) := by
  intro c hc
  rcases List.mem_append.mp hc with h | h
  · exact h1 c h
  · exact h2 c h

theorem allBlank_nil : AllBlank [] := by intro c hc; cases hc

/-- States in which the rest of the line is skipped. -/
def Skipping (st : St) (l : List Char) : Prop :=
  st = .skipLine ∨ (st = .commentFirstSkipLine ∧ l.head? ≠ some '*') ∨ (st = .rawStringBegin ∧ l.head? ≠ some '"')

theorem skip_run {l : List Char} (h : Ordinary l) (s : State) (hs : Skipping s.st l) :
    (run step s (l ++ ['\n'])).1.st = .newline ∧ (run step s (l ++ ['\n'])).2 = ['\n'] := by
  induction l generalizing s with
  | nil =>
    obtain ⟨st, tag, mark⟩ := s
    rcases hs with h | ⟨h, _⟩ | ⟨h, _⟩ <;> simp only at h <;> subst h <;> simp [run, step]
  | cons c l ih =>
    obtain ⟨ho, hn, h1, h2⟩ := h.tail
    obtain ⟨st, tag, mark⟩ := s
    have key : Skipping (step ⟨st, tag, mark⟩ c).1.st l ∧ (step ⟨st, tag, mark⟩ c).2 = [] := by
      rcases hs with h | ⟨h, hh⟩ | ⟨h, hh⟩ <;> simp only at h <;> subst h
      · simp only [step, hn, ↓reduceIte]
        by_cases hR : c = 'R'
        · simp [hR, Skipping, h2 hR]
        · by_cases hS : c = '/'
          · simp [hS, Skipping, h1 hS]
          · simp [hR, hS, Skipping]
      · simp only [List.head?_cons, ne_eq, Option.some.injEq] at hh
        simp [step, hh, hn, Skipping]
      · simp only [List.head?_cons, ne_eq, Option.some.injEq] at hh
        simp [step, hh, hn, Skipping]
    have := ih ho _ key.1
    simp only [List.cons_append, run, key.2, List.nil_append]
    exact this

theorem indent_run {l : List Char} (h : ∀ c ∈ l, blank c = true) (s : State) (hs : s.st = .newline) :
    run step s l = (s, l) := by
  induction l with
  | nil => rfl
  | cons c l ih =>
    have hb := h c (by simp)
    have hstep : step s c = (s, [c]) := by
      have h1 : c ≠ '/' := by rintro rfl; exact absurd hb (by decide)
      have h2 : c ≠ 'R' := by rintro rfl; exact absurd hb (by decide)
      simp [step, hs, h1, h2, hb]
    simp only [run, hstep, ih (fun x hx => h x (List.mem_cons_of_mem _ hx))]
    rfl

theorem tag_run {l : List Char} (h : '\n' ∉ l) (s : State) (hs : s.st = .tag) :
    (run step s (l ++ ['\n'])).1.st = .newline ∧ (run step s (l ++ ['\n'])).2 = l ++ ['\n'] := by
  induction l with
  | nil => simp [run, step, hs]
  | cons c l ih =>
    simp only [List.mem_cons, not_or] at h
    have hc : c ≠ '\n' := fun e => h.1 e.symm
    have hstep : step s c = (s, [c]) := by simp [step, hs, hc]
    have := ih h.2
    simp only [List.cons_append, run, hstep]
    exact ⟨this.1, by rw [this.2]; rfl⟩

/-- A line without a tag, read from its beginning. -/
theorem plain_run {l : List Char} (h : Ordinary l) (ht : ¬ ['/', '/', '@'] <+: trimmed l) (s : State)
    (hs : s.st = .newline) :
    (run step s (l ++ ['\n'])).1.st = .newline ∧ AllBlank (run step s (l ++ ['\n'])).2 := by
  induction l generalizing s with
  | nil =>
    refine ⟨by simp [run, step, hs, blank_newline], ?_⟩
    simp only [List.nil_append, run, step, hs]
    intro c hc
    simp [blank_newline] at hc
    subst hc; exact blank_newline
  | cons c l ih =>
    obtain ⟨ho, hn, h1, h2⟩ := h.tail
    have skip : ∀ s : State, Skipping s.st l →
        (run step s (l ++ ['\n'])).1.st = .newline ∧ AllBlank (run step s (l ++ ['\n'])).2 := by
      intro s hs
      obtain ⟨e1, e2⟩ := skip_run ho s hs
      refine ⟨e1, ?_⟩
      rw [e2]; intro c hc; simp at hc; subst hc; exact blank_newline
    have space : AllBlank [' '] := by intro c hc; simp at hc; subst hc; decide
    simp only [List.cons_append, run]
    by_cases hS : c = '/'
    · subst hS
      have hstep : step s '/' = ({ s with st := .commentFirst }, [' ']) := by simp [step, hs]
      rw [hstep]
      simp only
      suffices H : (run step { s with st := .commentFirst } (l ++ ['\n'])).1.st = .newline ∧
          AllBlank (run step { s with st := .commentFirst } (l ++ ['\n'])).2 from
        ⟨H.1, space.append H.2⟩
      cases l with
      | nil =>
        simp only [List.nil_append, run, step]
        refine ⟨by simp, ?_⟩
        intro c hc; simp at hc; subst hc; exact blank_newline
      | cons d l =>
        obtain ⟨ho', hn', h1', h2'⟩ := ho.tail
        simp only [List.cons_append, run]
        have hstar : d ≠ '*' := by
          rintro rfl; exact h1 rfl (by simp)
        have skip' : ∀ s : State, Skipping s.st l →
            (run step s (l ++ ['\n'])).1.st = .newline ∧ AllBlank (run step s (l ++ ['\n'])).2 := by
          intro s hs
          obtain ⟨e1, e2⟩ := skip_run ho' s hs
          refine ⟨e1, ?_⟩
          rw [e2]; intro c hc; simp at hc; subst hc; exact blank_newline
        by_cases hd : d = '/'
        · subst hd
          have hstep : step { s with st := .commentFirst } '/' = ({ s with st := .tagSymbol }, [' ']) := by simp [step]
          rw [hstep]
          simp only
          suffices H : (run step { s with st := .tagSymbol } (l ++ ['\n'])).1.st = .newline ∧
              AllBlank (run step { s with st := .tagSymbol } (l ++ ['\n'])).2 from
            ⟨H.1, space.append H.2⟩
          cases l with
          | nil =>
            simp only [List.nil_append, run, step]
            refine ⟨by simp, ?_⟩
            intro c hc; simp at hc; subst hc; exact blank_newline
          | cons e l =>
            obtain ⟨ho'', hn'', _, _⟩ := ho'.tail
            have he : e ≠ '@' := by
              rintro rfl
              apply ht
              have : blank '/' = false := by decide
              simp [trimmed, List.dropWhile_cons, this]
            have hstep : step { s with st := .tagSymbol } e = ({ s with st := .skipLine }, []) := by
              simp [step, he, hn'']
            simp only [List.cons_append, run, hstep, List.nil_append]
            obtain ⟨e1, e2⟩ := skip_run ho'' { s with st := .skipLine } (.inl rfl)
            refine ⟨e1, ?_⟩
            rw [e2]; intro c hc; simp at hc; subst hc; exact blank_newline
        · have hstep : step { s with st := .commentFirst } d = ({ s with st := .skipLine }, []) := by
            simp [step, hd, hstar, hn']
          rw [hstep]
          exact skip' _ (.inl rfl)
    · by_cases hR : c = 'R'
      · subst hR
        have hstep : step s 'R' = (⟨.rawStringBegin, [], []⟩, []) := by simp [step, hs]
        rw [hstep]
        exact skip _ (.inr (.inr ⟨rfl, h2 rfl⟩))
      · by_cases hb : blank c = true
        · have hstep : step s c = (s, [c]) := by simp [step, hs, hS, hR, hb]
          rw [hstep]
          have ht' : ¬ ['/', '/', '@'] <+: trimmed l := by
            intro hx; apply ht
            simpa [trimmed, List.dropWhile_cons, hb] using hx
          obtain ⟨e1, e2⟩ := ih ho ht' s hs
          refine ⟨e1, AllBlank.append ?_ e2⟩
          intro x hx; simp at hx; subst hx; exact hb
        · have hstep : step s c = ({ s with st := .skipLine }, []) := by simp [step, hs, hS, hR, hb]
          rw [hstep]
          exact skip _ (.inl rfl)

/-- Code before a comment or a literal. -/
theorem simple_run {l : List Char} (h : Simple l) (s : State) (hs : s.st = .newline ∨ s.st = .skipLine) :
    ((run step s l).1.st = .newline ∨ (run step s l).1.st = .skipLine) ∧ AllBlank (run step s l).2 := by
  induction l generalizing s with
  | nil => exact ⟨hs, allBlank_nil⟩
  | cons c l ih =>
    obtain ⟨hsim, hn, hS, _, hR⟩ := h.tail
    have key : ((step s c).1.st = .newline ∨ (step s c).1.st = .skipLine) ∧ AllBlank (step s c).2 := by
      rcases hs with hs | hs
      · by_cases hb : blank c = true
        · refine ⟨by simp [step, hs, hS, hR, hb], ?_⟩
          simp only [step, hs, hS, hR, hb]
          intro x hx; simp at hx; subst hx; exact hb
        · refine ⟨by simp [step, hs, hS, hR, hb], ?_⟩
          simp [step, hs, hS, hR, hb, allBlank_nil]
      · exact ⟨by simp [step, hs, hn, hS, hR], by simp [step, hs, hn, hS, hR, allBlank_nil]⟩
    obtain ⟨e1, e2⟩ := ih hsim (step s c).1 key.1
    exact ⟨e1, key.2.append e2⟩

theorem body_run {l : List Char} (h : ¬ ['*', '/'] <:+: l) (s : State)
    (hs : s.st = .commentBlock ∨ (s.st = .commentBlockPreEnd ∧ l.head? ≠ some '/')) :
    ((run step s l).1.st = .commentBlock ∨
      ((run step s l).1.st = .commentBlockPreEnd ∧ (l = [] ∧ s.st = .commentBlockPreEnd ∨ l.getLast? = some '*'))) ∧
    AllBlank (run step s l).2 := by
  induction l generalizing s with
  | nil =>
    refine ⟨?_, allBlank_nil⟩
    rcases hs with hs | ⟨hs, _⟩
    · exact .inl hs
    · exact .inr ⟨hs, .inl ⟨rfl, hs⟩⟩
  | cons c l ih =>
    have hl : ¬ ['*', '/'] <:+: l := fun hx => h (hx.trans (List.suffix_cons _ _).isInfix)
    have hnext : c = '*' → l.head? ≠ some '/' := by
      rintro rfl hh
      cases l with
      | nil => simp at hh
      | cons d l => simp at hh; subst hh; exact h ⟨[], l, rfl⟩
    have key : ((step s c).1.st = .commentBlock ∨ (c = '*' ∧ (step s c).1.st = .commentBlockPreEnd)) ∧
        AllBlank (step s c).2 := by
      rcases hs with hs | ⟨hs, hh⟩
      · by_cases hn : c = '\n'
        · subst hn
          refine ⟨.inl (by simp [step, hs]), ?_⟩
          simp only [step, hs]
          intro x hx; simp at hx; subst hx; exact blank_newline
        · by_cases hst : c = '*'
          · subst hst
            exact ⟨.inr ⟨rfl, by simp [step, hs]⟩, by simp [step, hs, allBlank_nil]⟩
          · exact ⟨.inl (by simp [step, hs, hn, hst]), by simp [step, hs, hn, hst, allBlank_nil]⟩
      · simp only [List.head?_cons, ne_eq, Option.some.injEq] at hh
        by_cases hn : c = '\n'
        · subst hn
          refine ⟨.inl (by simp [step, hs]), ?_⟩
          simp only [step, hs]
          intro x hx; simp at hx; subst hx; exact blank_newline
        · exact ⟨.inl (by simp [step, hs, hn, hh]), by simp [step, hs, hn, hh, allBlank_nil]⟩
    have hs' : (step s c).1.st = .commentBlock ∨ ((step s c).1.st = .commentBlockPreEnd ∧ l.head? ≠ some '/') := by
      rcases key.1 with h | ⟨h, h'⟩
      · exact .inl h
      · exact .inr ⟨h', hnext h⟩
    obtain ⟨e1, e2⟩ := ih hl _ hs'
    refine ⟨?_, key.2.append e2⟩
    rcases e1 with e1 | ⟨e1, e3⟩
    · exact .inl e1
    · refine .inr ⟨e1, .inr ?_⟩
      rcases e3 with ⟨rfl, e3⟩ | e3
      · rcases key.1 with h | ⟨h, _⟩
        · rw [h] at e3; cases e3
        · simp [h]
      · rw [List.getLast?_cons, e3]; rfl

theorem delim_run {l : List Char} (h : Delim l) (s : State) (hs : s.st = .rawStringTag) :
    run step s l = ({ s with tag := s.tag ++ l }, []) := by
  induction l generalizing s with
  | nil => simp [run]
  | cons c l ih =>
    obtain ⟨h1, h2, h3, h4⟩ := h
    simp only [List.mem_cons, not_or] at h1 h2 h3 h4
    have hstep : step s c = ({ s with tag := s.tag ++ [c] }, []) := by
      have e1 : c ≠ '\n' := fun e => h1.1 e.symm
      have e2 : c ≠ '(' := fun e => h2.1 e.symm
      simp [step, hs, e1, e2]
    have := ih ⟨h1.2, h2.2, h3.2, h4.2⟩ { s with tag := s.tag ++ [c] } hs
    simp only [run, hstep, List.nil_append, this]
    simp

theorem mark_run {l : List Char} (h : Delim l) (s : State) (hs : s.st = .rawStringPreEnd) :
    run step s l = ({ s with mark := s.mark ++ l }, []) := by
  induction l generalizing s with
  | nil => simp [run]
  | cons c l ih =>
    obtain ⟨h1, h2, h3, h4⟩ := h
    simp only [List.mem_cons, not_or] at h1 h2 h3 h4
    have hstep : step s c = ({ s with mark := s.mark ++ [c] }, []) := by
      have e1 : c ≠ '\n' := fun e => h1.1 e.symm
      have e2 : c ≠ '"' := fun e => h4.1 e.symm
      simp [step, hs, e1, e2]
    have := ih ⟨h1.2, h2.2, h3.2, h4.2⟩ { s with mark := s.mark ++ [c] } hs
    simp only [run, hstep, List.nil_append, this]
    simp

theorem raw_run {l : List Char} (h : ')' ∉ l) (s : State) (hs : s.st = .rawString) :
    (run step s l).1 = s ∧ AllBlank (run step s l).2 := by
  induction l with
  | nil => exact ⟨rfl, allBlank_nil⟩
  | cons c l ih =>
    simp only [List.mem_cons, not_or] at h
    have hc : c ≠ ')' := fun e => h.1 e.symm
    have key : (step s c).1 = s ∧ AllBlank (step s c).2 := by
      by_cases hn : c = '\n'
      · subst hn
        refine ⟨by simp [step, hs], ?_⟩
        simp only [step, hs]
        intro x hx; simp at hx; subst hx; exact blank_newline
      · exact ⟨by simp [step, hs, hn, hc], by simp [step, hs, hn, hc, allBlank_nil]⟩
    obtain ⟨e1, e2⟩ := ih h.2
    simp only [run, key.1]
    exact ⟨e1, key.2.append e2⟩

theorem comment_run {pre body post : List Char} (h1 : Simple pre) (h2 : CommentBody body) (h3 : Ordinary post)
    (s : State) (hs : s.st = .newline) :
    (run step s (Item.comment pre body post).render).1.st = .newline ∧
    AllBlank (run step s (Item.comment pre body post).render).2 := by
  have hr : (Item.comment pre body post).render =
      pre ++ (['/', '*'] ++ (body ++ (['*', '/'] ++ (post ++ ['\n'])))) := by
    simp [Item.render]
  rw [hr]
  obtain ⟨p1, p2⟩ := simple_run h1 s (.inl hs)
  rw [run_append]
  generalize hs1 : (run step s pre).1 = s1 at p1
  -- the beginning of the comment
  have hb : (run step s1 ['/', '*']).1.st = .commentBlock ∧ AllBlank (run step s1 ['/', '*']).2 := by
    rcases p1 with p1 | p1
    · refine ⟨by simp [run, step, p1], ?_⟩
      simp only [run, step, p1]
      intro x hx; simp at hx; subst hx; decide
    · exact ⟨by simp [run, step, p1], by simp [run, step, p1, allBlank_nil]⟩
  rw [run_append step s1]
  generalize hs2 : (run step s1 ['/', '*']).1 = s2 at hb
  obtain ⟨q1, q2⟩ := body_run h2.1 s2 (.inl hb.1)
  rw [run_append step s2]
  generalize hs3 : (run step s2 body).1 = s3 at q1
  have hs3' : s3.st = .commentBlock := by
    rcases q1 with q | ⟨_, ⟨_, q⟩ | q⟩
    · exact q
    · rw [hb.1] at q; cases q
    · exact absurd q h2.2
  have he : run step s3 ['*', '/'] = ({ s3 with st := .skipLine }, []) := by simp [run, step, hs3']
  rw [run_append step s3, he]
  obtain ⟨r1, r2⟩ := skip_run h3 { s3 with st := .skipLine } (.inl rfl)
  refine ⟨r1, p2.append (hb.2.append (q2.append (allBlank_nil.append ?_)))⟩
  rw [r2]; intro x hx; simp at hx; subst hx; exact blank_newline

theorem rawItem_run {pre delim body post : List Char} (h1 : Simple pre) (h2 : Delim delim) (h3 : ')' ∉ body)
    (h4 : Ordinary post) (s : State) (hs : s.st = .newline) :
    (run step s (Item.raw pre delim body post).render).1.st = .newline ∧
    AllBlank (run step s (Item.raw pre delim body post).render).2 := by
  have hr : (Item.raw pre delim body post).render =
      pre ++ (['R', '"'] ++ (delim ++ (['('] ++ (body ++ ([')'] ++ (delim ++ (['"'] ++ (post ++ ['\n'])))))))) := by
    simp [Item.render]
  rw [hr]
  obtain ⟨p1, p2⟩ := simple_run h1 s (.inl hs)
  rw [run_append]
  generalize hs1 : (run step s pre).1 = s1 at p1
  have hb : run step s1 ['R', '"'] = (⟨.rawStringTag, [], []⟩, []) := by
    rcases p1 with p1 | p1 <;> simp [run, step, p1]
  rw [run_append step s1, hb, run_append step _ delim, delim_run h2 _ rfl, run_append step _ ['(']]
  have hp : ∀ d : List Char, run step ⟨.rawStringTag, d, []⟩ ['('] = (⟨.rawString, d, []⟩, []) := by
    intro d; simp [run, step]
  simp only [List.nil_append, hp]
  obtain ⟨q1, q2⟩ := raw_run h3 ⟨.rawString, delim, []⟩ rfl
  rw [run_append step _ body, q1, run_append step _ [')']]
  have hp2 : run step ⟨.rawString, delim, []⟩ [')'] = (⟨.rawStringPreEnd, delim, []⟩, []) := by simp [run, step]
  rw [hp2, run_append step _ delim, mark_run h2 _ rfl, run_append step _ ['"']]
  have hp3 : run step ⟨.rawStringPreEnd, delim, delim⟩ ['"'] = (⟨.skipLine, delim, []⟩, []) := by simp [run, step]
  simp only [List.nil_append, hp3]
  obtain ⟨r1, r2⟩ := skip_run h4 ⟨.skipLine, delim, []⟩ (.inl rfl)
  refine ⟨r1, p2.append (q2.append ?_)⟩
  rw [r2]; intro x hx; simp at hx; subst hx; exact blank_newline

theorem item_run {it : Item} (h : it.WellFormed) (s : State) (hs : s.st = .newline) :
    (run step s it.render).1.st = .newline ∧ it.Contributes (run step s it.render).2 := by
  cases it with
  | tag indent text =>
    obtain ⟨⟨_, h1⟩, h2⟩ := h
    have hr : (Item.tag indent text).render = indent ++ (['/', '/', '@'] ++ (text ++ ['\n'])) := by simp [Item.render]
    have hb : run step s ['/', '/', '@'] = ({ s with st := .tag }, [' ', ' ', ' ']) := by simp [run, step, hs]
    obtain ⟨e1, e2⟩ := tag_run h2 { s with st := .tag } rfl
    rw [hr, run_append, indent_run h1 s hs, run_append, hb]
    exact ⟨e1, by simp [Item.Contributes, e2]⟩
  | plain l =>
    obtain ⟨e1, e2⟩ := plain_run h.1 h.2 s hs
    exact ⟨e1, e2, run_newlines _ _⟩
  | comment pre body post =>
    obtain ⟨e1, e2⟩ := comment_run h.1 h.2.1 h.2.2 s hs
    exact ⟨e1, e2, run_newlines _ _⟩
  | raw pre delim body post =>
    obtain ⟨e1, e2⟩ := rawItem_run h.1 h.2.1 h.2.2.1 h.2.2.2 s hs
    exact ⟨e1, e2, run_newlines _ _⟩

/-! ## Theorems -/

/-- **C40** (source). The source stream is a copy of the input. -/
theorem C40_source (input : List Char) : (filterInput input).1 = input := loop_source _ _

/-- **C40** (line numbers). The tag stream of each prefix of a file has as many newlines as that prefix. So everything
in the tag stream is on the line on which it is in the file. -/
theorem C40_newlines (input : List Char) : newlines (filterInput input).2 = newlines input := by
  rw [filterInput, loop_tags]
  exact run_newlines _ _

/-- The tag stream of a prefix is a prefix of the tag stream. -/
theorem C40_prefix (a b : List Char) : (filterInput a).2 <+: (filterInput (a ++ b)).2 := by
  rw [filterInput, filterInput, loop_tags, loop_tags, run_append]
  exact List.prefix_append _ _

/-- **C41.** For a file that consists of tag lines, ordinary lines, and lines with block comments or raw string literals: the tag
stream has the text of tag lines in the same columns, and nothing but blanks for the rest. In particular nothing leaks from
comments or literals, even if it looks like a tag. -/
theorem C41_tags (items : List Item) (h : ∀ it ∈ items, it.WellFormed) :
    ∃ outs : List (List Char), (filterInput (items.flatMap Item.render)).2 = outs.flatten ∧
      outs.length = items.length ∧
      ∀ (i : Nat) (it : Item) (out : List Char), items[i]? = some it → outs[i]? = some out → it.Contributes out := by
  rw [filterInput, loop_tags]
  suffices H : ∀ s : State, s.st = .newline →
      ∃ outs : List (List Char), (run step s (items.flatMap Item.render)).2 = outs.flatten ∧
        outs.length = items.length ∧
        ∀ (i : Nat) (it : Item) (out : List Char), items[i]? = some it → outs[i]? = some out →
          it.Contributes out from H {} rfl
  induction items with
  | nil => intro s _; exact ⟨[], rfl, rfl, by simp⟩
  | cons it items ih =>
    intro s hs
    obtain ⟨e1, e2⟩ := item_run (h it (by simp)) s hs
    obtain ⟨outs, h1, h2, h3⟩ := ih (fun x hx => h x (List.mem_cons_of_mem _ hx)) _ e1
    refine ⟨(run step s it.render).2 :: outs, ?_, by simp [h2], ?_⟩
    · rw [List.flatMap_cons, run_append]
      simp only [h1, List.flatten_cons]
    · intro i x out hx hout
      cases i with
      | zero => simp at hx hout; subst hx hout; exact e2
      | succ i => simp at hx hout; exact h3 i x out hx hout

/-! ## Findings -/

/-- C41 does not hold for all comments: a comment that ends with `**/` hides the rest of the file from the filter. -/
theorem C41_star_star_slash : (filterInput "/** x **/\n//@ {}\n".toList).2 = "\x20\n\n".toList := by decide

/-- C41 does not hold for line comments that contain `/*`: the filter sees the beginning of a block comment. -/
theorem C41_line_comment : (filterInput "// see a/*.cpp\n//@ {}\n".toList).2 = "\x20\x20\n\n".toList := by decide

/-- C41 does not hold for raw string literals that contain a closing parenthesis followed by something else on the line. -/
theorem C41_raw_paren : (filterInput "x = R\"(f();\n)\";\n//@ {}\n".toList).2 = "\n\n\n".toList := by decide

section Examples

example : ∀ it ∈ [Item.tag [] " {".toList, .plain "int x; // R".toList, .comment "int y; ".toList " //@ no\n//@ no".toList [],
    .raw "s = ".toList "ab".toList "\n//@ no\n".toList ";".toList, .tag "\t".toList "}".toList], it.WellFormed := by
  intro it hit
  simp only [List.mem_cons, List.not_mem_nil, or_false] at hit
  rcases hit with rfl | rfl | rfl | rfl | rfl
  · exact ⟨⟨by decide, by decide⟩, by decide⟩
  · exact ⟨⟨by decide, by decide +kernel, by decide +kernel⟩, by decide⟩
  · exact ⟨⟨by decide, by decide, by decide, by decide⟩, ⟨by decide +kernel, by decide⟩, ⟨by decide, by decide, by decide⟩⟩
  · exact ⟨⟨by decide, by decide, by decide, by decide⟩, ⟨by decide, by decide, by decide, by decide⟩, by decide,
      ⟨by decide, by decide, by decide⟩⟩
  · exact ⟨⟨by decide, by decide⟩, by decide⟩

example : (filterInput "//@ {\nint x; // R\n/* //@ no\n//@ no*/\n\t//@ }\n".toList).2 =
    "    {\n\n \n\n\t    }\n".toList := by decide +kernel

end Examples

end Cxx

end Maike.Loaders
