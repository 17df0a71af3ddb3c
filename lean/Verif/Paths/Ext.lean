import Verif.Fs.Path
import Verif.Text.Enums

/-!
# Filename extensions

Model of `getFullExtension` (core/utils/fs.cpp), `matchLongestExtension` (core/utils/fs.hpp) and of `makeTargetName`
(core/source_file_info_loaders/generic/source_file_loader.cpp).
-/

namespace Maike.Paths

open Fs

/-! ## Model -/

theorem splitExt_lt (f : Str) (h : (splitExt f).2 ≠ []) : (splitExt f).1.length < f.length := by
  unfold splitExt at h ⊢
  split
  · rename_i hc; rw [if_pos hc] at h; exact absurd rfl h
  · rename_i hc
    rw [if_neg hc] at h
    dsimp only at h ⊢
    have hlen : (f.reverse.takeWhile (· ≠ '.')).length ≤ f.length := by
      have := (List.takeWhile_prefix (fun c => decide (c ≠ '.')) (l := f.reverse)).length_le
      simpa using this
    split at h
    · exact absurd rfl h
    · rename_i h1
      rw [if_neg h1]
      split at h
      · exact absurd rfl h
      · rename_i h2
        rw [if_neg h2]
        simp only [List.length_reverse] at h1 h2 ⊢
        rw [List.length_take]
        omega

/-- `getFullExtension`, core/utils/fs.cpp:68-76, applied to a path with the given file name (`stem` and `extension` depend on nothing
else, [fs.path.decompose]). -/
def fullExtension (f : Str) : Str :=
  if (splitExt f).2 = [] then [] else fullExtension (splitExt f).1 ++ (splitExt f).2
termination_by f.length
decreasing_by exact splitExt_lt f (by assumption)

/-- The loop of `matchLongestExtension`, core/utils/fs.hpp:35-45. The dictionary is given as a function; the result is the key that has
been found and what it is mapped to. -/
def searchExt {L : Type} (dict : Str → Option L) : Str → Option (Str × L)
  | [] => none
  | c :: s =>
    if c = '.' then
      match dict (c :: s) with
      | some l => some (c :: s, l)
      | none => searchExt dict s
    else searchExt dict s

/-- `matchLongestExtension`, core/utils/fs.hpp:28-46, for a path with the given file name. -/
def matchLongestExtension {L : Type} (f : Str) (dict : Str → Option L) : Option (Str × L) := searchExt dict (fullExtension f)

/-- `path::replace_extension`, [fs.path.modifiers], applied to a file name. -/
def replaceExtension (f ext : Str) : Str :=
  (splitExt f).1 ++ (if ext = [] ∨ ext.head? = some '.' then ext else '.' :: ext)

/-- `makeTargetName`, core/source_file_info_loaders/generic/source_file_loader.cpp:33-44, as it is called by `filterInput`
(core/source_file_info_loaders/generic/source_file_loader.cpp:46-59): with a file name. -/
def genericTargetName (f ext : Str) : Text.ExtMode → Str
  | .append => f ++ ext
  | .replace => replaceExtension f ext

/-! ## Specification -/

/-- `s` is an extension of the file name `f`: it begins with a dot, something is in front of it, and that is not just a dot followed by
another dot (names like `..`, which do not consist of a stem and an extension). -/
def ExtOf (f s : Str) : Prop :=
  ∃ stem, f = stem ++ s ∧ s.head? = some '.' ∧ stem ≠ [] ∧ ¬ (stem = ['.'] ∧ (s = ['.'] ∨ ['.', '.'] <+: s))

/-- `s` is the last extension: it has only one dot. -/
def LastExt (f s : Str) : Prop := ExtOf f s ∧ '.' ∉ s.tail

/-! ## Lemmas -/

theorem splitExt_append (f : Str) : (splitExt f).1 ++ (splitExt f).2 = f := by
  unfold splitExt
  split
  · simp
  · dsimp only
    split
    · simp
    · split
      · simp
      · rename_i hc h1 h2
        have hp := List.takeWhile_append_dropWhile (p := fun c => decide (c ≠ '.')) (l := f.reverse)
        generalize ht : f.reverse.takeWhile (fun c => decide (c ≠ '.')) = t at hp h1 h2
        cases hd : f.reverse.dropWhile (fun c => decide (c ≠ '.')) with
        | nil =>
          rw [hd, List.append_nil] at hp
          have := congrArg List.length hp
          simp at this h1
          omega
        | cons c d =>
          have hc : c = '.' := by
            have := List.head_dropWhile_not (p := fun c => decide (c ≠ '.')) (l := f.reverse) (by rw [hd]; simp)
            simp only [hd, List.head_cons] at this
            simpa using this
          rw [hd, hc] at hp
          have hf : f = d.reverse ++ '.' :: t.reverse := by
            have := congrArg List.reverse hp
            simpa using this.symm
          have hlen : f.length = d.length + 1 + t.length := by rw [hf]; simp; omega
          rw [show f.length - t.reverse.length - 1 = d.reverse.length from by simp; omega]
          conv => lhs; lhs; rw [hf]
          rw [List.take_left]
          exact hf.symm

/-- There is an extension: it is what follows the last dot. -/
theorem splitExt_some (f : Str) (h : (splitExt f).2 ≠ []) :
    ∃ r, (splitExt f).2 = '.' :: r ∧ '.' ∉ r ∧ (splitExt f).1 ≠ [] ∧ f ≠ dotdot := by
  have happ := splitExt_append f
  unfold splitExt at h happ ⊢
  split
  · rename_i hc; rw [if_pos hc] at h; exact absurd rfl h
  · rename_i hc
    rw [if_neg hc] at h happ
    dsimp only at h happ ⊢
    split at h
    · exact absurd rfl h
    · rename_i h1
      rw [if_neg h1] at happ ⊢
      split at h
      · exact absurd rfl h
      · rename_i h2
        rw [if_neg h2] at happ ⊢
        refine ⟨_, rfl, ?_, ?_, fun e => hc (.inr e)⟩
        · intro hm
          rw [List.mem_reverse] at hm
          have : ∀ (l : Str) c, c ∈ l.takeWhile (fun c => decide (c ≠ '.')) → c ≠ '.' := by
            intro l c hc
            induction l with
            | nil => simp at hc
            | cons a l ih =>
              rw [List.takeWhile_cons] at hc
              split at hc
              · rename_i ha
                rcases List.mem_cons.mp hc with rfl | hc
                · simpa using ha
                · exact ih hc
              · cases hc
          exact this _ _ hm rfl
        · intro e
          rw [e] at happ
          have := congrArg List.length happ
          simp at this h2
          omega

/-- There is no extension. -/
theorem splitExt_none (f : Str) (h : (splitExt f).2 = []) : f = dot ∨ f = dotdot ∨ ∀ a b, f = a ++ '.' :: b → a = [] := by
  unfold splitExt at h
  split at h
  · rename_i hc; rcases hc with hc | hc <;> simp [hc]
  · right; right
    dsimp only at h
    intro a b e
    have hrev : f.reverse = b.reverse ++ '.' :: a.reverse := by rw [e]; simp
    have key : (f.reverse.takeWhile (fun c => decide (c ≠ '.'))).length ≤ b.length := by
      rw [hrev]
      have : ∀ (l m : Str), ((l ++ '.' :: m).takeWhile (fun c => decide (c ≠ '.'))).length ≤ l.length := by
        intro l m
        induction l with
        | nil => simp
        | cons x l ih =>
          rw [List.cons_append, List.takeWhile_cons]
          split
          · simpa using ih
          · simp
      simpa using this b.reverse a.reverse
    have hlen : f.length = a.length + (b.length + 1) := by rw [e]; simp
    split at h
    · rename_i h1
      simp only [List.length_reverse] at h1
      omega
    · split at h
      · rename_i h1 h2
        simp only [List.length_reverse] at h1 h2
        have : a.length = 0 := by omega
        simpa using this
      · simp at h

theorem suffix_append_iff (s a b : Str) : s <:+ a ++ b ↔ s <:+ b ∨ ∃ t, t ≠ [] ∧ t <:+ a ∧ s = t ++ b := by
  constructor
  · rintro ⟨u, hu⟩
    rw [List.append_eq_append_iff] at hu
    rcases hu with ⟨c, h1, h2⟩ | ⟨c, h1, h2⟩
    · by_cases hc : c = []
      · subst hc; left; rw [show s = b from by simpa using h2]; exact List.suffix_refl _
      · exact .inr ⟨c, hc, ⟨u, h1.symm⟩, h2⟩
    · exact .inl ⟨c, h2.symm⟩
  · rintro (h | ⟨t, _, ⟨u, hu⟩, rfl⟩)
    · exact h.trans (List.suffix_append _ _)
    · exact ⟨u, by rw [← hu]; simp⟩

/-- Suffixes of a string with one dot, at the beginning. -/
theorem suffix_single {r s : Str} (hr : '.' ∉ r) (h : s <:+ '.' :: r) (hs : s.head? = some '.') : s = '.' :: r := by
  rcases List.suffix_cons_iff.mp h with h | h
  · exact h
  · exfalso
    cases s with
    | nil => simp at hs
    | cons c s =>
      simp only [List.head?_cons, Option.some.injEq] at hs
      subst hs
      exact hr (h.subset (by simp))

/-- The suffixes of the full extension which begin with a dot are the extensions of the file name. -/
theorem fullExtension_iff (f s : Str) : (s <:+ fullExtension f ∧ s.head? = some '.') ↔ ExtOf f s := by
  induction h : f.length using Nat.strongRecOn generalizing f s with
  | _ n ih =>
    subst h
    rw [fullExtension]
    by_cases he : (splitExt f).2 = []
    · rw [if_pos he]
      constructor
      · rintro ⟨h1, h2⟩
        rw [List.suffix_nil.mp h1] at h2
        simp at h2
      · rintro ⟨stem, hf, hs, hne, hexc⟩
        exfalso
        cases s with
        | nil => simp at hs
        | cons c s =>
          simp only [List.head?_cons, Option.some.injEq] at hs
          subst hs
          rcases splitExt_none f he with h | h | h
          · rw [h] at hf
            have := congrArg List.length hf
            cases stem with
            | nil => exact hne rfl
            | cons => simp [dot] at this
          · rw [h] at hf
            cases stem with
            | nil => exact hne rfl
            | cons d stem =>
              have hl := congrArg List.length hf
              have : stem = [] ∧ s = [] := by
                cases stem <;> cases s <;> simp [dotdot] at hl ⊢
              obtain ⟨rfl, rfl⟩ := this
              simp only [dotdot, List.cons_append, List.nil_append, List.cons.injEq, and_true] at hf
              exact hexc ⟨by rw [hf], .inl rfl⟩
          · exact hne (h _ _ hf)
    · rw [if_neg he]
      obtain ⟨r, hr, hdot, hst, hndd⟩ := splitExt_some f he
      have happ := splitExt_append f
      rw [hr] at happ ⊢
      have hlt := splitExt_lt f he
      generalize (splitExt f).1 = st at *
      have ih' := fun t => ih st.length hlt st t rfl
      constructor
      · rintro ⟨h1, h2⟩
        rcases (suffix_append_iff _ _ _).mp h1 with h1 | ⟨t, ht, h3, rfl⟩
        · have := suffix_single hdot h1 h2
          subst this
          refine ⟨st, happ.symm, rfl, hst, ?_⟩
          rintro ⟨h4, h5⟩
          rcases h5 with h5 | h5
          · rw [h4, h5] at happ; exact hndd happ.symm
          · cases r with
            | nil => have := h5.length_le; simp at this
            | cons c r =>
              have := (List.cons_prefix_cons.mp (List.cons_prefix_cons.mp h5).2).1
              subst this
              exact hdot (by simp)
        · have ht2 : t.head? = some '.' := by
            cases t with
            | nil => exact absurd rfl ht
            | cons c t => simpa using h2
          obtain ⟨stem, hf, _, hne, hexc⟩ := (ih' t).mp ⟨h3, ht2⟩
          refine ⟨stem, by rw [← happ, hf]; simp, h2, hne, ?_⟩
          rintro ⟨h4, h5⟩
          apply hexc
          refine ⟨h4, ?_⟩
          cases t with
          | nil => exact absurd rfl ht
          | cons c t =>
            simp only [List.head?_cons, Option.some.injEq] at ht2
            subst ht2
            cases t with
            | nil => exact .inl rfl
            | cons d t =>
              right
              rcases h5 with h5 | h5
              · have := congrArg List.length h5; simp at this
              · have := (List.cons_prefix_cons.mp (List.cons_prefix_cons.mp h5).2).1
                subst this
                exact ⟨t, rfl⟩
      · rintro ⟨stem, hf, hs, hne, hexc⟩
        refine ⟨?_, hs⟩
        rw [suffix_append_iff]
        have hf' := hf
        rw [← happ, List.append_eq_append_iff] at hf'
        rcases hf' with ⟨c, h1, h2⟩ | ⟨c, h1, h2⟩
        · -- stem = st ++ c, so c is empty
          have : c = [] := by
            cases c with
            | nil => rfl
            | cons d c =>
              exfalso
              simp only [List.cons_append, List.cons.injEq] at h2
              cases s with
              | nil => simp at hs
              | cons e s =>
                simp only [List.head?_cons, Option.some.injEq] at hs
                subst hs
                exact hdot (by rw [h2.2]; simp)
          subst this
          left
          simp only [List.nil_append] at h2
          rw [h2]
          exact List.suffix_refl _
        · -- st = stem ++ c, s = c ++ ext
          by_cases hc : c = []
          · subst hc
            left
            simp only [List.nil_append] at h2
            rw [h2]
            exact List.suffix_refl _
          · right
            refine ⟨c, hc, ?_, h2⟩
            have hc2 : c.head? = some '.' := by
              cases c with
              | nil => exact absurd rfl hc
              | cons d c => rw [h2] at hs; simpa using hs
            refine ((ih' c).mpr ⟨stem, h1, hc2, hne, ?_⟩).1
            rintro ⟨h4, h5⟩
            apply hexc
            refine ⟨h4, .inr ?_⟩
            rw [h2]
            rcases h5 with h5 | h5
            · rw [h5]; exact ⟨r, rfl⟩
            · exact h5.trans (List.prefix_append _ _)

theorem searchExt_some {L : Type} (dict : Str → Option L) (e s : Str) (l : L) (h : searchExt dict e = some (s, l)) :
    s <:+ e ∧ s.head? = some '.' ∧ dict s = some l ∧
      ∀ s', s' <:+ e → s'.head? = some '.' → (dict s').isSome → s'.length ≤ s.length := by
  induction e with
  | nil => cases h
  | cons c e ih =>
    unfold searchExt at h
    have lift : (s <:+ e ∧ s.head? = some '.' ∧ dict s = some l ∧
        ∀ s', s' <:+ e → s'.head? = some '.' → (dict s').isSome → s'.length ≤ s.length) →
        (c = '.' → dict (c :: e) = none) →
        s <:+ c :: e ∧ s.head? = some '.' ∧ dict s = some l ∧
        ∀ s', s' <:+ c :: e → s'.head? = some '.' → (dict s').isSome → s'.length ≤ s.length := by
      rintro ⟨h1, h2, h3, h4⟩ hn
      refine ⟨h1.trans (List.suffix_cons _ _), h2, h3, ?_⟩
      intro s' hs' hd hsome
      rcases List.suffix_cons_iff.mp hs' with rfl | hs'
      · simp only [List.head?_cons, Option.some.injEq] at hd
        rw [hn hd] at hsome
        cases hsome
      · exact h4 s' hs' hd hsome
    split at h
    · rename_i hc
      split at h
      · rename_i l' hl
        cases h
        refine ⟨List.suffix_refl _, by simp [hc], hl, ?_⟩
        intro s' hs' _ _
        exact hs'.length_le
      · rename_i hl
        exact lift (ih h) fun _ => hl
    · rename_i hc
      exact lift (ih h) fun h => absurd h hc

theorem searchExt_none {L : Type} (dict : Str → Option L) (e : Str) (h : searchExt dict e = none) (s : Str) (hs : s <:+ e)
    (hd : s.head? = some '.') : dict s = none := by
  induction e with
  | nil => rw [List.suffix_nil.mp hs] at hd; simp at hd
  | cons c e ih =>
    unfold searchExt at h
    split at h
    · rename_i hc
      split at h
      · cases h
      · rename_i hl
        rcases List.suffix_cons_iff.mp hs with rfl | hs
        · exact hl
        · exact ih h hs
    · rename_i hc
      rcases List.suffix_cons_iff.mp hs with rfl | hs
      · simp only [List.head?_cons, Option.some.injEq] at hd
        exact absurd hd hc
      · exact ih h hs

/-! ## Theorems -/

/-- **C44.** The loader registered for the longest extension is selected. -/
theorem C44_longest {L : Type} (f : Str) (dict : Str → Option L) (s : Str) (l : L) :
    matchLongestExtension f dict = some (s, l) ↔
      ExtOf f s ∧ dict s = some l ∧ ∀ s', ExtOf f s' → (dict s').isSome → s'.length ≤ s.length := by
  unfold matchLongestExtension
  have to : ∀ s l, searchExt dict (fullExtension f) = some (s, l) →
      ExtOf f s ∧ dict s = some l ∧ ∀ s', ExtOf f s' → (dict s').isSome → s'.length ≤ s.length := by
    intro s l h
    obtain ⟨h1, h2, h3, h4⟩ := searchExt_some _ _ _ _ h
    refine ⟨(fullExtension_iff f s).mp ⟨h1, h2⟩, h3, ?_⟩
    intro s' hs' hd
    obtain ⟨h5, h6⟩ := (fullExtension_iff f s').mpr hs'
    exact h4 s' h5 h6 hd
  constructor
  · exact to s l
  · rintro ⟨h1, h2, h3⟩
    cases h : searchExt dict (fullExtension f) with
    | none =>
      obtain ⟨h4, h5⟩ := (fullExtension_iff f s).mpr h1
      rw [searchExt_none _ _ h s h4 h5] at h2
      cases h2
    | some x =>
      obtain ⟨s', l'⟩ := x
      obtain ⟨h4, h5, h6⟩ := to s' l' h
      have hlen : s.length = s'.length := Nat.le_antisymm (h6 s h1 (by rw [h2]; rfl)) (h3 s' h4 (by rw [h5]; rfl))
      have : s = s' := by
        obtain ⟨a, ha, _⟩ := h1
        obtain ⟨b, hb, _⟩ := h4
        rw [ha] at hb
        exact (List.append_inj' hb hlen).2
      subst this
      rw [h2] at h5
      cases h5
      rfl

/-- **C44.** No loader is selected iff none is registered for an extension of the file name. -/
theorem C44_none {L : Type} (f : Str) (dict : Str → Option L) :
    matchLongestExtension f dict = none ↔ ∀ s, ExtOf f s → dict s = none := by
  constructor
  · intro h s hs
    obtain ⟨h1, h2⟩ := (fullExtension_iff f s).mpr hs
    exact searchExt_none _ _ h s h1 h2
  · intro h
    cases hm : matchLongestExtension f dict with
    | none => rfl
    | some x =>
      obtain ⟨s, l⟩ := x
      obtain ⟨h1, h2, _⟩ := (C44_longest f dict s l).mp hm
      rw [h s h1] at h2
      cases h2

/-- **C45.** In append mode different sources have different targets, and so do different extensions. -/
theorem C45_append (f f' ext : Str) :
    genericTargetName f ext .append = f ++ ext ∧
    (genericTargetName f ext .append = genericTargetName f' ext .append → f = f') := by
  refine ⟨rfl, ?_⟩
  intro h
  exact List.append_cancel_right h

/-- The extension in a form that begins with a dot. -/
def dotted (ext : Str) : Str := if ext = [] ∨ ext.head? = some '.' then ext else '.' :: ext

/-- **C45.** In replace mode the last extension is replaced, and nothing else; if there is none then the new extension is appended. -/
theorem C45_replace (f ext : Str) :
    (∀ stem s, f = stem ++ s → LastExt f s → genericTargetName f ext .replace = stem ++ dotted ext) ∧
    ((∀ s, ¬ ExtOf f s) → genericTargetName f ext .replace = f ++ dotted ext) := by
  have hg : genericTargetName f ext .replace = (splitExt f).1 ++ dotted ext := rfl
  rw [hg]
  have happ := splitExt_append f
  constructor
  · intro stem s hf hs
    -- the extension found is the last one
    have hne : (splitExt f).2 ≠ [] := by
      intro he
      have : fullExtension f = [] := by rw [fullExtension, if_pos he]
      have h := (fullExtension_iff f s).mpr hs.1
      rw [this] at h
      rw [List.suffix_nil.mp h.1] at h
      simp at h
    obtain ⟨r, hr, hdot, _, _⟩ := splitExt_some f hne
    rw [hr] at happ
    obtain ⟨⟨_, _, hhead, _⟩, htail⟩ := hs
    cases s with
    | nil => simp at hhead
    | cons c t =>
      simp only [List.head?_cons, Option.some.injEq] at hhead
      subst hhead
      simp only [List.tail_cons] at htail
      -- both decompositions end with the only dot after which there is none
      rw [← happ, List.append_eq_append_iff] at hf
      have : stem = (splitExt f).1 := by
        rcases hf with ⟨c, h1, h2⟩ | ⟨c, h1, h2⟩
        · cases c with
          | nil => simpa using h1
          | cons d c =>
            simp only [List.cons_append, List.cons.injEq] at h2
            exact absurd (by rw [h2.2]; simp) hdot
        · cases c with
          | nil => simpa using h1.symm
          | cons d c =>
            simp only [List.cons_append, List.cons.injEq] at h2
            exact absurd (by rw [h2.2]; simp) htail
      rw [this]
  · intro hn
    have he : (splitExt f).2 = [] := by
      apply Classical.byContradiction
      intro hne
      obtain ⟨r, hr, _, _, _⟩ := splitExt_some f hne
      refine hn _ ((fullExtension_iff f (splitExt f).2).mp ⟨?_, by rw [hr]; rfl⟩)
      rw [fullExtension, if_neg hne]
      exact List.suffix_append _ _
    rw [he, List.append_nil] at happ
    rw [happ]

/-- In replace mode different sources may have the same target. -/
theorem C45_replace_collision :
    genericTargetName "a.x".toList ".o".toList .replace = genericTargetName "a.y".toList ".o".toList .replace := by decide

section Examples

def exampleDict (s : Str) : Option Nat :=
  if s = ".cpp".toList then some 0 else if s = ".test.cpp".toList then some 1 else if s = ".gz".toList then some 2 else none

/-- `C44_longest` selects the longest extension in a name with several dots. -/
example : ExtOf "foo.bar.test.cpp".toList ".test.cpp".toList := ⟨"foo.bar".toList, by decide +kernel⟩
example : matchLongestExtension "foo.bar.test.cpp".toList exampleDict = some (".test.cpp".toList, 1) := by decide +kernel
example : matchLongestExtension "foo.test.tar.gz".toList exampleDict = some (".gz".toList, 2) := by decide +kernel
example : matchLongestExtension ".cpp".toList exampleDict = none := by decide +kernel
example : matchLongestExtension "..cpp".toList exampleDict = some (".cpp".toList, 0) := by decide +kernel
example : LastExt "a.tar.gz".toList ".gz".toList := ⟨⟨"a.tar".toList, by decide +kernel⟩, by decide +kernel⟩
example : genericTargetName "a.tar.gz".toList "xz".toList .replace = "a.tar.xz".toList := by decide +kernel

end Examples

end Maike.Paths
