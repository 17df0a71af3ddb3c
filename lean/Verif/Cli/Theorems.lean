import Verif.Cli.Model

/-!
# The command line: specification and theorems
-/

namespace Maike.Cli

open Fs (Str lexLt charLt strLt strLt_irrefl strLt_trans strLt_tri charLt_irrefl charLt_trans charLt_tri)

variable {V : Type}

/-! ## Specification -/

/-- Argument `str` selects option `o`: the text before `=` is a prefix of the name of `o`, and among the options for which that is so the
name of `o` comes first in the alphabetical order. -/
structure Selects (opts : List (Opt V)) (str : Str) (o : Opt V) : Prop where
  mem : o ∈ opts
  isPrefix : argName str <+: o.name
  first : ∀ o' ∈ opts, argName str <+: o'.name → strLt o'.name o.name = false

/-- Names are different, and so are the indices. -/
structure Proper (opts : List (Opt V)) : Prop where
  names : (opts.map (·.name)).Nodup
  indices : (opts.map (·.index)).Nodup

/-- A list of names as it has to be written on the command line: commas and backslashes are preceded by a backslash, and names are
separated by commas. -/
def escape : Str → Str
  | [] => []
  | c :: s => if c = ',' ∨ c = '\\' then '\\' :: c :: escape s else c :: escape s

def writeList : List Str → Str
  | [] => []
  | [a] => escape a
  | a :: b :: l => escape a ++ ',' :: writeList (b :: l)

/-! ## Sorting -/

theorem mem_insertBack {α : Type} (cmp : α → α → Bool) (x y : α) (l : List α) : y ∈ insertBack cmp x l ↔ y = x ∨ y ∈ l := by
  induction l with
  | nil => simp [insertBack]
  | cons a l ih =>
    unfold insertBack
    split
    · simp only [List.mem_cons, ih]
      constructor
      · rintro (h | h | h) <;> simp [h]
      · rintro (h | h | h) <;> simp [h]
    · simp

theorem mem_foldl_insertBack {α : Type} (cmp : α → α → Bool) (y : α) (l acc : List α) :
    y ∈ l.foldl (fun acc x => insertBack cmp x acc) acc ↔ y ∈ l ∨ y ∈ acc := by
  induction l generalizing acc with
  | nil => simp
  | cons a l ih =>
    rw [List.foldl_cons, ih, mem_insertBack]
    simp only [List.mem_cons]
    constructor
    · rintro (h | h | h) <;> simp [h]
    · rintro ((h | h) | h) <;> simp [h]

theorem mem_sort {α : Type} (cmp : α → α → Bool) (y : α) (l : List α) : y ∈ sort cmp l ↔ y ∈ l := by
  simp [sort, mem_foldl_insertBack]

theorem insertBack_sorted {α : Type} (cmp : α → α → Bool)
    (tri : ∀ a b c, cmp a b = false → cmp b c = false → cmp a c = false)
    (asym : ∀ a b, cmp a b = true → cmp b a = false) (x : α) (l : List α)
    (h : l.Pairwise fun a b => cmp a b = false) : (insertBack cmp x l).Pairwise fun a b => cmp a b = false := by
  induction l with
  | nil => simp [insertBack]
  | cons a l ih =>
    obtain ⟨h1, h2⟩ := List.pairwise_cons.mp h
    unfold insertBack
    split
    · rename_i hc
      refine List.pairwise_cons.mpr ⟨?_, ih h2⟩
      intro b hb
      rcases (mem_insertBack cmp x b l).mp hb with rfl | hb
      · exact asym _ _ hc
      · exact h1 b hb
    · rename_i hc
      have hc : cmp x a = false := by simpa using hc
      refine List.pairwise_cons.mpr ⟨?_, h⟩
      intro b hb
      rcases List.mem_cons.mp hb with rfl | hb
      · exact hc
      · exact tri _ _ _ hc (h1 b hb)

theorem sort_sorted {α : Type} (cmp : α → α → Bool)
    (tri : ∀ a b c, cmp a b = false → cmp b c = false → cmp a c = false)
    (asym : ∀ a b, cmp a b = true → cmp b a = false) (l : List α) :
    (sort cmp l).Pairwise fun a b => cmp b a = false := by
  unfold sort
  rw [List.pairwise_reverse]
  have : ∀ acc : List α, (acc.Pairwise fun a b => cmp a b = false) →
      (l.foldl (fun acc x => insertBack cmp x acc) acc).Pairwise fun a b => cmp a b = false := by
    induction l with
    | nil => exact fun acc h => h
    | cons a l ih => exact fun acc h => ih _ (insertBack_sorted cmp tri asym a acc h)
  exact this [] List.Pairwise.nil

theorem strLt_asym (a b : Str) (h : strLt a b = true) : strLt b a = false := by
  cases hb : strLt b a with
  | false => rfl
  | true =>
    have := strLt_trans _ _ _ h hb
    rw [strLt_irrefl] at this
    cases this

/-- `¬ a < b` is transitive. -/
theorem strLt_neg_trans (a b c : Str) (h1 : strLt a b = false) (h2 : strLt b c = false) : strLt a c = false := by
  cases h : strLt a c with
  | false => rfl
  | true =>
    cases h3 : strLt b a with
    | true =>
      rw [strLt_trans _ _ _ h3 h] at h2
      cases h2
    | false =>
      have := strLt_tri _ _ h1 h3
      subst this
      rw [h] at h2
      cases h2

theorem optionNames_sorted (opts : List (Opt V)) :
    (optionNames opts).Pairwise fun a b => strLt b.name a.name = false :=
  sort_sorted _ (fun a b c => strLt_neg_trans a.name b.name c.name) (fun a b => strLt_asym a.name b.name) opts

theorem mem_optionNames (opts : List (Opt V)) (o : Opt V) : o ∈ optionNames opts ↔ o ∈ opts := mem_sort _ _ _

/-! ## Searching -/

theorem lowerBound_spec {α : Type} (less : α → Bool) (l : List α)
    (mono : ∀ i j (hij : i ≤ j) (hj : j < l.length), less l[j] = true → less (l[i]'(by omega)) = true) (first len : Nat)
    (hle : first + len ≤ l.length)
    (hbefore : ∀ i (_ : i < first), less (l[i]'(by omega)) = true)
    (hafter : ∀ i (_ : first + len ≤ i) (hl : i < l.length), less l[i] = false) :
    ∃ k, lowerBound less l first len = k ∧ k ≤ l.length ∧ (∀ i (_ : i < k) (hl : i < l.length), less l[i] = true) ∧
      ∀ i (_ : k ≤ i) (hl : i < l.length), less l[i] = false := by
  induction len using Nat.strongRecOn generalizing first with
  | _ len ih =>
    unfold lowerBound
    split
    · rename_i h
      subst h
      exact ⟨first, rfl, by omega, fun i hi _ => hbefore i hi, fun i hi hl => hafter i (by omega) hl⟩
    · rename_i h
      have hlt : first + len / 2 < l.length := by omega
      simp only [List.getElem?_eq_getElem hlt]
      split
      · rename_i hless
        refine ih (len - len / 2 - 1) (by omega) (first + len / 2 + 1) (by omega) ?_ ?_
        · intro i hi
          exact mono i (first + len / 2) (by omega) hlt hless
        · intro i hi hl
          exact hafter i (by omega) hl
      · rename_i hless
        refine ih (len / 2) (by omega) first (by omega) hbefore ?_
        intro i hi hl
        cases hi' : less l[i] with
        | false => rfl
        | true => exact absurd (mono (first + len / 2) i hi hl hi') hless

theorem lexLt_take {α : Type} {lt : α → α → Bool} (n : Nat) (a b : List α) (h : lexLt lt a b = false) : lexLt lt (a.take n) (b.take n) = false := by
  induction n generalizing a b with
  | zero => simp [lexLt]
  | succ n ih =>
    cases a with
    | nil =>
      cases b with
      | nil => simp [lexLt]
      | cons y b => simp [lexLt] at h
    | cons x a =>
      cases b with
      | nil => simp [lexLt]
      | cons y b =>
        simp only [lexLt] at h
        simp only [List.take_succ_cons, lexLt]
        split at h
        · cases h
        · rename_i h1
          rw [if_neg h1]
          split at h
          · rename_i h2; rw [if_pos h2]
          · rename_i h2
            rw [if_neg h2]
            exact ih _ _ h

theorem charLt_asym (a b : Char) (h : charLt a b = true) : charLt b a = false := by
  cases hb : charLt b a with
  | false => rfl
  | true =>
    have := charLt_trans _ _ _ h hb
    rw [charLt_irrefl] at this
    cases this

theorem strLt_take (n : Nat) (a b : Str) (h : strLt a b = false) : strLt (a.take n) (b.take n) = false :=
  lexLt_take n a b h

theorem argName_prefix (str : Str) : argName str <+: str := List.takeWhile_prefix _

theorem take_argName (str : Str) : str.take (argName str).length = argName str := by
  exact (List.prefix_iff_eq_take.mp (argName_prefix str)).symm

theorem take_eq_iff (a s : Str) : s.take a.length = a ↔ a <+: s := by
  rw [List.prefix_iff_eq_take]
  exact eq_comm

theorem inj_of_nodup_map {α β : Type} {f : α → β} {l : List α} (h : (l.map f).Nodup) {a b : α} (ha : a ∈ l) (hb : b ∈ l)
    (e : f a = f b) : a = b := by
  induction l with
  | nil => cases ha
  | cons c l ih =>
    rw [List.map_cons, List.nodup_cons] at h
    rcases List.mem_cons.mp ha with h1 | h1 <;> rcases List.mem_cons.mp hb with h2 | h2
    · rw [h1, h2]
    · exact absurd (List.mem_map.mpr ⟨b, h2, by rw [← e, h1]⟩) h.1
    · exact absurd (List.mem_map.mpr ⟨a, h1, by rw [e, h2]⟩) h.1
    · exact ih h.2 h1 h2

/-- What the binary search finds. -/
theorem binaryFind_iff {opts : List (Opt V)} (hp : Proper opts) (str : Str) (o : Opt V) :
    binaryFind (optionNames opts) str (argName str).length = some o ↔ Selects opts str o := by
  have hs := optionNames_sorted opts
  have hmem := mem_optionNames opts
  generalize optionNames opts = l at hs hmem
  have hs' : ∀ i j (hij : i ≤ j) (hj : j < l.length), strLt l[j].name (l[i]'(by omega)).name = false := by
    intro i j hij hj
    rcases Nat.lt_or_eq_of_le hij with h | h
    · exact (List.pairwise_iff_getElem.mp hs) i j (by omega) hj h
    · subst h; exact strLt_irrefl _
  let n := (argName str).length
  have hless : ∀ o : Opt V, strncmpLt n o.name str = strLt (o.name.take n) (argName str) := fun o => by
    unfold strncmpLt; rw [take_argName]
  have hless' : ∀ o : Opt V, strncmpLt n str o.name = strLt (argName str) (o.name.take n) := fun o => by
    unfold strncmpLt; rw [take_argName]
  have mono : ∀ i j (hij : i ≤ j) (hj : j < l.length),
      strncmpLt n l[j].name str = true → strncmpLt n (l[i]'(by omega)).name str = true := by
    intro i j hij hj h
    rw [hless] at h ⊢
    have h1 := strLt_take n _ _ (hs' i j hij hj)
    cases h2 : strLt ((l[i]'(by omega)).name.take n) (argName str) with
    | true => rfl
    | false =>
      have := strLt_neg_trans _ _ _ h1 h2
      rw [h] at this
      cases this
  obtain ⟨k, hk, hkl, hb, ha⟩ := lowerBound_spec (fun o => strncmpLt n o.name str) l mono 0 l.length (by omega)
    (fun i hi => by omega) (fun i hi hl => by omega)
  unfold binaryFind
  rw [hk]
  -- options that have the prefix are not before `k`
  have hprefix : ∀ i (hi : i < l.length), argName str <+: l[i].name → k ≤ i := by
    intro i hi hpre
    apply Nat.le_of_not_lt
    intro hlt
    have := hb i hlt hi
    rw [hless, (take_eq_iff _ _).mpr hpre, strLt_irrefl] at this
    cases this
  constructor
  · intro h
    by_cases hk' : k < l.length
    · rw [List.getElem?_eq_getElem hk'] at h
      simp only at h
      split at h
      · cases h
      · rename_i hn
        simp only [Option.some.injEq] at h
        have hn : strncmpLt n str l[k].name = false := by simpa using hn
        have h2 := ha k (Nat.le_refl _) hk'
        rw [hless'] at hn
        simp only [hless] at h2
        have heq := strLt_tri _ _ h2 hn
        refine ⟨(hmem _).mp (by rw [← h]; exact List.getElem_mem hk'), ?_, ?_⟩
        · rw [← h]; exact (take_eq_iff _ _).mp heq
        · intro o' ho' hpre
          obtain ⟨i, hi, rfl⟩ := List.getElem_of_mem ((hmem _).mpr ho')
          rw [← h]
          exact hs' k i (hprefix i hi hpre) hi
    · rw [List.getElem?_eq_none (by omega)] at h
      cases h
  · intro h
    obtain ⟨i, hi, e⟩ := List.getElem_of_mem ((hmem _).mpr h.mem)
    have hki := hprefix i hi (by rw [e]; exact h.isPrefix)
    have hk' : k < l.length := by omega
    rw [List.getElem?_eq_getElem hk']
    simp only
    -- the option at `k` has the prefix, too
    have h1 := strLt_take n _ _ (hs' k i hki hi)
    have h2 : l[i].name.take n = argName str := (take_eq_iff _ _).mpr (by rw [e]; exact h.isPrefix)
    rw [h2] at h1
    have h3 := ha k (Nat.le_refl _) hk'
    simp only [hless] at h3
    have heq := strLt_tri _ _ h3 h1
    rw [hless', heq, strLt_irrefl]
    simp only [Bool.false_eq_true, if_false, Option.some.injEq]
    have h4 := h.first l[k] ((hmem _).mp (List.getElem_mem hk')) ((take_eq_iff _ _).mp heq)
    have h5 := hs' k i hki hi
    rw [e] at h5
    have hname := strLt_tri _ _ h4 h5
    exact inj_of_nodup_map hp.names ((hmem _).mp (List.getElem_mem hk')) h.mem hname

theorem Selects.unique {opts : List (Opt V)} (hp : Proper opts) {str : Str} {o o' : Opt V} (h : Selects opts str o)
    (h' : Selects opts str o') : o = o' := by
  have h1 := (binaryFind_iff hp str o).mpr h
  have h2 := (binaryFind_iff hp str o').mpr h'
  rw [h1] at h2
  exact Option.some.inj h2

/-! ## Theorems -/

/-- **C51.** An option given by its full name is that option, even if the name is the beginning of the name of another option. -/
theorem C51_full (opts : List (Opt V)) (o : Opt V) (ho : o ∈ opts) (hn : '=' ∉ o.name) (v : Str) :
    Selects opts o.name o ∧ Selects opts (o.name ++ '=' :: v) o ∧ argValue o.name = [] ∧ argValue (o.name ++ '=' :: v) = v := by
  have hall : ∀ c ∈ o.name, decide (c ≠ '=') = true := fun c hc => by
    simp only [decide_eq_true_eq]
    rintro rfl
    exact hn hc
  have h1 : argName o.name = o.name := by
    have := List.takeWhile_append_of_pos (l₂ := []) hall
    simpa [argName] using this
  have h2 : argName (o.name ++ '=' :: v) = o.name := by
    unfold argName
    rw [List.takeWhile_append_of_pos hall]
    simp
  have hmin : ∀ o' ∈ opts, o.name <+: o'.name → strLt o'.name o.name = false := by
    rintro o' _ ⟨t, ht⟩
    rw [← ht]
    have : ∀ (a t : Str), strLt (a ++ t) a = false := by
      intro a t
      induction a with
      | nil => cases t <;> rfl
      | cons c a ih =>
        show lexLt charLt (c :: (a ++ t)) (c :: a) = false
        simp only [lexLt, charLt_irrefl, Bool.false_eq_true, if_false]
        exact ih
    exact this _ _
  refine ⟨⟨ho, by rw [h1]; exact List.prefix_refl _, by rw [h1]; exact hmin⟩,
    ⟨ho, by rw [h2]; exact List.prefix_refl _, by rw [h2]; exact hmin⟩, ?_, ?_⟩
  · unfold argValue
    have : o.name.dropWhile (fun c => decide (c ≠ '=')) = [] := by
      have := List.dropWhile_append_of_pos (l₂ := []) hall
      simpa using this
    rw [this]
    rfl
  · unfold argValue
    rw [List.dropWhile_append_of_pos hall]
    simp

theorem collectOne_eq {opts : List (Opt V)} (hp : Proper opts) (s s' : Collected V) (str : Str) :
    collectOne (optionNames opts) s str = some s' ↔
      (str = [] ∧ s' = s) ∨ (str ≠ [] ∧ ∃ o, Selects opts str o ∧ setOption o (argValue str) s = some s') := by
  unfold collectOne
  split
  · rename_i h
    simp [h, eq_comm]
  · rename_i h
    simp only [h, false_and, false_or, ne_eq, not_false_eq_true, true_and]
    cases hf : binaryFind (optionNames opts) str (argName str).length with
    | none =>
      simp only [reduceCtorEq, false_iff, not_exists, not_and]
      intro o ho
      rw [(binaryFind_iff hp str o).mpr ho] at hf
      cases hf
    | some o =>
      have ho := (binaryFind_iff hp str o).mp hf
      simp only
      constructor
      · exact fun h => ⟨o, ho, h⟩
      · rintro ⟨o', ho', h⟩
        rw [ho.unique hp ho']
        exact h

/-- **C51.** What is accepted: each argument that is not empty selects an option, has a value if one is required, and the value
can be converted. In particular an argument that is not the beginning of the name of any option is rejected. -/
theorem C51_accepted (opts : List (Opt V)) (hp : Proper opts) (args : List Str) :
    (collect opts args).isSome ↔
      ∀ str ∈ args, str ≠ [] → ∃ o, Selects opts str o ∧ (o.valueRequired → argValue str ≠ []) ∧ (o.convert (argValue str)).isSome := by
  unfold collect
  generalize Collected.init = s
  induction args generalizing s with
  | nil => simp [List.foldlM]
  | cons a args ih =>
    rw [List.foldlM_cons]
    cases hc : collectOne (optionNames opts) s a with
    | none =>
      simp only [Option.bind_eq_bind, Option.bind_none, Option.isSome_none, Bool.false_eq_true, false_iff]
      intro h
      have hne : a ≠ [] := by
        rintro rfl
        simp [collectOne] at hc
      obtain ⟨o, ho, hr, hv⟩ := h a (by simp) hne
      obtain ⟨v, hv⟩ := Option.isSome_iff_exists.mp hv
      have : collectOne (optionNames opts) s a = some _ := (collectOne_eq hp s _ a).mpr (.inr ⟨hne, o, ho, by
        unfold setOption
        rw [if_neg (fun h => hr h.1 h.2), hv]⟩)
      rw [hc] at this
      cases this
    | some s' =>
      simp only [Option.bind_eq_bind, Option.bind_some]
      rw [ih s']
      constructor
      · intro h str hstr
        rcases List.mem_cons.mp hstr with rfl | hstr
        · intro hne
          rcases (collectOne_eq hp s s' str).mp hc with ⟨h1, _⟩ | ⟨_, o, ho, hset⟩
          · exact absurd h1 hne
          · refine ⟨o, ho, ?_⟩
            unfold setOption at hset
            split at hset
            · cases hset
            · rename_i hr
              refine ⟨fun h1 h2 => hr ⟨h1, h2⟩, ?_⟩
              split at hset
              · cases hset
              · rename_i e; simp [e]
        · exact h str hstr
      · exact fun h str hstr => h str (List.mem_cons_of_mem _ hstr)

/-- **C51.** The effect: an option is set iff some argument selects it, and its value is that of the last argument that does so. -/
theorem C51_last (opts : List (Opt V)) (hp : Proper opts) (args : List Str) (s : Collected V) (h : collect opts args = some s)
    (o : Opt V) (ho : o ∈ opts) :
    (s.isSet o.index = true ↔ ∃ str ∈ args, str ≠ [] ∧ Selects opts str o) ∧
    (∀ before str after, args = before ++ str :: after → str ≠ [] → Selects opts str o →
      (∀ str' ∈ after, str' ≠ [] → ¬ Selects opts str' o) → s.value o.index = o.convert (argValue str)) ∧
    ((∀ str ∈ args, str ≠ [] → ¬ Selects opts str o) → s.value o.index = none) := by
  have hidx : ∀ o', o' ∈ opts → o'.index = o.index → o' = o := by
    intro o' ho' e
    exact inj_of_nodup_map hp.indices ho' ho e
  -- one argument
  have one : ∀ (s s' : Collected V) (str : Str), collectOne (optionNames opts) s str = some s' →
      ((str ≠ [] ∧ Selects opts str o) → s'.isSet o.index = true ∧ s'.value o.index = o.convert (argValue str)) ∧
      (¬ (str ≠ [] ∧ Selects opts str o) → s'.isSet o.index = s.isSet o.index ∧ s'.value o.index = s.value o.index) := by
    intro s s' str hc
    rcases (collectOne_eq hp s s' str).mp hc with ⟨h1, rfl⟩ | ⟨h1, o', ho', hset⟩
    · exact ⟨fun h => absurd h1 h.1, fun _ => ⟨rfl, rfl⟩⟩
    · unfold setOption at hset
      split at hset
      · cases hset
      · split at hset
        · cases hset
        · rename_i v hv
          simp only [Option.some.injEq] at hset
          subst hset
          constructor
          · rintro ⟨_, h2⟩
            have := h2.unique hp ho'
            subst this
            simp [hv]
          · intro h2
            have hne : ¬ o.index = o'.index := by
              intro e
              have := hidx o' ho'.mem e.symm
              subst this
              exact h2 ⟨h1, ho'⟩
            simp [hne]
  have main : ∀ (args : List Str) (s0 s : Collected V), args.foldlM (collectOne (optionNames opts)) s0 = some s →
      (s.isSet o.index = true ↔ s0.isSet o.index = true ∨ ∃ str ∈ args, str ≠ [] ∧ Selects opts str o) ∧
      (∀ before str after, args = before ++ str :: after → str ≠ [] → Selects opts str o →
        (∀ str' ∈ after, str' ≠ [] → ¬ Selects opts str' o) → s.value o.index = o.convert (argValue str)) ∧
      ((∀ str ∈ args, str ≠ [] → ¬ Selects opts str o) → s.value o.index = s0.value o.index) := by
    intro args
    induction args with
    | nil =>
      intro s0 s h
      simp only [List.foldlM_nil, Option.pure_def, Option.some.injEq] at h
      subst h
      refine ⟨by simp, ?_, fun _ => rfl⟩
      intro before str after h
      have := congrArg List.length h
      simp at this
    | cons a args ih =>
      intro s0 s h
      rw [List.foldlM_cons] at h
      cases hc : collectOne (optionNames opts) s0 a with
      | none => rw [hc] at h; cases h
      | some s1 =>
        rw [hc] at h
        simp only [Option.bind_eq_bind, Option.bind_some] at h
        obtain ⟨i1, i2, i3⟩ := ih s1 s h
        obtain ⟨o1, o2⟩ := one s0 s1 a hc
        refine ⟨?_, ?_, ?_⟩
        · rw [i1]
          by_cases ha : a ≠ [] ∧ Selects opts a o
          · simp [(o1 ha).1, ha]
          · rw [(o2 ha).1]
            constructor
            · rintro (h | ⟨str, hs, hh⟩)
              · exact .inl h
              · exact .inr ⟨str, List.mem_cons_of_mem _ hs, hh⟩
            · rintro (h | ⟨str, hs, hh⟩)
              · exact .inl h
              · rcases List.mem_cons.mp hs with rfl | hs
                · exact absurd hh ha
                · exact .inr ⟨str, hs, hh⟩
        · intro before str after he hne hsel hafter
          cases before with
          | nil =>
            simp only [List.nil_append, List.cons.injEq] at he
            obtain ⟨rfl, rfl⟩ := he
            rw [i3 hafter]
            exact (o1 ⟨hne, hsel⟩).2
          | cons b before =>
            simp only [List.cons_append, List.cons.injEq] at he
            exact i2 before str after he.2 hne hsel hafter
        · intro hall
          rw [i3 fun str hs => hall str (List.mem_cons_of_mem _ hs)]
          exact (o2 fun hh => hall a (by simp) hh.1 hh.2).2
  obtain ⟨m1, m2, m3⟩ := main args Collected.init s h
  refine ⟨?_, m2, m3⟩
  rw [m1]
  simp [Collected.init]

/-! ### The options of maike -/

theorem maikeOptions_proper : Proper maikeOptions :=
  ⟨by decide +kernel, by decide +kernel⟩

/-- **C51** for maike: each option can be given by its full name, with or without value. -/
theorem C51_maike (o : Opt Value) (ho : o ∈ maikeOptions) (v : Str) :
    Selects maikeOptions o.name o ∧ Selects maikeOptions (o.name ++ '=' :: v) o ∧ argValue (o.name ++ '=' :: v) = v := by
  have : ∀ n ∈ maikeOptions.map (·.name), '=' ∉ n := by decide +kernel
  obtain ⟨h1, h2, _, h4⟩ := C51_full maikeOptions o ho (this _ (List.mem_map_of_mem ho)) v
  exact ⟨h1, h2, h4⟩

/-- Abbreviations are resolved silently, even when there are several candidates, and an empty name selects the first option. -/
theorem C51_surprises :
    (binaryFind (optionNames maikeOptions) "--target=x".toList 8).map (·.index) = some 13 ∧
    (binaryFind (optionNames maikeOptions) "--config=x".toList 8).map (·.index) = some 11 ∧
    (binaryFind (optionNames maikeOptions) "=x".toList 0).map (·.index) = some 2 ∧
    (binaryFind (optionNames maikeOptions) "--targets=x".toList 9).map (·.index) = some 8 ∧
    (binaryFind (optionNames maikeOptions) "--targetsx".toList 10).map (·.index) = none := by
  decide +kernel

/-! ### Lists -/

theorem nextToken_escape (a : Str) (rest : Str) :
    nextToken false (escape a ++ ',' :: rest) = (a, rest) ∧ nextToken false (escape a) = (a, []) := by
  induction a with
  | nil => simp [escape, nextToken]
  | cons c a ih =>
    unfold escape
    split
    · rename_i h
      simp only [List.cons_append]
      rcases h with rfl | rfl <;> simp [nextToken, ih.1, ih.2]
    · rename_i h
      simp only [not_or] at h
      simp [nextToken, h.1, h.2, ih.1, ih.2]

theorem escape_ne_nil {a : Str} (h : a ≠ []) : escape a ≠ [] := by
  cases a with
  | nil => exact absurd rfl h
  | cons c a =>
    unfold escape
    split <;> simp

theorem writeList_ne_nil {l : List Str} (h : ∃ a, l.getLast? = some a ∧ a ≠ []) : writeList l ≠ [] := by
  obtain ⟨a, h1, h2⟩ := h
  cases l with
  | nil => simp at h1
  | cons b l =>
    cases l with
    | nil =>
      simp only [List.getLast?_singleton, Option.some.injEq] at h1
      subst h1
      exact escape_ne_nil h2
    | cons c l => simp [writeList]

theorem parseList_cons (c : Char) (t : Str) :
    parseList (c :: t) = if (nextToken false (c :: t)).2 = [] then [(nextToken false (c :: t)).1]
      else (nextToken false (c :: t)).1 :: parseList (nextToken false (c :: t)).2 := by
  rw [parseList]

/-- **C52.** Lists of names are read back. Only the last element must not be empty, unless it is the only one. -/
theorem C52_roundTrip (l : List Str) (a : Str) (hl : l.getLast? = some a) (h : a ≠ [] ∨ l.length = 1) :
    parseList (writeList l) = l := by
  induction l with
  | nil => simp at hl
  | cons b l ih =>
    cases l with
    | nil =>
      unfold writeList
      cases b with
      | nil => rw [show escape [] = [] from rfl, parseList]
      | cons c b =>
        have he := escape_ne_nil (a := c :: b) (by simp)
        have ht := (nextToken_escape (c :: b) []).2
        generalize escape (c :: b) = e at he ht
        cases e with
        | nil => exact absurd rfl he
        | cons d e =>
          rw [parseList_cons, ht]
          simp
    | cons c l =>
      have ha : a ≠ [] := by
        rcases h with h | h
        · exact h
        · simp at h
      have hl' : (c :: l).getLast? = some a := by simpa [List.getLast?_cons_cons] using hl
      have ih := ih hl' (.inl ha)
      have hw := writeList_ne_nil ⟨a, hl', ha⟩
      have ht := (nextToken_escape b (writeList (c :: l))).1
      rw [show writeList (b :: c :: l) = escape b ++ ',' :: writeList (c :: l) from rfl]
      generalize writeList (c :: l) = w at *
      have hne : escape b ++ ',' :: w ≠ [] := by simp
      generalize escape b ++ ',' :: w = e at *
      cases e with
      | nil => exact absurd rfl hne
      | cons d e =>
        rw [parseList_cons, ht]
        simp [hw, ih]

/-- **C52**, as stated: lists of names that are not empty. -/
theorem C52_names (l : List Str) (hne : l ≠ []) (h : ∀ a ∈ l, a ≠ []) : parseList (writeList l) = l := by
  cases hl : l.getLast? with
  | none => simp at hl; exact absurd hl hne
  | some a => exact C52_roundTrip l a hl (.inl (h a (List.mem_of_getLast? hl)))

/-- An empty name at the end is lost. -/
theorem C52_trailing_comma : parseList "a,".toList = ["a".toList] ∧ parseList ",a".toList = [[], "a".toList] := by
  constructor <;> simp [parseList, nextToken]

section Examples

/-- The hypotheses of `C51_last` are met: an option is given twice. -/
example : (collect maikeOptions ["--source-dir=a".toList, "--dry-run".toList, "--source-dir=b".toList]).elim false
    (fun s => s.isSet 12 && s.isSet 17 && !s.isSet 0) = true := by
  decide +kernel

example : (collect maikeOptions ["--dry-run=yes".toList]).isNone ∧ (collect maikeOptions ["--source-dir".toList]).isNone ∧
    (collect maikeOptions ["--num-workers=0".toList]).isNone ∧ (collect maikeOptions ["--foo".toList]).isNone := by
  decide +kernel

example : writeList ["a,b".toList, "c\\d".toList, "e".toList] = "a\\,b,c\\\\d,e".toList := by decide +kernel

end Examples

end Maike.Cli
