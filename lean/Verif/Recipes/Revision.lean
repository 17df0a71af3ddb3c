import Verif.Recipes.Script

/-!
# The choice of a compiler and of a revision of the standard (C84)

recipes/cxx_compiler.py:107-208.
-/

namespace Maike.Recipes

open Maike.Kvs (Json Members)

/-! ## Model -/

/-- `get_numeric_rev`, recipes/cxx_compiler.py:107-109. An unknown name is an exception. -/
def numericRev (rev : String) : Option Int :=
  if rev = "c++98" then some 199711
  else if rev = "c++11" then some 201103
  else if rev = "c++14" then some 201402
  else if rev = "c++17" then some 201703
  else if rev = "c++20" then some 202002
  else if rev = "c++23" then some 202302
  else none

/-- `get_cpp_revision_tag(compiler, std)`, recipes/cxx_compiler.py:111-125, is a parameter: the value of `__cplusplus` that a compiler reports, for its default revision or for the
given one. `some none` is Python's `None`, which is returned if the compiler fails or does not define it; `none` is an exception. -/
abbrev Probe := String → Option String → Option (Option Int)

/-- `default_rev < min_num` and so on: comparing `None` to a number is an exception. -/
def defaultRev (probe : Probe) (compiler : String) : Option Int := (probe compiler none).bind id

/-- `select_cpp_rev`, recipes/cxx_compiler.py:127-154. In the last branch but one `max_num` has not been assigned, which is an exception. -/
def selectCppRev (probe : Probe) (compiler : String) (min max : Option String) : Option String :=
  match min, max with
  | some min, some max => do
    let minNum ← numericRev min
    let maxNum ← numericRev max
    if minNum > maxNum then none
    else if min = max then some min
    else do
      let d ← defaultRev probe compiler
      if d < minNum then some min else if d > maxNum then some max else some ""
  | some min, none => do
    let minNum ← numericRev min
    let d ← defaultRev probe compiler
    if d < minNum then some min else some ""
  | none, some _ => none
  | none, none => some ""

/-- The end of `select_compiler_and_stdrev`, recipes/cxx_compiler.py:190-191: the list is sorted by what compilers report, and the first one is taken. -/
def firstCandidate (candidates : List (String × String × Int)) : Option (String × String × Int) :=
  (candidates.mergeSort fun a b => decide (a.2.2 ≤ b.2.2)).head?

/-- `select_compiler_and_stdrev`, recipes/cxx_compiler.py:172-191. -/
def selectCompiler (probe : Probe) (min max : Option String) : List String → List (String × String × Int) → Option (String × String × Int)
  | [], candidates => firstCandidate candidates
  | compiler :: compilers, candidates => do
    let rev ← selectCppRev probe compiler min max
    if rev = "" then some (compiler, rev, 0)
    else do
      let cfg ← probe compiler (some rev)
      match cfg with
      | none => selectCompiler probe min max compilers candidates
      | some n => do
        let wanted ← numericRev rev
        if n < wanted then selectCompiler probe min max compilers (candidates ++ [(compiler, rev, n)]) else some (compiler, rev, n)

/-- `get_compiler_alternatives`, recipes/cxx_compiler.py:156-170. `path` are the names in the directories of `PATH`; directories that cannot be read are skipped. -/
def alternatives (compiler : String) (alwaysUseDefault : Bool) (path : List (List String)) : List String :=
  if alwaysUseDefault then [compiler]
  else path.flatMap fun names => names.filter fun name => compiler.toList.isPrefixOf name.toList && decide (name.toList.count '-' ≤ 1)

/-- A member of an object that is a string if it is there; something else leads to an exception. -/
def textMember (v : Json) (key : String) : Option (Option String) :=
  match field v key with
  | none => some none
  | some v => v.asString.map some

/-- Python's truth value of a JSON value. -/
def truth : Json → Bool
  | .null => false
  | .bool b => b
  | .int i => i ≠ 0
  | .real bits => decide (bits % 2 ^ 63 ≠ 0)
  | .str s => s ≠ ""
  | .arr l => !l.isEmpty
  | .obj l => !l.isEmpty

/-- `configure`, recipes/cxx_compiler.py:193-208: the configuration that is printed. -/
def configure (probe : Probe) (default : String) (path : List (List String)) (cfg : Members) : Option Members :=
  match Kvs.lookup "std_revision" cfg with
  | none => some (Kvs.set "backend" (.str default) cfg)
  | some std => do
    let min ← textMember std "min"
    let max ← textMember std "max"
    let sel ← selectCompiler probe min max (alternatives default ((Kvs.lookup "always_use_default_compiler" cfg).any truth) path) []
    let cfg := Kvs.set "backend" (.str sel.1) cfg
    if sel.2.1 ≠ "" then do
      let _ ← numericRev sel.2.1
      let members ← std.asObj
      some (Kvs.set "std_revision" (.obj (Kvs.set "selected" (.str sel.2.1) members)) cfg)
    else some cfg

/-! ## Specification -/

/-- The value of `__cplusplus` in each of the standards. -/
def standards : List (String × Int) :=
  [("c++98", 199711), ("c++11", 201103), ("c++14", 201402), ("c++17", 201703), ("c++20", 202002), ("c++23", 202302)]

/-- The revision is not older than `min`, and not newer than `max`, as far as these are given. -/
def Within (min max : Option String) (n : Int) : Prop :=
  (∀ m, min = some m → ∃ k, numericRev m = some k ∧ k ≤ n) ∧ ∀ m, max = some m → ∃ k, numericRev m = some k ∧ n ≤ k

/-- What the compiler does without a flag is what is asked for. -/
def SuitsByDefault (probe : Probe) (min max : Option String) (compiler : String) : Prop :=
  ∃ n, defaultRev probe compiler = some n ∧ Within min max n

/-- With the flag `-std=rev`, the compiler reports at least that revision. -/
def Supports (probe : Probe) (compiler rev : String) : Prop :=
  ∃ n k, probe compiler (some rev) = some (some n) ∧ numericRev rev = some k ∧ k ≤ n

/-! ## Proof -/

/-- **C84.** Names of revisions stand for the values of `__cplusplus` that the standards define. -/
theorem C84_revisions (rev : String) (n : Int) : numericRev rev = some n ↔ (rev, n) ∈ standards := by
  unfold numericRev standards
  constructor
  · intro h
    repeat' split at h
    all_goals first
      | (rename_i hr; subst hr; cases h; simp)
      | (cases h)
  · intro h
    simp only [List.mem_cons, Prod.mk.injEq, List.not_mem_nil, or_false] at h
    rcases h with ⟨rfl, rfl⟩ | ⟨rfl, rfl⟩ | ⟨rfl, rfl⟩ | ⟨rfl, rfl⟩ | ⟨rfl, rfl⟩ | ⟨rfl, rfl⟩ <;> simp

theorem numericRev_ne {s : String} {k : Int} (h : numericRev s = some k) : s ≠ "" := by
  rintro rfl
  simp [numericRev] at h

/-- What `select_cpp_rev` returns. -/
theorem selectCppRev_spec {probe : Probe} {c : String} {min max : Option String} {rev : String} (h : selectCppRev probe c min max = some rev) :
    (rev = "" ∧ (SuitsByDefault probe min max c ∨ min = none ∧ max = none)) ∨
    (∃ k, numericRev rev = some k ∧ (min = some rev ∨ max = some rev) ∧ Within min max k ∧ (min ≠ max → ¬ SuitsByDefault probe min max c)) := by
  unfold selectCppRev at h
  split at h
  · rename_i mn mx
    simp only [Option.bind_eq_bind, Option.bind_eq_some_iff] at h
    obtain ⟨a, ha, b, hb, h⟩ := h
    split at h
    · cases h
    · rename_i hab
      split at h
      · rename_i he
        subst he
        injection h with h
        subst h
        obtain rfl : a = b := Option.some.inj (ha.symm.trans hb)
        exact .inr ⟨a, ha, .inl rfl, ⟨by rintro _ ⟨⟩; exact ⟨a, ha, by omega⟩, by rintro _ ⟨⟩; exact ⟨a, ha, by omega⟩⟩, fun h => absurd rfl h⟩
      · simp only [Option.bind_eq_some_iff] at h
        obtain ⟨d, hd, h⟩ := h
        split at h
        · rename_i hlt
          injection h with h
          subst h
          refine .inr ⟨a, ha, .inl rfl, ⟨by rintro _ ⟨⟩; exact ⟨a, ha, by omega⟩, by rintro _ ⟨⟩; exact ⟨b, hb, by omega⟩⟩, ?_⟩
          rintro _ ⟨n, hn, hw, _⟩
          obtain ⟨k, hk, hkn⟩ := hw _ rfl
          obtain rfl : n = d := Option.some.inj (hn.symm.trans hd)
          obtain rfl : k = a := Option.some.inj (hk.symm.trans ha)
          omega
        · split at h
          · rename_i hgt
            injection h with h
            subst h
            refine .inr ⟨b, hb, .inr rfl, ⟨by rintro _ ⟨⟩; exact ⟨a, ha, by omega⟩, by rintro _ ⟨⟩; exact ⟨b, hb, by omega⟩⟩, ?_⟩
            rintro _ ⟨n, hn, _, hw⟩
            obtain ⟨k, hk, hkn⟩ := hw _ rfl
            obtain rfl : n = d := Option.some.inj (hn.symm.trans hd)
            obtain rfl : k = b := Option.some.inj (hk.symm.trans hb)
            omega
          · injection h with h
            exact .inl ⟨h.symm, .inl ⟨d, hd, by rintro _ ⟨⟩; exact ⟨a, ha, by omega⟩, by rintro _ ⟨⟩; exact ⟨b, hb, by omega⟩⟩⟩
  · rename_i mn
    simp only [Option.bind_eq_bind, Option.bind_eq_some_iff] at h
    obtain ⟨a, ha, d, hd, h⟩ := h
    split at h
    · rename_i hlt
      injection h with h
      subst h
      refine .inr ⟨a, ha, .inl rfl, ⟨by rintro _ ⟨⟩; exact ⟨a, ha, by omega⟩, by rintro _ ⟨⟩⟩, ?_⟩
      rintro _ ⟨n, hn, hw, _⟩
      obtain ⟨k, hk, hkn⟩ := hw _ rfl
      obtain rfl : n = d := Option.some.inj (hn.symm.trans hd)
      obtain rfl : k = a := Option.some.inj (hk.symm.trans ha)
      omega
    · injection h with h
      exact .inl ⟨h.symm, .inl ⟨d, hd, by rintro _ ⟨⟩; exact ⟨a, ha, by omega⟩, by rintro _ ⟨⟩⟩⟩
  · cases h
  · injection h with h
    exact .inl ⟨h.symm, .inr ⟨rfl, rfl⟩⟩

theorem firstCandidate_spec {l : List (String × String × Int)} {x : String × String × Int} (h : firstCandidate l = some x) :
    x ∈ l ∧ ∀ y ∈ l, x.2.2 ≤ y.2.2 := by
  unfold firstCandidate at h
  have hp := List.mergeSort_perm l fun a b => decide (a.2.2 ≤ b.2.2)
  have hs := List.pairwise_mergeSort (le := fun (a b : String × String × Int) => decide (a.2.2 ≤ b.2.2)) (by intro a b c; simp; omega) (by intro a b; simp; omega) l
  generalize l.mergeSort (fun a b => decide (a.2.2 ≤ b.2.2)) = s at *
  cases s with
  | nil => cases h
  | cons a s =>
    simp only [List.head?_cons, Option.some.injEq] at h
    subst h
    refine ⟨hp.mem_iff.mp (by simp), fun y hy => ?_⟩
    rcases List.mem_cons.mp (hp.mem_iff.mpr hy) with rfl | hy
    · exact Int.le_refl _
    · have := List.rel_of_pairwise_cons hs hy
      simpa using this

/-- The compiler is passed over: it does not support the revision that is chosen for it. -/
def Passed (probe : Probe) (min max : Option String) (compiler : String) : Prop :=
  ∃ rev, selectCppRev probe compiler min max = some rev ∧ rev ≠ "" ∧ ¬ Supports probe compiler rev

/-- The compiler accepts the revision that is chosen for it, but reports the older revision `n`. -/
def Experimental (probe : Probe) (min max : Option String) (compiler rev : String) (n : Int) : Prop :=
  selectCppRev probe compiler min max = some rev ∧ probe compiler (some rev) = some (some n) ∧ ∃ k, numericRev rev = some k ∧ n < k

theorem selectCompiler_spec {probe : Probe} {min max : Option String} {compilers : List String} {candidates : List (String × String × Int)}
    {sel : String × String × Int} (h : selectCompiler probe min max compilers candidates = some sel) :
    (∃ l₁ l₂, compilers = l₁ ++ sel.1 :: l₂ ∧ (∀ c ∈ l₁, Passed probe min max c) ∧ selectCppRev probe sel.1 min max = some sel.2.1 ∧
      (sel.2.1 = "" ∨ ∃ k, numericRev sel.2.1 = some k ∧ probe sel.1 (some sel.2.1) = some (some sel.2.2) ∧ k ≤ sel.2.2)) ∨
    ((∀ c ∈ compilers, Passed probe min max c) ∧ (sel ∈ candidates ∨ sel.1 ∈ compilers ∧ Experimental probe min max sel.1 sel.2.1 sel.2.2) ∧
      (∀ y ∈ candidates, sel.2.2 ≤ y.2.2) ∧ ∀ c ∈ compilers, ∀ rev n, Experimental probe min max c rev n → sel.2.2 ≤ n) := by
  induction compilers generalizing candidates with
  | nil =>
    obtain ⟨h1, h2⟩ := firstCandidate_spec h
    exact .inr ⟨by simp, .inl h1, h2, by simp⟩
  | cons c cs ih =>
    simp only [selectCompiler, Option.bind_eq_bind, Option.bind_eq_some_iff] at h
    obtain ⟨rev, hrev, h⟩ := h
    split at h
    · rename_i he
      injection h with h
      subst h
      exact .inl ⟨[], cs, rfl, by simp, hrev, .inl he⟩
    · rename_i he
      simp only [Option.bind_eq_some_iff] at h
      obtain ⟨o, ho, h⟩ := h
      cases o with
      | none =>
        simp only at h
        have hc : Passed probe min max c := by
          refine ⟨rev, hrev, he, ?_⟩
          rintro ⟨n, k, h1, _⟩
          rw [ho] at h1
          cases h1
        rcases ih h with ⟨l₁, l₂, e, h1, h2⟩ | ⟨h1, h2, h3, h4⟩
        · exact .inl ⟨c :: l₁, l₂, by rw [e]; rfl, by simpa [hc] using h1, h2⟩
        · refine .inr ⟨by simpa [hc] using h1, ?_, h3, ?_⟩
          · rcases h2 with h2 | ⟨h2, h2'⟩
            · exact .inl h2
            · exact .inr ⟨List.mem_cons_of_mem _ h2, h2'⟩
          · intro c' hc'
            rcases List.mem_cons.mp hc' with rfl | hc'
            · rintro r n ⟨a1, a2, _⟩
              obtain rfl : rev = r := Option.some.inj (hrev.symm.trans a1)
              rw [ho] at a2
              cases a2
            · exact h4 c' hc'
      | some n =>
        simp only [Option.bind_eq_some_iff] at h
        obtain ⟨k, hk, h⟩ := h
        split at h
        · rename_i hlt
          have hc : Passed probe min max c := by
            refine ⟨rev, hrev, he, ?_⟩
            rintro ⟨n', k', h1, h2, h3⟩
            obtain rfl : k = k' := Option.some.inj (hk.symm.trans h2)
            have := Option.some.inj (Option.some.inj (ho.symm.trans h1))
            omega
          rcases ih h with ⟨l₁, l₂, e, h1, h2⟩ | ⟨h1, h2, h3, h4⟩
          · exact .inl ⟨c :: l₁, l₂, by rw [e]; rfl, by simpa [hc] using h1, h2⟩
          · refine .inr ⟨by simpa [hc] using h1, ?_, fun y hy => h3 y (by simp [hy]), ?_⟩
            · rcases h2 with h2 | ⟨h2, h2'⟩
              · rcases List.mem_append.mp h2 with h2 | h2
                · exact .inl h2
                · simp only [List.mem_singleton] at h2
                  subst h2
                  exact .inr ⟨by simp, hrev, ho, k, hk, hlt⟩
              · exact .inr ⟨List.mem_cons_of_mem _ h2, h2'⟩
            · intro c' hc'
              rcases List.mem_cons.mp hc' with rfl | hc'
              · rintro r n' ⟨a1, a2, _⟩
                obtain rfl : rev = r := Option.some.inj (hrev.symm.trans a1)
                obtain rfl : n = n' := Option.some.inj (Option.some.inj (ho.symm.trans a2))
                exact h3 (_, rev, n) (List.mem_append_right _ (List.mem_singleton.mpr rfl))
              · exact h4 c' hc'
        · rename_i hge
          injection h with h
          subst h
          exact .inl ⟨[], cs, rfl, by simp, hrev, .inr ⟨k, hk, ho, by simp only; omega⟩⟩

/-- Nothing is found only if something cannot be probed, or nothing is there. -/
theorem selectCompiler_isSome {probe : Probe} {min max : Option String} {compilers : List String} {candidates : List (String × String × Int)}
    (hp : ∀ c ∈ compilers, (selectCppRev probe c min max).isSome ∧ ∀ r, (probe c (some r)).isSome)
    (h : candidates ≠ [] ∨ ∃ c ∈ compilers, ∀ rev, selectCppRev probe c min max = some rev → rev ≠ "" → ∃ n, probe c (some rev) = some (some n)) :
    (selectCompiler probe min max compilers candidates).isSome := by
  induction compilers generalizing candidates with
  | nil =>
    rcases h with h | ⟨_, h, _⟩
    · have hp := List.mergeSort_perm candidates fun a b => decide (a.2.2 ≤ b.2.2)
      cases hm : candidates.mergeSort (fun a b => decide (a.2.2 ≤ b.2.2)) with
      | nil => rw [hm] at hp; exact absurd hp.symm.eq_nil h
      | cons a l => simp [selectCompiler, firstCandidate, hm]
    · cases h
  | cons c cs ih =>
    obtain ⟨hc, hpr⟩ := hp c (by simp)
    obtain ⟨rev, hrev⟩ := Option.isSome_iff_exists.mp hc
    simp only [selectCompiler, hrev, Option.bind_eq_bind, Option.bind_some]
    split
    · rfl
    · rename_i he
      obtain ⟨o, ho⟩ := Option.isSome_iff_exists.mp (hpr rev)
      rw [ho]
      simp only [Option.bind_some]
      have hp' : ∀ c ∈ cs, (selectCppRev probe c min max).isSome ∧ ∀ r, (probe c (some r)).isSome := fun c hc => hp c (by simp [hc])
      cases o with
      | none =>
        refine ih hp' ?_
        rcases h with h | ⟨c', hc', h⟩
        · exact .inl h
        · rcases List.mem_cons.mp hc' with rfl | hc'
          · obtain ⟨n, hn⟩ := h rev hrev he
            rw [ho] at hn
            cases hn
          · exact .inr ⟨c', hc', h⟩
      | some n =>
        rcases selectCppRev_spec hrev with ⟨h0, _⟩ | ⟨k, hk, _⟩
        · exact absurd h0 he
        · simp only [hk, Option.bind_some]
          split
          · exact ih hp' (.inl (by simp))
          · rfl

/-! ## Theorems -/

/-- **C84.** If a compiler is selected, it is one of the alternatives. Without a flag for the revision, its default revision is within the bounds. Otherwise the flag is one of the bounds, and
the compiler accepts it; and the compiler reports this revision or a later one, unless no compiler that is available does so for the revision that is
chosen for it. Compilers earlier in the list are preferred. -/
theorem C84_selected_partial {probe : Probe} {min max : Option String} {compilers : List String} {c rev : String} {n : Int}
    (h : selectCompiler probe min max compilers [] = some (c, rev, n)) :
    c ∈ compilers ∧ (rev = "" → SuitsByDefault probe min max c ∨ min = none ∧ max = none) ∧
    (rev ≠ "" → (min = some rev ∨ max = some rev) ∧ (∃ k, numericRev rev = some k ∧ Within min max k) ∧ probe c (some rev) = some (some n) ∧
      (Supports probe c rev ∨ ∀ c' ∈ compilers, (min ≠ max → ¬ SuitsByDefault probe min max c') ∧
        ∃ rev', (min = some rev' ∨ max = some rev') ∧ ¬ Supports probe c' rev')) ∧
    ((rev = "" ∨ Supports probe c rev) → ∃ l₁ l₂, compilers = l₁ ++ c :: l₂ ∧ ∀ c' ∈ l₁, (min ≠ max → ¬ SuitsByDefault probe min max c') ∧
      ∃ rev', (min = some rev' ∨ max = some rev') ∧ ¬ Supports probe c' rev') := by
  have hpassed : ∀ c', Passed probe min max c' → (min ≠ max → ¬ SuitsByDefault probe min max c') ∧ ∃ rev', (min = some rev' ∨ max = some rev') ∧ ¬ Supports probe c' rev' := by
    rintro c' ⟨r, h1, h2, h3⟩
    rcases selectCppRev_spec h1 with ⟨h0, _⟩ | ⟨k, hk, hm, _, hd⟩
    · exact absurd h0 h2
    · exact ⟨hd, r, hm, h3⟩
  rcases selectCompiler_spec h with ⟨l₁, l₂, e, h1, h2, h3⟩ | ⟨h1, h2, _, _⟩
  · simp only at h2 h3 e
    refine ⟨by rw [e]; simp, ?_, ?_, fun _ => ⟨l₁, l₂, e, fun c' hc' => hpassed c' (h1 c' hc')⟩⟩
    · intro he
      rcases selectCppRev_spec h2 with ⟨_, hd⟩ | ⟨k, hk, _⟩
      · exact hd
      · exact absurd he (numericRev_ne hk)
    · intro he
      rcases h3 with h3 | ⟨k, hk, h3, hle⟩
      · exact absurd h3 he
      · rcases selectCppRev_spec h2 with ⟨h0, _⟩ | ⟨k', hk', hm, hw, _⟩
        · exact absurd h0 he
        · exact ⟨hm, ⟨k', hk', hw⟩, h3, .inl ⟨n, k, h3, hk, hle⟩⟩
  · rcases h2 with h2 | ⟨h2, h3, h4, k, hk, hlt⟩
    · cases h2
    · simp only at h2 h3 h4 hk hlt
      have hne := numericRev_ne hk
      refine ⟨h2, fun he => absurd he hne, fun _ => ?_, ?_⟩
      · rcases selectCppRev_spec h3 with ⟨h0, _⟩ | ⟨k', hk', hm, hw, _⟩
        · exact absurd h0 hne
        · exact ⟨hm, ⟨k', hk', hw⟩, h4, .inr fun c' hc' => hpassed c' (h1 c' hc')⟩
      · rintro (he | ⟨n', k', a1, a2, a3⟩)
        · exact absurd he hne
        · obtain rfl := Option.some.inj (hk.symm.trans a2)
          have := Option.some.inj (Option.some.inj (h4.symm.trans a1))
          omega

/-- **C84.** If a lower bound is given, and all compilers can be probed, then some compiler is selected if there is one whose default revision is within the bounds, or that
accepts the bounds as revisions. -/
theorem C84_found_partial {probe : Probe} {min : String} {max : Option String} {compilers : List String} {k : Int} (hk : numericRev min = some k) (hmax : Within none max k)
    (hp : ∀ c ∈ compilers, (defaultRev probe c).isSome ∧ ∀ r, (probe c (some r)).isSome)
    (h : ∃ c ∈ compilers, SuitsByDefault probe (some min) max c ∧ some min ≠ max ∨ ∀ r, (min = r ∨ max = some r) → ∃ n, probe c (some r) = some (some n)) :
    (selectCompiler probe (some min) max compilers []).isSome := by
  have hsel : ∀ c ∈ compilers, (selectCppRev probe c (some min) max).isSome := by
    intro c hc
    obtain ⟨d, hd⟩ := Option.isSome_iff_exists.mp (hp c hc).1
    cases max with
    | none =>
      simp only [selectCppRev, hk, hd, Option.bind_eq_bind, Option.bind_some]
      split <;> rfl
    | some mx =>
      obtain ⟨k', hk', hle⟩ := hmax.2 _ rfl
      simp only [selectCppRev, hk, hk', hd, Option.bind_eq_bind, Option.bind_some]
      rw [if_neg (by omega)]
      split
      · rfl
      · split
        · rfl
        · split <;> rfl
  refine selectCompiler_isSome (fun c hc => ⟨hsel c hc, (hp c hc).2⟩) (.inr ?_)
  obtain ⟨c, hc, h⟩ := h
  refine ⟨c, hc, fun rev hrev hne => ?_⟩
  rcases selectCppRev_spec hrev with ⟨h0, _⟩ | ⟨_, _, hm, _, hd⟩
  · exact absurd h0 hne
  · rcases h with ⟨h, hmm⟩ | h
    · exact absurd h (hd hmm)
    · refine h rev ?_
      rcases hm with hm | hm
      · exact .inl (Option.some.inj hm)
      · exact .inr hm

/-- **C84 is false** if only an upper bound is given: nothing is ever selected. -/
theorem C84_max_only (probe : Probe) (max : String) (compilers : List String) : selectCompiler probe none (some max) compilers [] = none := by
  cases compilers <;> simp [selectCompiler, firstCandidate, selectCppRev]

/-- If no compiler fully supports the revision, the one that reports the *oldest* revision is taken. -/
theorem C84_oldest {probe : Probe} {min max : Option String} {compilers : List String} {c rev : String} {n : Int}
    (h : selectCompiler probe min max compilers [] = some (c, rev, n)) (hne : rev ≠ "") (hs : ¬ Supports probe c rev) :
    ∀ c' ∈ compilers, ∀ rev' n', Experimental probe min max c' rev' n' → n ≤ n' := by
  rcases selectCompiler_spec h with ⟨l₁, l₂, e, h1, h2, h3⟩ | ⟨_, _, _, h4⟩
  · rcases h3 with h3 | ⟨k, hk, h3, hle⟩
    · exact absurd h3 hne
    · exact absurd ⟨_, k, h3, hk, hle⟩ hs
  · exact h4

/-- What `configure` changes. -/
theorem configure_spec {probe : Probe} {default : String} {path : List (List String)} {cfg cfg' : Members} (h : configure probe default path cfg = some cfg') :
    (Kvs.lookup "std_revision" cfg = none ∧ cfg' = Kvs.set "backend" (.str default) cfg) ∨
    ∃ std min max sel, Kvs.lookup "std_revision" cfg = some std ∧ textMember std "min" = some min ∧ textMember std "max" = some max ∧
      selectCompiler probe min max (alternatives default ((Kvs.lookup "always_use_default_compiler" cfg).any truth) path) [] = some sel ∧
      (sel.2.1 = "" ∧ cfg' = Kvs.set "backend" (.str sel.1) cfg ∨
        sel.2.1 ≠ "" ∧ ∃ ms, std = .obj ms ∧ cfg' = Kvs.set "std_revision" (.obj (Kvs.set "selected" (.str sel.2.1) ms)) (Kvs.set "backend" (.str sel.1) cfg)) := by
  unfold configure at h
  split at h
  · rename_i hn
    exact .inl ⟨hn, (Option.some.inj h).symm⟩
  · rename_i std hstd
    simp only [Option.bind_eq_bind, Option.bind_eq_some_iff] at h
    obtain ⟨min, h1, max, h2, sel, h3, h⟩ := h
    refine .inr ⟨std, min, max, sel, hstd, h1, h2, h3, ?_⟩
    split at h
    · rename_i hne
      simp only [Option.bind_eq_some_iff] at h
      obtain ⟨_, _, ms, h4, h⟩ := h
      cases std with
      | obj l =>
        simp only [Json.asObj, Option.some.injEq] at h4
        subst h4
        exact .inr ⟨hne, l, rfl, (Option.some.inj h).symm⟩
      | _ => cases h4
    · rename_i he
      exact .inl ⟨Classical.not_not.mp he, (Option.some.inj h).symm⟩

/-- **C84.** The compiler that has been selected is executed, with the flag for the revision that has been selected. The other settings are kept. -/
theorem C84_used {probe : Probe} {default : String} {path : List (List String)} {cfg cfg' : Members} (hcfg : configure probe default path cfg = some cfg')
    (hnew : ∀ std, Kvs.lookup "std_revision" cfg = some std → field std "selected" = none) {env : Env} {opts : Members} {args : List String}
    (ho : Kvs.lookup "compiler_cfg" opts = some (.obj cfg')) (h : compileCommand env opts = some args) :
    (∀ key, key ≠ "backend" → key ≠ "std_revision" → Kvs.lookup key cfg' = Kvs.lookup key cfg) ∧
    ∃ flags std rest, args = flags ++ std ++ rest ∧
      ((Kvs.lookup "std_revision" cfg = none ∧ flags.head? = some default ∧ std = []) ∨
      ∃ v min max c rev n, Kvs.lookup "std_revision" cfg = some v ∧ textMember v "min" = some min ∧ textMember v "max" = some max ∧
        selectCompiler probe min max (alternatives default ((Kvs.lookup "always_use_default_compiler" cfg).any truth) path) [] = some (c, rev, n) ∧
        flags.head? = some c ∧ std = if rev = "" then [] else ["-std=" ++ rev]) := by
  simp only [compileCommand, ho, Option.bind_eq_bind, Option.bind_eq_some_iff] at h
  obtain ⟨_, ⟨⟩, backend, hb, _, _, _, _, src, _, _, _, cflags, _, std, hstd, color, _, defs, _, acts, _, inputs, _, target, _, h⟩ := h
  obtain ⟨_, hb1, hb2⟩ := hb
  rcases configure_spec hcfg with ⟨hn, rfl⟩ | ⟨v, min, max, ⟨c, rev, n⟩, h1, h2, h3, h4, h5⟩
  · refine ⟨fun key h1 _ => by rw [Kvs.lookup_set]; simp [Ne.symm h1], [backend] ++ cflags, std, _, by rw [← Option.some.inj h]; simp; rfl, .inl ⟨hn, ?_, ?_⟩⟩
    · simp only [field, Kvs.lookup_set, if_true, Option.some.injEq] at hb1
      subst hb1
      injection hb2 with hb2
      subst hb2
      rfl
    · unfold stdFlag at hstd
      simp [field, Kvs.lookup_set, hn] at hstd
      exact hstd
  · have hback : backend = c := by
      rcases h5 with ⟨_, rfl⟩ | ⟨_, ms, _, rfl⟩
      all_goals
        simp [field, Kvs.lookup_set] at hb1
        subst hb1
        injection hb2 with hb2
        exact hb2.symm
    subst hback
    refine ⟨?_, [backend] ++ cflags, std, _, by rw [← Option.some.inj h]; simp; rfl, .inr ⟨v, min, max, backend, rev, n, h1, h2, h3, h4, rfl, ?_⟩⟩
    · rintro key k1 k2
      rcases h5 with ⟨_, rfl⟩ | ⟨_, ms, _, rfl⟩
      · rw [Kvs.lookup_set]; simp [Ne.symm k1]
      · rw [Kvs.lookup_set, Kvs.lookup_set]; simp [Ne.symm k1, Ne.symm k2]
    · rcases h5 with ⟨h5, rfl⟩ | ⟨h5, ms, rfl, rfl⟩
      · simp only at h5
        rw [if_pos h5]
        unfold stdFlag at hstd
        simp [field, Kvs.lookup_set, h1] at hstd
        have := hnew v h1
        unfold field at this
        rw [this] at hstd
        simpa using hstd.symm
      · simp only at h5
        rw [if_neg h5]
        unfold stdFlag at hstd
        simp [field, Kvs.lookup_set, Json.asString] at hstd
        exact hstd.symm

/-- The compiler is not found if it is given as a path: only names of files are compared. -/
theorem C84_absolute {probe : Probe} {default : String} {path : List (List String)} {cfg : Members} {std : Json} (hslash : '/' ∈ default.toList)
    (hnames : ∀ names ∈ path, ∀ name ∈ names, '/' ∉ name.toList) (hstd : Kvs.lookup "std_revision" cfg = some std)
    (hd : ((Kvs.lookup "always_use_default_compiler" cfg).any truth) = false) : configure probe default path cfg = none := by
  have ha : alternatives default false path = [] := by
    simp only [alternatives, Bool.false_eq_true, if_false, List.flatMap_eq_nil_iff, List.filter_eq_nil_iff]
    intro names hn name hm
    simp only [Bool.and_eq_true, not_and]
    intro hp
    have := (List.isPrefixOf_iff_prefix.mp hp).subset hslash
    exact absurd this (hnames names hn name hm)
  cases h : configure probe default path cfg with
  | none => rfl
  | some cfg' =>
    rcases configure_spec h with ⟨hn, _⟩ | ⟨_, _, _, _, _, _, _, h4, _⟩
    · rw [hn] at hstd; cases hstd
    · rw [hd, ha] at h4
      simp [selectCompiler, firstCandidate] at h4

end Maike.Recipes
