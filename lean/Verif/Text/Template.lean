/-!
# Templates (C108, C109)

`string.Template.substitute` of Python, as it is used by core/bin/about.py:15-41, 67-73 and recipes/generic.py:28-30. The pattern of the class `Template` is
`\$(?:(\$)|([_a-z][_a-z0-9]*)|{([_a-z][_a-z0-9]*)}|())`, without regard to case, for ASCII letters only; the last alternative is an error.
-/

namespace Maike.Text.Template

abbrev Str := List Char

/-! ## Model -/

/-- `[_a-z]`, without regard to case. -/
def idStart (c : Char) : Bool := c.isAlpha || c = '_'

/-- `[_a-z0-9]`, without regard to case. -/
def idChar (c : Char) : Bool := idStart c || c.isDigit

/-- What has been read of the template: text; a dollar sign; a dollar sign and a part of a name; or the same with a brace. -/
inductive Mode where
  | text
  | dollar
  | name (acc : Str)
  | braced (acc : Str)
deriving DecidableEq, Repr

/-- `Template(t).substitute(env)`, from left to right. The result is `none` if an exception is raised: a name that is not known (`KeyError`), or a dollar sign that is not followed by a name (`ValueError`). -/
def go (env : Str → Option Str) : Mode → Str → Option Str
  | .text, [] => some []
  | .text, c :: r => if c = '$' then go env .dollar r else (go env .text r).map (c :: ·)
  | .dollar, [] => none
  | .dollar, c :: r =>
    if c = '$' then (go env .text r).map ('$' :: ·)
    else if c = '{' then go env (.braced []) r
    else if idStart c then go env (.name [c]) r
    else none
  | .name acc, [] => env acc
  | .name acc, c :: r =>
    if idChar c then go env (.name (acc ++ [c])) r
    else (env acc).bind fun v => (if c = '$' then go env .dollar r else (go env .text r).map (c :: ·)).map (v ++ ·)
  | .braced _, [] => none
  | .braced acc, c :: r =>
    if c = '}' then (if acc = [] then none else (env acc).bind fun v => (go env .text r).map (v ++ ·))
    else if (if acc = [] then idStart c else idChar c) then go env (.braced (acc ++ [c])) r
    else none

def substitute (env : Str → Option Str) (t : Str) : Option Str := go env .text t

/-! ## Specification -/

/-- A name. -/
def IsName (n : Str) : Prop := ∃ c r, n = c :: r ∧ idStart c = true ∧ ∀ x ∈ r, idChar x = true

/-- `t` becomes `s`: the template is a sequence of other characters, which are copied, of `$$`, which stands for a dollar sign, and of `$name` and `${name}`, which stand for what the name stands for. The name in `$name`
is as long as possible. -/
inductive Expands (env : Str → Option Str) : Str → Str → Prop
  | nil : Expands env [] []
  | char {c t s} : c ≠ '$' → Expands env t s → Expands env (c :: t) (c :: s)
  | dollar {t s} : Expands env t s → Expands env ('$' :: '$' :: t) ('$' :: s)
  | name {n v t s} : IsName n → env n = some v → (∀ c r, t = c :: r → idChar c = false) → Expands env t s → Expands env ('$' :: n ++ t) (v ++ s)
  | braced {n v t s} : IsName n → env n = some v → Expands env t s → Expands env ('$' :: '{' :: n ++ '}' :: t) (v ++ s)

/-! ## Lemmas -/

variable {env : Str → Option Str}

theorem go_name_chars {n : Str} (hn : ∀ x ∈ n, idChar x = true) : ∀ acc t, go env (.name acc) (n ++ t) = go env (.name (acc ++ n)) t := by
  induction n with
  | nil => simp
  | cons c n ih =>
    intro acc t
    have hc : idChar c = true := hn c (by simp)
    simp only [List.cons_append, go, hc, if_true]
    rw [ih (fun x hx => hn x (by simp [hx]))]
    simp

theorem brace_not_idChar : idChar '}' = false := by decide

theorem go_braced_chars {n : Str} (hn : ∀ x ∈ n, idChar x = true) : ∀ acc t, acc ≠ [] → go env (.braced acc) (n ++ t) = go env (.braced (acc ++ n)) t := by
  induction n with
  | nil => simp
  | cons c n ih =>
    intro acc t hacc
    have hc : idChar c = true := hn c (by simp)
    have hb : c ≠ '}' := fun e => by rw [e, brace_not_idChar] at hc; cases hc
    simp only [List.cons_append, go, hb, hacc, hc, if_true, if_false]
    rw [ih (fun x hx => hn x (by simp [hx])) _ _ (by simp)]
    simp

theorem idStart_idChar {c : Char} (h : idStart c = true) : idChar c = true := by simp [idChar, h]

theorem idStart_ne {c : Char} (h : idStart c = true) : c ≠ '$' ∧ c ≠ '{' ∧ c ≠ '}' := by
  refine ⟨?_, ?_, ?_⟩ <;> (rintro rfl; revert h; decide)

/-- After the name: what follows is text. -/
theorem go_name_end {acc t : Str} (ht : ∀ c r, t = c :: r → idChar c = false) : go env (.name acc) t = (env acc).bind fun v => (go env .text t).map (v ++ ·) := by
  cases t with
  | nil => simp only [go]; cases env acc <;> simp
  | cons c r =>
    have hc := ht c r rfl
    simp only [go, hc, Bool.false_eq_true, if_false]

theorem go_of_expands {t s : Str} (h : Expands env t s) : go env .text t = some s := by
  induction h with
  | nil => rfl
  | char hc _ ih => simp only [go, if_neg hc, ih, Option.map_some]
  | dollar _ ih => simp only [go, if_true, ih, Option.map_some]
  | @name n v t s hn hv ht _ ih =>
    obtain ⟨c, r, rfl, hc, hr⟩ := hn
    obtain ⟨h1, h2, _⟩ := idStart_ne hc
    simp only [List.cons_append, go, if_true, if_neg h1, if_neg h2, hc]
    rw [go_name_chars hr, go_name_end ht]
    simp only [List.cons_append, List.nil_append, hv, Option.bind_some, ih, Option.map_some]
  | @braced n v t s hn hv _ ih =>
    obtain ⟨c, r, rfl, hc, hr⟩ := hn
    obtain ⟨h1, h2, h3⟩ := idStart_ne hc
    simp only [List.cons_append, go, if_true, if_neg h3, hc, show ('{' : Char) ≠ '$' from by decide, if_false]
    rw [List.nil_append, go_braced_chars hr _ _ (by simp)]
    simp only [List.cons_append, List.nil_append, go, if_true, reduceCtorEq, if_false, hv, Option.bind_some, ih, Option.map_some]

/-- What the machine has read so far, as a part of a template. -/
def Mode.read : Mode → Str
  | .text => []
  | .dollar => ['$']
  | .name acc => '$' :: acc
  | .braced acc => '$' :: '{' :: acc

/-- What is known about a name that is being read. -/
def Mode.Ok : Mode → Prop
  | .name acc => IsName acc
  | .braced acc => acc = [] ∨ IsName acc
  | _ => True

theorem IsName.snoc {n : Str} (h : IsName n) {c : Char} (hc : idChar c = true) : IsName (n ++ [c]) := by
  obtain ⟨x, r, rfl, h1, h2⟩ := h
  refine ⟨x, r ++ [c], rfl, h1, fun y hy => ?_⟩
  rcases List.mem_append.mp hy with hy | hy
  · exact h2 y hy
  · rw [List.mem_singleton.mp hy]; exact hc

theorem IsName.single {c : Char} (h : idStart c = true) : IsName [c] := ⟨c, [], rfl, h, by simp⟩

theorem IsName.ne_nil {n : Str} (h : IsName n) : n ≠ [] := by
  obtain ⟨_, _, rfl, _⟩ := h
  simp

theorem expands_of_go (m : Mode) (t s : Str) (hm : m.Ok) (h : go env m t = some s) : Expands env (m.read ++ t) s := by
  induction t generalizing m s with
  | nil =>
    cases m with
    | text => simp only [go, Option.some.injEq] at h; subst h; exact .nil
    | dollar => cases h
    | name acc => have := Expands.name (t := []) hm h (by simp) .nil; simpa [Mode.read] using this
    | braced acc => cases h
  | cons c r ih =>
    cases m with
    | text =>
      simp only [go] at h
      split at h
      · rename_i hc; subst hc; exact ih .dollar s trivial h
      · rename_i hc
        obtain ⟨s', h', rfl⟩ := Option.map_eq_some_iff.mp h
        exact .char hc (ih .text s' trivial h')
    | dollar =>
      simp only [go] at h
      split at h
      · rename_i hc; subst hc
        obtain ⟨s', h', rfl⟩ := Option.map_eq_some_iff.mp h
        exact .dollar (ih .text s' trivial h')
      · split at h
        · rename_i hc; subst hc; exact ih (.braced []) s (.inl rfl) h
        · split at h
          · rename_i hc; exact ih (.name [c]) s (.single hc) h
          · cases h
    | name acc =>
      simp only [go] at h
      split at h
      · rename_i hc
        have := ih (.name (acc ++ [c])) s (hm.snoc hc) h
        simpa [Mode.read] using this
      · rename_i hc
        obtain ⟨v, hv, h⟩ := Option.bind_eq_some_iff.mp h
        obtain ⟨s', h', rfl⟩ := Option.map_eq_some_iff.mp h
        have hnext : ∀ x y, c :: r = x :: y → idChar x = false := by
          rintro x y e; cases e; simpa using hc
        have hrest : Expands env (c :: r) s' := by
          split at h'
          · rename_i e; subst e; exact ih .dollar s' trivial h'
          · rename_i e
            obtain ⟨s'', h'', rfl⟩ := Option.map_eq_some_iff.mp h'
            exact .char e (ih .text s'' trivial h'')
        have := Expands.name hm hv hnext hrest
        simpa [Mode.read] using this
    | braced acc =>
      simp only [go] at h
      split at h
      · rename_i hc; subst hc
        split at h
        · cases h
        · rename_i hacc
          obtain ⟨v, hv, h⟩ := Option.bind_eq_some_iff.mp h
          obtain ⟨s', h', rfl⟩ := Option.map_eq_some_iff.mp h
          have := Expands.braced (hm.resolve_left hacc) hv (ih .text s' trivial h')
          simpa [Mode.read] using this
      · have key : IsName (acc ++ [c]) → go env (.braced (acc ++ [c])) r = some s → Expands env ((Mode.braced acc).read ++ c :: r) s := fun h1 h2 => by
          have := ih (.braced (acc ++ [c])) s (.inr h1) h2
          simpa [Mode.read] using this
        split at h
        · rename_i e
          split at h
          · rename_i hc; exact key (by rw [e]; exact .single hc) h
          · cases h
        · rename_i e
          split at h
          · rename_i hc; exact key ((hm.resolve_left e).snoc hc) h
          · cases h

/-- The function does what the class is documented to do. -/
theorem substitute_iff (t s : Str) : substitute env t = some s ↔ Expands env t s :=
  ⟨fun h => expands_of_go .text t s trivial h, go_of_expands⟩

/-- Text without dollar signs stands for itself. -/
theorem substitute_text {t : Str} (h : '$' ∉ t) : substitute env t = some t := by
  refine (substitute_iff t t).mpr ?_
  induction t with
  | nil => exact .nil
  | cons c t ih =>
    simp only [List.mem_cons, not_or] at h
    exact .char (Ne.symm h.1) (ih h.2)

example : substitute (fun n => if n = "target".toList then some "a $x".toList else none) "-o$target.$$ ${target}".toList = some "-oa $x.$ a $x".toList := by decide +kernel
example : substitute (fun n => if n = "target".toList then some [] else none) "$targets".toList = none := by decide +kernel
example : substitute (fun n => if n = "target".toList then some [] else none) "100$".toList = none := by decide +kernel

end Maike.Text.Template
