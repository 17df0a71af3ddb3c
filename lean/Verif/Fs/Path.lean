import Verif.Db.Map

/-!
# Model of `std::filesystem::path` on POSIX

The repository uses `std::filesystem` (core/utils/fs.hpp:8-12). The functions below follow the
C++17 standard, [fs.class.path], and libstdc++ where the standard leaves room. They are part of
the trusted base: they model the standard library, not code in the repository.

A path is represented by its elements: whether there is a root directory, the
names, and whether the last name is followed by a separator. Paths that only differ in the number of
separators between names are identified; they compare equal in C++ too.
-/

namespace Maike.Fs

/-- Strings as lists of characters. -/
abbrev Str := List Char

/-- `std::filesystem::path`. -/
structure Path where
  root : Bool
  names : List Str
  trailing : Bool
deriving DecidableEq, Repr

/-- `path()` -/
def Path.empty : Path := ⟨false, [], false⟩

/-- Split a string at separators, without the empty parts. -/
def splitNames : Str → Str → List Str
  | [], cur => if cur = [] then [] else [cur]
  | c :: s, cur =>
    if c = '/' then (if cur = [] then splitNames s [] else cur :: splitNames s [])
    else splitNames s (cur ++ [c])

/-- `path(string)`: [fs.path.generic]. -/
def parse (s : Str) : Path where
  root := s.head? = some '/'
  names := splitNames s []
  trailing := s.getLast? = some '/' && !(splitNames s []).isEmpty

/-- Names with separators in between. -/
def joinNames : List Str → Str
  | [] => []
  | [a] => a
  | a :: b :: l => a ++ '/' :: joinNames (b :: l)

/-- `path::string()`, with redundant separators removed. -/
def Path.str (p : Path) : Str :=
  (if p.root then ['/'] else []) ++ joinNames p.names ++ (if p.trailing then ['/'] else [])

/-- `operator/`: [fs.path.append]. -/
def Path.append (a b : Path) : Path :=
  if b.root then b
  else if b.names = [] then { a with trailing := !a.names.isEmpty }
  else { root := a.root, names := a.names ++ b.names, trailing := b.trailing }

instance : Div Path := ⟨Path.append⟩

/-- `path::filename()` as a string. -/
def Path.filename (p : Path) : Str :=
  if p.trailing then [] else p.names.getLast?.getD []

/-- `path::parent_path()`: [fs.path.decompose]. -/
def Path.parent (p : Path) : Path :=
  if p.names = [] then p
  else if p.trailing then { p with trailing := false }
  else { p with names := p.names.dropLast }

/-- Strict lexicographical comparison. -/
def lexLt {α : Type} (lt : α → α → Bool) : List α → List α → Bool
  | [], [] => false
  | [], _ :: _ => true
  | _ :: _, [] => false
  | a :: as, b :: bs => if lt a b then true else if lt b a then false else lexLt lt as bs

def charLt (a b : Char) : Bool := decide (a.toNat < b.toNat)

def strLt : Str → Str → Bool := lexLt charLt

/-- `operator<`, through `path::compare`: [fs.path.compare]. A trailing separator counts as an
additional empty element, which is smaller than each name. -/
def Path.lt (a b : Path) : Bool :=
  if a.root = b.root then
    if lexLt strLt a.names b.names then true
    else if lexLt strLt b.names a.names then false
    else !a.trailing && b.trailing
  else !a.root && b.root

/-! ## Normalisation -/

def dotdot : Str := ['.', '.']
def dot : Str := ['.']

/-- State of `lexically_normal`: names that remain, last one first, and whether a separator follows. -/
structure Norm where
  stack : List Str
  trailing : Bool

/-- One element in `lexically_normal` (libstdc++, src/c++17/fs_path.cc). -/
def normStep (root : Bool) (s : Norm) (p : Str) : Norm :=
  if p = dotdot then
    match s.stack with
    | [] => if root then s else ⟨[dotdot], false⟩
    | top :: rest =>
      if top = dotdot then ⟨dotdot :: top :: rest, false⟩
      else ⟨rest, !rest.isEmpty⟩
  else if p = dot ∨ p = [] then ⟨s.stack, !s.stack.isEmpty⟩
  else ⟨p :: s.stack, false⟩

/-- Elements that iteration over a path presents, except the root directory. -/
def Path.elems (p : Path) : List Str := p.names ++ (if p.trailing then [[]] else [])

/-- `path::lexically_normal()`: [fs.path.gen], [fs.path.generic]. -/
def Path.normal (p : Path) : Path :=
  if p = Path.empty then p
  else
    let s := p.elems.foldl (normStep p.root) ⟨[], false⟩
    match s.stack with
    | [] => if p.root then ⟨true, [], false⟩ else ⟨false, [dot], false⟩
    | top :: rest => ⟨p.root, (top :: rest).reverse, s.trailing && top ≠ dotdot⟩

/-- `std::mismatch`: what remains of both lists after their common prefix. -/
def mismatch : List Str → List Str → List Str × List Str
  | a :: as, b :: bs => if a = b then mismatch as bs else (a :: as, b :: bs)
  | as, bs => (as, bs)

/-- Counting in `lexically_relative`: number of names minus number of dot-dots. -/
def countUp : List Str → Int
  | [] => 0
  | p :: ps =>
    if p = dotdot then countUp ps - 1
    else if p = [] ∨ p = dot then countUp ps
    else countUp ps + 1

/-- `path::lexically_relative(base)`: [fs.path.gen]. -/
def Path.relativeTo (p base : Path) : Path :=
  if p.root ≠ base.root then Path.empty
  else
    let (a, b) := mismatch p.elems base.elems
    if a = [] ∧ b = [] then ⟨false, [dot], false⟩
    else
      let n := countUp b
      if n = 0 ∧ (a = [] ∨ a.head? = some []) then ⟨false, [dot], false⟩
      else if n ≥ 0 then
        let names := List.replicate n.toNat dotdot ++ a.filter (fun s => s ≠ [])
        ⟨false, names, a.getLast? = some [] && !names.isEmpty⟩
      else Path.empty

/-! ## File name extensions -/

/-- Position of the last dot in a file name, if the name has an extension: [fs.path.decompose].
The result is the stem and the extension, including the dot. -/
def splitExt (f : Str) : Str × Str :=
  if f = dot ∨ f = dotdot then (f, [])
  else
    let ext := (f.reverse.takeWhile (· ≠ '.')).reverse
    -- `ext` is what follows the last dot; there is one iff it is shorter than the name
    if ext.length = f.length then (f, [])
    else if ext.length + 1 = f.length then (f, []) -- the only dot is the first character
    else (f.take (f.length - ext.length - 1), '.' :: ext)

/-- `path::extension()` -/
def Path.extension (p : Path) : Str := (splitExt p.filename).2

/-- `path::stem()`, as a path: a file name has no separators. -/
def Path.stem (p : Path) : Path :=
  let s := (splitExt p.filename).1
  ⟨false, if s = [] then [] else [s], false⟩

/-! ## The order is total -/

theorem lexLt_irrefl {α : Type} {lt : α → α → Bool} (h : ∀ a, lt a a = false) (l : List α) :
    lexLt lt l l = false := by
  induction l with
  | nil => rfl
  | cons a l ih => simp [lexLt, h, ih]

theorem lexLt_trans {α : Type} {lt : α → α → Bool} (hi : ∀ a, lt a a = false)
    (ht : ∀ a b c, lt a b = true → lt b c = true → lt a c = true)
    (htri : ∀ a b, lt a b = false → lt b a = false → a = b) (a b c : List α)
    (h1 : lexLt lt a b = true) (h2 : lexLt lt b c = true) : lexLt lt a c = true := by
  have hasym : ∀ a b, lt a b = true → lt b a = false := by
    intro a b h
    cases h' : lt b a
    · rfl
    · have := ht a b a h h'; rw [hi] at this; cases this
  induction a generalizing b c with
  | nil =>
    cases b with
    | nil => simp [lexLt] at h1
    | cons y b =>
      cases c with
      | nil => simp [lexLt] at h2
      | cons z c => rfl
  | cons x a ih =>
    cases b with
    | nil => simp [lexLt] at h1
    | cons y b =>
      cases c with
      | nil => simp [lexLt] at h2
      | cons z c =>
        simp only [lexLt] at h1 h2 ⊢
        by_cases hxy : lt x y = true
        · by_cases hyz : lt y z = true
          · simp [ht x y z hxy hyz]
          · by_cases hzy : lt z y = true
            · simp [hyz, hzy] at h2
            · have := htri y z (by simpa using hyz) (by simpa using hzy)
              subst this; simp [hxy]
        · by_cases hyx : lt y x = true
          · simp [hxy, hyx] at h1
          · have := htri x y (by simpa using hxy) (by simpa using hyx)
            subst this
            simp only [hi, Bool.false_eq_true, if_false] at h1
            by_cases hyz : lt x z = true
            · simp [hyz]
            · by_cases hzy : lt z x = true
              · simp [hyz, hzy] at h2
              · simp only [hyz, hzy, Bool.false_eq_true, if_false] at h2 ⊢
                exact ih b c h1 h2

theorem lexLt_tri {α : Type} {lt : α → α → Bool}
    (htri : ∀ a b, lt a b = false → lt b a = false → a = b) (a b : List α)
    (h1 : lexLt lt a b = false) (h2 : lexLt lt b a = false) : a = b := by
  induction a generalizing b with
  | nil =>
    cases b with
    | nil => rfl
    | cons y b => simp [lexLt] at h1
  | cons x a ih =>
    cases b with
    | nil => simp [lexLt] at h2
    | cons y b =>
      simp only [lexLt] at h1 h2
      by_cases hxy : lt x y = true
      · simp [hxy] at h1
      · by_cases hyx : lt y x = true
        · simp [hyx] at h2
        · simp only [hxy, hyx, Bool.false_eq_true, if_false] at h1 h2
          rw [htri x y (by simpa using hxy) (by simpa using hyx), ih b h1 h2]

theorem charLt_irrefl (a : Char) : charLt a a = false := by simp [charLt]
theorem charLt_trans (a b c : Char) (h1 : charLt a b = true) (h2 : charLt b c = true) :
    charLt a c = true := by
  simp [charLt] at *; omega
theorem charLt_tri (a b : Char) (h1 : charLt a b = false) (h2 : charLt b a = false) : a = b := by
  simp [charLt] at *
  exact Char.toNat_inj.mp (by omega)

theorem strLt_irrefl (a : Str) : strLt a a = false := lexLt_irrefl charLt_irrefl a
theorem strLt_trans (a b c : Str) (h1 : strLt a b = true) (h2 : strLt b c = true) :
    strLt a c = true := lexLt_trans charLt_irrefl charLt_trans charLt_tri a b c h1 h2
theorem strLt_tri (a b : Str) (h1 : strLt a b = false) (h2 : strLt b a = false) : a = b :=
  lexLt_tri charLt_tri a b h1 h2

theorem Path.lt_irrefl (a : Path) : a.lt a = false := by
  simp [Path.lt, lexLt_irrefl strLt_irrefl]

theorem Path.lt_tri (a b : Path) (h1 : a.lt b = false) (h2 : b.lt a = false) : a = b := by
  obtain ⟨ra, na, ta⟩ := a
  obtain ⟨rb, nb, tb⟩ := b
  simp only [Path.lt] at h1 h2
  by_cases hr : ra = rb
  · subst hr
    simp only [if_true] at h1 h2
    by_cases h3 : lexLt strLt na nb = true
    · simp [h3] at h1
    · by_cases h4 : lexLt strLt nb na = true
      · simp [h4] at h2
      · simp only [h3, h4, Bool.false_eq_true, if_false] at h1 h2
        rw [lexLt_tri strLt_tri na nb (by simpa using h3) (by simpa using h4)]
        cases ta <;> cases tb <;> simp_all
  · rw [if_neg hr] at h1
    rw [if_neg (fun h => hr h.symm)] at h2
    cases ra <;> cases rb <;> simp_all

theorem Path.lt_trans (a b c : Path) (h1 : a.lt b = true) (h2 : b.lt c = true) : a.lt c = true := by
  obtain ⟨ra, na, ta⟩ := a
  obtain ⟨rb, nb, tb⟩ := b
  obtain ⟨rc, nc, tc⟩ := c
  simp only [Path.lt] at h1 h2 ⊢
  have htr := lexLt_trans strLt_irrefl strLt_trans strLt_tri
  have htri := lexLt_tri (lt := strLt) strLt_tri
  have hirr := lexLt_irrefl strLt_irrefl
  by_cases hab : ra = rb
  · subst hab
    simp only [if_true] at h1
    by_cases hbc : ra = rc
    · subst hbc
      simp only [if_true] at h2 ⊢
      by_cases p1 : lexLt strLt na nb = true
      · by_cases p2 : lexLt strLt nb nc = true
        · simp [htr _ _ _ p1 p2]
        · by_cases p3 : lexLt strLt nc nb = true
          · simp [p2, p3] at h2
          · have := htri nb nc (by simpa using p2) (by simpa using p3)
            subst this; simp [p1]
      · by_cases p2 : lexLt strLt nb na = true
        · simp [p1, p2] at h1
        · have := htri na nb (by simpa using p1) (by simpa using p2)
          subst this
          simp only [hirr, Bool.false_eq_true, if_false] at h1
          by_cases p3 : lexLt strLt na nc = true
          · simp [p3]
          · by_cases p4 : lexLt strLt nc na = true
            · simp [p3, p4] at h2
            · simp only [p3, p4, Bool.false_eq_true, if_false] at h2 ⊢
              cases ta <;> cases tb <;> cases tc <;> simp_all
    · rw [if_neg hbc] at h2 ⊢; exact h2
  · rw [if_neg hab] at h1
    by_cases hbc : rb = rc
    · subst hbc
      rw [if_neg hab]; exact h1
    · rw [if_neg hbc] at h2
      cases ra <;> cases rb <;> cases rc <;> simp_all

instance : Db.PathType Path where
  lt := Path.lt
  irrefl := Path.lt_irrefl
  trans := Path.lt_trans
  tri := Path.lt_tri
  norm := Path.normal
  empty := Path.empty

/-! ## Checks of the model against examples from the standard -/

/-- For writing examples. -/
def p (s : String) : Path := parse s.toList

example : p "foo/./bar/.." = p "foo/bar/.." → False := by decide
example : (p "foo/./bar/..").normal = p "foo/" := by decide
example : (p "foo/.///bar/../").normal = p "foo/" := by decide
example : (p "../a").normal = p "../a" := by decide
example : (p "/../a").normal = p "/a" := by decide
example : (p "a/..").normal = p "." := by decide
example : (p "a/../../b").normal = p "../b" := by decide
example : (p "").normal = p "" := by decide
example : (p "/a/d").relativeTo (p "/a/b/c") = p "../../d" := by decide
example : (p "/a/b/c").relativeTo (p "/a/d") = p "../b/c" := by decide
example : (p "a/b/c").relativeTo (p "a") = p "b/c" := by decide
example : (p "a/b/c").relativeTo (p "a/b/c/x/y") = p "../.." := by decide
example : (p "a/b/c").relativeTo (p "a/b/c") = p "." := by decide
example : (p "a/b").relativeTo (p "c/d") = p "../../a/b" := by decide
example : p "foo" / p "" = p "foo/" := by decide
example : p "foo" / p "/bar" = p "/bar" := by decide
example : p "foo" / p "bar" = p "foo/bar" := by decide
example : (p "foo/bar.tar.gz").extension = ".gz".toList := by decide
example : (p "foo/.bar").extension = "".toList := by decide
example : (p "foo/..bar").extension = ".bar".toList := by decide
example : (p "foo/bar.").extension = ".".toList := by decide
example : (p "a/b").parent = p "a" := by decide
example : (p "a/").parent = p "a" := by decide
example : (p "a").parent = p "" := by decide
example : (p "/a").parent = p "/" := by decide
example : (p "/").parent = p "/" := by decide
example : Path.lt (p "a") (p "a/") = true ∧ Path.lt (p "a/") (p "a/b") = true := by decide

end Maike.Fs
