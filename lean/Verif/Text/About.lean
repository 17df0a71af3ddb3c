import Verif.Text.Template

/-!
# What `--version` and `--about` print (C108)

core/bin/about.py writes a C++ header with what is known about the program when it is built; core/bin/about.cpp includes the header; core/bin/maike.cpp:140-187 prints the strings.

Simplifications:
- The values that are inserted are texts. Numbers are only modelled for the years of a copyright notice.
- Characters instead of bytes (the script, the compiler and the program all copy bytes).
- Of C++, what is needed for headers of this form: directives, identifiers, the punctuators `*`, `:`, `=` and `;`, string literals, and definitions of pointers to them. Everything else counts as an error, including comments,
  and escape sequences for characters that are not in ASCII.
-/

namespace Maike.Text.About

open Maike.Text.Template (Str substitute)

/-! ## The script -/

/-- One entry of `copyright` in `projinfo.json`. -/
structure Holder where
  years : List Nat
  author : Str
deriving DecidableEq, Repr

/-- What is known when the program is built: the members of `build_info` that are used, of `maike.vcslog`, and of `projinfo.json`. -/
structure Info where
  buildId : Str
  startTime : Str
  buildHost : Str
  commit : Str
  tag : Str
  copyright : List Holder
  description : Str
  license : Str
deriving DecidableEq, Repr

/-- `sep.join(l)` -/
def join (sep : Str) : List Str → Str
  | [] => []
  | [x] => x
  | x :: y :: l => x ++ sep ++ join sep (y :: l)

/-- `sorted(years)` -/
def insertYear (y : Nat) : List Nat → List Nat
  | [] => [y]
  | x :: l => if y ≤ x then y :: x :: l else x :: insertYear y l

def sortYears (l : List Nat) : List Nat := l.foldr insertYear []

/-- `'© %s : %s'%(', '.join(years_str), item['author'])`, core/bin/about.py:51-58. -/
def notice (h : Holder) : Str := "© ".toList ++ join ", ".toList ((sortYears h.years).map fun y => Nat.toDigits 10 y) ++ " : ".toList ++ h.author

/-- A dictionary. -/
def dict (l : List (String × Str)) (n : Str) : Option Str := (l.find? fun x => x.1.toList = n).map (·.2)

/-- core/bin/about.py:15-20 -/
def buildInfoTemplate : Str := "char const* Maike::Self::BuildId = \"$build_id\";

char const* Maike::Self::BuildStartTime = \"$start_time\";

char const* Maike::Self::BuildHost = \"$build_host\";
".toList

/-- core/bin/about.py:22-25 -/
def vcsInfoTemplate : Str := "char const* Maike::Self::VcsRevisionId = \"$commit\";

char const* Maike::Self::VcsTag = \"$tag\";
".toList

/-- core/bin/about.py:27-41 -/
def fileTemplate : Str := "#ifndef MAIKE_BIN_ABOUTIMPL_HPP
#define MAIKE_BIN_ABOUTIMPL_HPP

$build_info

$vcs_info

char const* Maike::Self::Copyright = \"$copyright\";

char const* Maike::Self::DescriptionShort = \"$description_short\";

char const* Maike::Self::LegalBrief = \"$legal_brief\";

#endif
".toList

/-- `compile`, core/bin/about.py:60-78: what is written to the header. The separator of the lines of the copyright notice is a backslash and an `n`. -/
def header (i : Info) : Option Str := do
  let buildInfo ← substitute (dict [("build_id", i.buildId), ("start_time", i.startTime), ("build_host", i.buildHost)]) buildInfoTemplate
  let vcsInfo ← substitute (dict [("commit", i.commit), ("tag", i.tag)]) vcsInfoTemplate
  substitute (dict [("build_info", buildInfo), ("vcs_info", vcsInfo), ("copyright", join ['\\', 'n'] (i.copyright.map notice)), ("description_short", i.description), ("legal_brief", i.license)])
    fileTemplate

/-! ## The compiler -/

inductive Tok where
  | ident (s : Str)
  | lit (s : Str)
  | punct (c : Char)
deriving DecidableEq, Repr

/-- What is being read. -/
inductive Mode where
  /-- nothing, and nothing precedes it in its line -/
  | line
  /-- nothing, in the middle of a line -/
  | start
  | directive
  | ident (acc : Str)
  | str (acc : Str)
  /-- in a string literal, after a backslash -/
  | esc (acc : Str)
  /-- in a string literal, after a backslash and `n` octal digits -/
  | oct (acc : Str) (value n : Nat)
  /-- in a string literal, after a backslash, an `x`, and hexadecimal digits; at first there are none -/
  | hex (acc : Str) (value : Option Nat)
deriving DecidableEq, Repr

def simpleEscape (c : Char) : Option Char :=
  if c = '\'' then some '\'' else if c = '"' then some '"' else if c = '?' then some '?' else if c = '\\' then some '\\'
  else if c = 'a' then some (Char.ofNat 7) else if c = 'b' then some (Char.ofNat 8) else if c = 'f' then some (Char.ofNat 12) else if c = 'n' then some '\n'
  else if c = 'r' then some '\r' else if c = 't' then some '\t' else if c = 'v' then some (Char.ofNat 11) else none

def octValue (c : Char) : Option Nat := if '0' ≤ c ∧ c ≤ '7' then some (c.toNat - 48) else none

def hexValue (c : Char) : Option Nat :=
  if c.isDigit then some (c.toNat - 48) else if 'a' ≤ c ∧ c ≤ 'f' then some (c.toNat - 87) else if 'A' ≤ c ∧ c ≤ 'F' then some (c.toNat - 55) else none

/-- The character of an escape sequence with a number. -/
def numeric (v : Nat) : Option Char := if v < 128 then some (Char.ofNat v) else none

/-- The next character between two tokens. -/
def between (m : Mode) (c : Char) : Option (Mode × List Tok) :=
  if c = '\n' then some (.line, [])
  else if c = ' ' ∨ c = '\t' then some (m, [])
  else if c = '#' then (if m = .line then some (.directive, []) else none)
  else if c = '"' then some (.str [], [])
  else if Template.idStart c then some (.ident [c], [])
  else if c = '*' ∨ c = ':' ∨ c = '=' ∨ c = ';' then some (.start, [.punct c])
  else none

/-- The next character of a string literal. -/
def inside (acc : Str) (c : Char) : Option (Mode × List Tok) :=
  if c = '"' then some (.start, [.lit acc])
  else if c = '\n' then none
  else if c = '\\' then some (.esc acc, [])
  else some (.str (acc ++ [c]), [])

/-- The next character: what is being read after it, and the tokens that end with it or before it. The result is `none` if there is an error. -/
def step : Mode → Char → Option (Mode × List Tok)
  | .line, c => between .line c
  | .start, c => between .start c
  | .directive, c => some (if c = '\n' then .line else .directive, [])
  | .ident acc, c => if Template.idChar c then some (.ident (acc ++ [c]), []) else (between .start c).map fun r => (r.1, .ident acc :: r.2)
  | .str acc, c => inside acc c
  | .esc acc, c =>
    match simpleEscape c with
    | some x => some (.str (acc ++ [x]), [])
    | none => match octValue c with
      | some v => some (.oct acc v 1, [])
      | none => if c = 'x' then some (.hex acc none, []) else none
  | .oct acc v n, c =>
    match octValue c, decide (n < 3) with
    | some d, true => some (.oct acc (8 * v + d) (n + 1), [])
    | _, _ => (numeric v).bind fun x => inside (acc ++ [x]) c
  | .hex acc v, c =>
    match hexValue c with
    | some d => some (.hex acc (some (16 * v.getD 0 + d)), [])
    | none => (v.bind numeric).bind fun x => inside (acc ++ [x]) c

/-- Many characters. -/
def run : Mode → Str → Option (Mode × List Tok)
  | m, [] => some (m, [])
  | m, c :: cs => (step m c).bind fun r => (run r.1 cs).map fun r' => (r'.1, r.2 ++ r'.2)

/-- Adjacent string literals are one. -/
def lits : List Tok → Str × List Tok
  | .lit s :: r => (s ++ (lits r).1, (lits r).2)
  | ts => ([], ts)

/-- Definitions of the form `char const* Maike::Self::name = "value";`. -/
def definitions : Nat → List Tok → Option (List (Str × Str))
  | 0, _ => none
  | _ + 1, [] => some []
  | k + 1, ts =>
    if ts.take 9 = [.ident "char".toList, .ident "const".toList, .punct '*', .ident "Maike".toList, .punct ':', .punct ':', .ident "Self".toList, .punct ':', .punct ':'] then
      match ts.drop 9 with
      | .ident x :: .punct '=' :: .lit s :: r =>
        match (lits (.lit s :: r)).2 with
        | .punct ';' :: r' => (definitions k r').map ((x, (lits (.lit s :: r)).1) :: ·)
        | _ => none
      | _ => none
    else none

/-- All tokens of a file. -/
def tokens (text : Str) : Option (List Tok) :=
  match run .line text with
  | some (.line, ts) => some ts
  | some (.start, ts) => some ts
  | _ => none

/-- The characters of a string up to the first null character: what `%s` prints. -/
def cString (s : Str) : Str := s.takeWhile (· ≠ Char.ofNat 0)

/-- A variable, if there is exactly one definition of it. -/
def variable? (defs : List (Str × Str)) (name : String) : Option Str :=
  match defs.filter fun d => d.1 = name.toList with
  | [d] => some (cString d.2)
  | _ => none

/-- The variables declared in core/bin/about.hpp. -/
structure Self where
  buildId : Str
  buildStartTime : Str
  buildHost : Str
  vcsRevisionId : Str
  vcsTag : Str
  copyright : Str
  descriptionShort : Str
  legalBrief : Str
deriving DecidableEq, Repr

/-- core/bin/about.cpp is compiled with this header, and the program is linked. The result is `none` if there is an error. -/
def compiled (text : Str) : Option Self := do
  let ts ← tokens text
  let defs ← definitions (ts.length + 1) ts
  some ⟨← variable? defs "BuildId", ← variable? defs "BuildStartTime", ← variable? defs "BuildHost", ← variable? defs "VcsRevisionId", ← variable? defs "VcsTag", ← variable? defs "Copyright",
    ← variable? defs "DescriptionShort", ← variable? defs "LegalBrief"⟩

/-! ## The program -/

/-- `printf` with `%s` only. -/
def printf : Str → List Str → Option Str
  | '%' :: 's' :: f, a :: as => (printf f as).map (a ++ ·)
  | '%' :: _, _ => none
  | [], _ => some []
  | c :: f, as => (printf f as).map (c :: ·)

/-- core/bin/maike.cpp:141-157 -/
def printVersion (s : Self) : Option Str :=
  printf "# Maike %s (%s)

Build start time: %s

Build id: %s

Build host: %s

".toList [s.vcsTag, s.vcsRevisionId, s.buildStartTime, s.buildId, s.buildHost]

/-- core/bin/maike.cpp:159-187 -/
def printAbout (s : Self) : Option Str :=
  printf "# Maike %s (%s)

%s

%s

%s

## Build info

Start time: %s

Id: %s

Build host: %s

".toList [s.vcsTag, s.vcsRevisionId, s.descriptionShort, s.copyright, s.legalBrief, s.buildStartTime, s.buildId, s.buildHost]

/-! ## Specification -/

/-- The text can be put between quotation marks. -/
def Clean (s : Str) : Prop := ∀ c ∈ s, c ≠ '"' ∧ c ≠ '\\' ∧ c ≠ '\n' ∧ c ≠ Char.ofNat 0

instance (s : Str) : Decidable (Clean s) := by unfold Clean; infer_instance

/-- The years in ascending order. -/
structure Ascending (l l' : List Nat) : Prop where
  perm : l'.Perm l
  sorted : l'.Pairwise (· ≤ ·)

/-- The line for a holder: the years in ascending order, in decimal notation and separated by commas, and the author. -/
def IsNotice (h : Holder) (line : Str) : Prop :=
  ∃ years, Ascending h.years years ∧ line = "© ".toList ++ join ", ".toList (years.map fun y => Nat.toDigits 10 y) ++ " : ".toList ++ h.author

/-- What the variables should be. -/
def Info.expected (i : Info) : Self :=
  ⟨i.buildId, i.startTime, i.buildHost, i.commit, i.tag, join ['\n'] (i.copyright.map notice), i.description, i.license⟩

/-! ## Lemmas -/

theorem run_append (m : Mode) (a b : Str) : run m (a ++ b) = (run m a).bind fun r => (run r.1 b).map fun r' => (r'.1, r.2 ++ r'.2) := by
  induction a generalizing m with
  | nil => simp [run]
  | cons c a ih =>
    simp only [List.cons_append, run]
    cases step m c with
    | none => rfl
    | some r =>
      simp only [Option.bind_some, ih]
      cases run r.1 a with
      | none => rfl
      | some r' =>
        simp only [Option.bind_some, Option.map_some]
        cases run r'.1 b with
        | none => rfl
        | some r'' => simp

theorem run_append_of {m m' : Mode} {a b : Str} {ts : List Tok} (h : run m a = some (m', ts)) : run m (a ++ b) = (run m' b).map fun r => (r.1, ts ++ r.2) := by
  rw [run_append, h]; rfl

/-- The text stands for the value in a string literal. -/
def Lit (text value : Str) : Prop := ∀ acc, run (.str acc) text = some (.str (acc ++ value), [])

theorem Lit.append {a b x y : Str} (h : Lit a x) (h' : Lit b y) : Lit (a ++ b) (x ++ y) := fun acc => by
  rw [run_append_of (h acc), h']; simp

/-- Characters that have no special meaning. -/
def NoSpecial (s : Str) : Prop := ∀ c ∈ s, c ≠ '"' ∧ c ≠ '\\' ∧ c ≠ '\n'

theorem NoSpecial.lit {s : Str} (h : NoSpecial s) : Lit s s := by
  induction s with
  | nil => intro acc; simp [run]
  | cons c s ih =>
    intro acc
    obtain ⟨h1, h2, h3⟩ := h c (by simp)
    simp only [run, step, inside, if_neg h1, if_neg h2, if_neg h3, Option.bind_some]
    rw [ih (fun x hx => h x (by simp [hx]))]
    simp

theorem Clean.noSpecial {s : Str} (h : Clean s) : NoSpecial s := fun c hc => ⟨(h c hc).1, (h c hc).2.1, (h c hc).2.2.1⟩

theorem Clean.append {a b : Str} (ha : Clean a) (hb : Clean b) : Clean (a ++ b) := fun c hc => by
  rcases List.mem_append.mp hc with h | h
  · exact ha c h
  · exact hb c h

theorem lit_newline : Lit ['\\', 'n'] ['\n'] := fun acc => by simp [run, step, inside, simpleEscape]

theorem lit_lines {l : List Str} (h : ∀ x ∈ l, Clean x) : Lit (join ['\\', 'n'] l) (join ['\n'] l) := by
  match l with
  | [] => intro acc; simp [join, run]
  | [x] => exact (h x (by simp)).noSpecial.lit
  | x :: y :: l => exact ((h x (by simp)).noSpecial.lit.append lit_newline).append (lit_lines fun z hz => h z (by simp [hz]))

theorem cString_of {s : Str} (h : Char.ofNat 0 ∉ s) : cString s = s := by
  induction s with
  | nil => rfl
  | cons c s ih =>
    simp only [List.mem_cons, not_or] at h
    have hc : (decide (c ≠ Char.ofNat 0)) = true := by simpa using Ne.symm h.1
    simp only [cString, List.takeWhile_cons, hc, if_true]
    exact congrArg _ (ih h.2)

theorem cString_no_null (s : Str) : Char.ofNat 0 ∉ cString s := fun h => by
  have : ∀ l : Str, ∀ c ∈ l.takeWhile (· ≠ Char.ofNat 0), c ≠ Char.ofNat 0 := by
    intro l
    induction l with
    | nil => simp
    | cons x l ih =>
      intro c hc
      rw [List.takeWhile_cons] at hc
      split at hc
      · rename_i hx
        rcases List.mem_cons.mp hc with rfl | hc
        · simpa using hx
        · exact ih c hc
      · cases hc
  exact this s _ h rfl

theorem cString_length (s : Str) : (cString s).length ≤ s.length := by
  unfold cString
  induction s with
  | nil => simp
  | cons c s ih => rw [List.takeWhile_cons]; split <;> simp only [List.length_cons, List.length_nil] <;> omega

/-! ### Not more characters than there are -/

/-- How many characters of a literal have been read. -/
def pend : Mode → Nat
  | .str acc => acc.length
  | .esc acc => acc.length
  | .oct acc _ _ => acc.length + 1
  | .hex acc _ => acc.length + 1
  | _ => 0

/-- What one character can do: no token; a literal; or other tokens first. -/
theorem step_pend {m m' : Mode} {c : Char} {ts : List Tok} (h : step m c = some (m', ts)) :
    (ts = [] ∧ pend m' ≤ pend m + 1) ∨ (∃ a, ts = [.lit a] ∧ a.length + pend m' ≤ pend m + 1) ∨ (∃ t r, ts = t :: r ∧ ∀ a, t ≠ .lit a) := by
  have hb : ∀ {n : Mode}, between n c = some (m', ts) → pend n = 0 → (ts = [] ∧ pend m' = 0) ∨ (∃ t r, ts = t :: r ∧ ∀ a, t ≠ .lit a) := by
    intro n hn h0
    simp only [between] at hn
    repeat' split at hn
    all_goals first
      | (cases hn; done)
      | (cases hn; left; exact ⟨rfl, h0⟩)
      | (cases hn; left; exact ⟨rfl, rfl⟩)
      | (cases hn; right; exact ⟨_, _, rfl, by simp⟩)
  have hin : ∀ {acc : Str}, inside acc c = some (m', ts) → (ts = [] ∧ pend m' ≤ acc.length + 1) ∨ (∃ a, ts = [.lit a] ∧ a.length + pend m' ≤ acc.length + 1) := by
    intro acc hn
    simp only [inside] at hn
    repeat' split at hn
    · cases hn; right; exact ⟨_, rfl, by simp [pend]⟩
    · cases hn
    · cases hn; left; exact ⟨rfl, by simp [pend]⟩
    · cases hn; left; exact ⟨rfl, by simp [pend]⟩
  cases m with
  | line => rcases hb h rfl with ⟨h1, h2⟩ | h1; (exact .inl ⟨h1, by omega⟩); exact .inr (.inr h1)
  | start => rcases hb h rfl with ⟨h1, h2⟩ | h1; (exact .inl ⟨h1, by omega⟩); exact .inr (.inr h1)
  | directive =>
    simp only [step, Option.some.injEq, Prod.mk.injEq] at h
    obtain ⟨rfl, rfl⟩ := h
    left; refine ⟨rfl, ?_⟩; split <;> simp [pend]
  | ident acc =>
    simp only [step] at h
    split at h
    · cases h; left; exact ⟨rfl, by simp [pend]⟩
    · obtain ⟨r, _, h⟩ := Option.map_eq_some_iff.mp h
      cases h
      right; right; exact ⟨_, _, rfl, by simp⟩
  | str acc =>
    rcases hin h with h1 | h1
    · exact .inl h1
    · exact .inr (.inl h1)
  | esc acc =>
    simp only [step] at h
    repeat' split at h
    all_goals first
      | (cases h; done)
      | (cases h; left; exact ⟨rfl, by simp [pend]⟩)
  | oct acc v n =>
    simp only [step] at h
    split at h
    · cases h; left; exact ⟨rfl, by simp [pend]⟩
    · obtain ⟨x, _, h⟩ := Option.bind_eq_some_iff.mp h
      rcases hin h with h1 | h1
      · simp only [List.length_append, List.length_singleton] at h1; exact .inl h1
      · simp only [List.length_append, List.length_singleton] at h1; exact .inr (.inl h1)
  | hex acc v =>
    simp only [step] at h
    split at h
    · cases h; left; exact ⟨rfl, by simp [pend]⟩
    · obtain ⟨x, _, h⟩ := Option.bind_eq_some_iff.mp h
      rcases hin h with h1 | h1
      · simp only [List.length_append, List.length_singleton] at h1; exact .inl h1
      · simp only [List.length_append, List.length_singleton] at h1; exact .inr (.inl h1)

theorem run_cons {m m' : Mode} {c : Char} {s : Str} {ts : List Tok} (h : run m (c :: s) = some (m', ts)) :
    ∃ m₁ t₁ t₂, step m c = some (m₁, t₁) ∧ run m₁ s = some (m', t₂) ∧ ts = t₁ ++ t₂ := by
  simp only [run] at h
  obtain ⟨⟨m₁, t₁⟩, h1, h⟩ := Option.bind_eq_some_iff.mp h
  obtain ⟨⟨m₂, t₂⟩, h2, h⟩ := Option.map_eq_some_iff.mp h
  cases h
  exact ⟨m₁, t₁, t₂, h1, h2, rfl⟩

theorem lits_other {t : Tok} {r : List Tok} (h : ∀ a, t ≠ .lit a) : lits (t :: r) = ([], t :: r) := by
  cases t with
  | lit a => exact absurd rfl (h a)
  | ident _ => rfl
  | punct _ => rfl

/-- A literal that has been opened after the last quotation mark of a line is not closed. -/
theorem not_closed {acc : Str} {rest : Str} {m' : Mode} {ts : List Tok} (h : run (.str acc) (';' :: '\n' :: rest) = some (m', ts)) : False := by
  obtain ⟨m₁, t₁, t₂, h1, h2, _⟩ := run_cons h
  simp only [step, inside, show (';' : Char) ≠ '"' from by decide, show (';' : Char) ≠ '\n' from by decide, show (';' : Char) ≠ '\\' from by decide, if_false] at h1
  cases h1
  obtain ⟨_, _, _, h1, _⟩ := run_cons h2
  simp [step, inside] at h1

/-- A literal that is closed by the quotation mark, and a semicolon. -/
theorem closed {acc : Str} {rest : Str} {m' : Mode} {ts : List Tok} (h : run .start (';' :: rest) = some (m', ts)) : (lits (.lit acc :: ts)).1 = acc := by
  obtain ⟨m₁, t₁, t₂, h1, h2, rfl⟩ := run_cons h
  simp [step, between, Template.idStart] at h1
  obtain ⟨rfl, rfl⟩ := h1
  simp [lits]

theorem run_pend {rest : Str} {m' : Mode} (hrest : ∀ ts, run .line rest = some (m', ts) → (lits ts).1 = []) (s : Str) (m : Mode) (ts : List Tok)
    (h : run m (s ++ '"' :: ';' :: '\n' :: rest) = some (m', ts)) : (lits ts).1.length ≤ pend m + s.length := by
  induction s generalizing m ts with
  | nil =>
    obtain ⟨m₁, t₁, t₂, h1, h2, rfl⟩ := run_cons h
    have hin : ∀ {acc : Str}, inside acc '"' = some (m₁, t₁) → (lits (t₁ ++ t₂)).1.length ≤ acc.length := by
      intro acc h1
      simp only [inside, if_true] at h1
      cases h1
      simp only [List.cons_append, List.nil_append]
      rw [closed h2]
      exact Nat.le_refl _
    cases m with
    | line =>
      simp [step, between] at h1
      obtain ⟨rfl, rfl⟩ := h1
      exact (not_closed h2).elim
    | start =>
      simp [step, between] at h1
      obtain ⟨rfl, rfl⟩ := h1
      exact (not_closed h2).elim
    | directive =>
      simp [step] at h1
      obtain ⟨rfl, rfl⟩ := h1
      obtain ⟨m₁, t₁, t₃, h1, h3, rfl⟩ := run_cons h2
      simp [step] at h1
      obtain ⟨rfl, rfl⟩ := h1
      obtain ⟨m₁, t₁, t₄, h1, h4, rfl⟩ := run_cons h3
      simp [step] at h1
      obtain ⟨rfl, rfl⟩ := h1
      simp only [List.nil_append]
      rw [hrest _ h4]
      simp
    | ident acc =>
      simp only [step, show Template.idChar '"' = false from by decide, Bool.false_eq_true, if_false] at h1
      obtain ⟨r, _, h1⟩ := Option.map_eq_some_iff.mp h1
      cases h1
      simp only [List.cons_append]
      rw [lits_other (by simp)]
      simp
    | str acc => exact hin h1
    | esc acc =>
      simp [step, simpleEscape] at h1
      obtain ⟨rfl, rfl⟩ := h1
      exact (not_closed h2).elim
    | oct acc v n =>
      simp only [step, show octValue '"' = none from by decide] at h1
      obtain ⟨x, _, h1⟩ := Option.bind_eq_some_iff.mp h1
      have := hin h1
      simpa [pend] using this
    | hex acc v =>
      simp only [step, show hexValue '"' = none from by decide] at h1
      obtain ⟨x, _, h1⟩ := Option.bind_eq_some_iff.mp h1
      have := hin h1
      simpa [pend] using this
  | cons c s ih =>
    obtain ⟨m₁, t₁, t₂, h1, h2, rfl⟩ := run_cons h
    have := ih m₁ t₂ h2
    rcases step_pend h1 with ⟨rfl, h3⟩ | ⟨a, rfl, h3⟩ | ⟨t, r, rfl, h3⟩
    · simp only [List.nil_append, List.length_cons]; omega
    · simp only [List.cons_append, List.nil_append, lits, List.length_append, List.length_cons]; omega
    · simp only [List.cons_append]; rw [lits_other h3]; simp

/-- Characters with a special meaning are lost. -/
theorem run_special {rest : Str} {m' : Mode} (hrest : ∀ ts, run .line rest = some (m', ts) → (lits ts).1 = []) (s : Str) (hs : ¬ NoSpecial s) (acc : Str) (ts : List Tok)
    (h : run (.str acc) (s ++ '"' :: ';' :: '\n' :: rest) = some (m', ts)) : (lits ts).1.length < acc.length + s.length := by
  induction s generalizing acc ts with
  | nil => exact absurd (by simp [NoSpecial]) hs
  | cons c s ih =>
    obtain ⟨m₁, t₁, t₂, h1, h2, rfl⟩ := run_cons h
    simp only [step, inside] at h1
    split at h1
    · cases h1
      have := run_pend hrest s _ _ h2
      simp only [pend, List.cons_append, List.nil_append, lits, List.length_append, List.length_cons] at this ⊢
      omega
    · rename_i n1
      split at h1
      · cases h1
      · rename_i n2
        split at h1
        · cases h1
          have := run_pend hrest s _ _ h2
          simp only [pend, List.nil_append, List.length_cons] at this ⊢
          omega
        · rename_i n3
          cases h1
          have hs' : ¬ NoSpecial s := fun h => hs fun x hx => by
            rcases List.mem_cons.mp hx with rfl | hx
            · exact ⟨n1, n3, n2⟩
            · exact h x hx
          have := ih hs' _ _ h2
          simp only [List.length_append, List.nil_append, List.length_cons, List.length_nil] at this ⊢
          omega

/-! ### Files of this form -/

/-- A definition: a name, the text between the quotation marks, what it should stand for, and the number of empty lines after it. -/
structure Seg where
  name : Str
  text : Str
  value : Str
  pad : Nat

/-- The definitions, and the end of the file. -/
def body : List Seg → Str
  | [] => "#endif\n".toList
  | g :: gs => "char const* Maike::Self::".toList ++ (g.name ++ (" = \"".toList ++ (g.text ++ '"' :: ';' :: '\n' :: (List.replicate g.pad '\n' ++ body gs))))

theorem body_cons (g : Seg) (gs : List Seg) :
    body (g :: gs) = "char const* Maike::Self::".toList ++ (g.name ++ (" = \"".toList ++ (g.text ++ '"' :: ';' :: '\n' :: (List.replicate g.pad '\n' ++ body gs)))) := rfl

/-- The tokens before a name. -/
def lead : List Tok :=
  [.ident "char".toList, .ident "const".toList, .punct '*', .ident "Maike".toList, .punct ':', .punct ':', .ident "Self".toList, .punct ':', .punct ':']

theorem run_name (n : Str) (hn : ∀ c ∈ n, Template.idChar c = true) (acc : Str) : run (.ident acc) n = some (.ident (acc ++ n), []) := by
  induction n generalizing acc with
  | nil => simp [run]
  | cons c n ih =>
    simp only [run, step, hn c (by simp), if_true, Option.bind_some]
    rw [ih (fun x hx => hn x (by simp [hx]))]
    simp

theorem run_first {c : Char} (h : Template.idStart c = true) : step .start c = some (.ident [c], []) := by
  have hne : c ≠ '\n' ∧ c ≠ ' ' ∧ c ≠ '\t' ∧ c ≠ '#' ∧ c ≠ '"' := by refine ⟨?_, ?_, ?_, ?_, ?_⟩ <;> (rintro rfl; revert h; decide)
  obtain ⟨h1, h2, h3, h4, h5⟩ := hne
  simp [step, between, h1, h2, h3, h4, h5, h]

theorem run_intro {n : Str} (hn : Template.IsName n) (rest : Str) : run .line ("char const* Maike::Self::".toList ++ (n ++ (" = \"".toList ++ rest))) =
    (run (.str []) rest).map fun r => (r.1, lead ++ ([.ident n, .punct '='] ++ r.2)) := by
  obtain ⟨c, r, rfl, hc, hr⟩ := hn
  have h0 : run .line "char const* Maike::Self::".toList = some (.start, lead) := by decide +kernel
  rw [run_append_of h0]
  have h1 : run .start (c :: r) = some (.ident (c :: r), []) := by
    simp only [run, run_first hc, Option.bind_some]
    rw [run_name r hr]
    rfl
  rw [run_append_of h1]
  have h2 : run (.ident (c :: r)) " = \"".toList = some (.str [], [.ident (c :: r), .punct '=']) := by
    show run (.ident (c :: r)) [' ', '=', ' ', '"'] = _
    simp [run, step, between, Template.idChar, Template.idStart]
  rw [run_append_of h2]
  cases run (.str []) rest <;> simp

theorem run_pad (n : Nat) (rest : Str) : run .line (List.replicate n '\n' ++ rest) = run .line rest := by
  induction n with
  | zero => rfl
  | succ n ih =>
    simp only [List.replicate_succ, List.cons_append, run, step, between, if_true, Option.bind_some, ih]
    cases run .line rest <;> simp

theorem body_first {gs : List Seg} (hn : ∀ g ∈ gs, Template.IsName g.name) (pad : Nat) {m' : Mode} {ts : List Tok} (h : run .line (List.replicate pad '\n' ++ body gs) = some (m', ts)) :
    (lits ts).1 = [] := by
  rw [run_pad] at h
  cases gs with
  | nil =>
    have : run .line (body []) = some (.line, []) := by decide +kernel
    rw [this] at h
    cases h
    rfl
  | cons g gs =>
    rw [body_cons, run_intro (hn g (by simp))] at h
    obtain ⟨r, _, h⟩ := Option.map_eq_some_iff.mp h
    cases h
    rfl

theorem run_close {acc rest : Str} {r : Mode × List Tok} (h : run .line rest = some r) : run (.str acc) ('"' :: ';' :: '\n' :: rest) = some (r.1, .lit acc :: .punct ';' :: r.2) := by
  simp [run, step, inside, between, Template.idStart, h]

/-- The tokens of the file. -/
def toks : List Seg → List Tok
  | [] => []
  | g :: gs => lead ++ ([.ident g.name, .punct '='] ++ (.lit g.value :: .punct ';' :: toks gs))

theorem run_body {gs : List Seg} (hn : ∀ g ∈ gs, Template.IsName g.name) (hl : ∀ g ∈ gs, Lit g.text g.value) : run .line (body gs) = some (.line, toks gs) := by
  induction gs with
  | nil => decide +kernel
  | cons g gs ih =>
    have h := ih (fun x hx => hn x (by simp [hx])) (fun x hx => hl x (by simp [hx]))
    rw [body_cons, run_intro (hn g (by simp)), run_append_of (hl g (by simp) []), run_close (by rw [run_pad]; exact h)]
    rfl

theorem definitions_cons {k : Nat} {name : Str} {ts : List Tok} {defs : List (Str × Str)} (h : definitions (k + 1) (lead ++ ([.ident name, .punct '='] ++ ts)) = some defs) :
    ∃ r defs', (lits ts).2 = .punct ';' :: r ∧ definitions k r = some defs' ∧ defs = (name, (lits ts).1) :: defs' := by
  simp only [definitions, lead, List.cons_append, List.nil_append, List.take_succ_cons, List.take_zero, if_true, List.drop_succ_cons, List.drop_zero] at h
  split at h
  · rename_i x s r e
    simp only [List.cons.injEq, Tok.ident.injEq, true_and] at e
    obtain ⟨rfl, e⟩ := e
    subst e
    split at h
    · rename_i r' e'
      obtain ⟨defs', h1, rfl⟩ := Option.map_eq_some_iff.mp h
      exact ⟨r', defs', e', h1, rfl⟩
    · cases h
  · cases h

theorem definitions_toks {gs : List Seg} {k : Nat} (hk : gs.length < k) : definitions k (toks gs) = some (gs.map fun g => (g.name, g.value)) := by
  induction gs generalizing k with
  | nil =>
    obtain ⟨k, rfl⟩ : ∃ n, k = n + 1 := ⟨k - 1, by simp at hk; omega⟩
    rfl
  | cons g gs ih =>
    obtain ⟨k, rfl⟩ : ∃ n, k = n + 1 := ⟨k - 1, by simp at hk; omega⟩
    have := ih (k := k) (by simp at hk; omega)
    simp only [toks, definitions, lead, List.cons_append, List.nil_append, List.take_succ_cons, List.take_zero, if_true, List.drop_succ_cons, List.drop_zero, lits, this, Option.map_some,
      List.map_cons, List.append_nil]

theorem tokens_some {text : Str} {ts : List Tok} (h : tokens text = some ts) : ∃ m, run .line text = some (m, ts) := by
  unfold tokens at h
  split at h
  · rename_i r e; cases h; exact ⟨_, e⟩
  · rename_i r e; cases h; exact ⟨_, e⟩
  · cases h

/-- If the first definition of each name has the expected value, then values that have been inserted as they are have no characters with a special meaning. -/
theorem clean_of_body {gs : List Seg} (hn : ∀ g ∈ gs, Template.IsName g.name) (hd : (gs.map (·.name)).Nodup) (hl : ∀ g ∈ gs, g.text = g.value ∨ Lit g.text g.value) {m : Mode} {ts : List Tok}
    (h : run .line (body gs) = some (m, ts)) {k : Nat} {defs : List (Str × Str)} (hk : definitions k ts = some defs)
    (hv : ∀ g ∈ gs, ∃ d, defs.find? (fun d => d.1 = g.name) = some d ∧ cString d.2 = g.value) : ∀ g ∈ gs, g.text = g.value → Clean g.value := by
  induction gs generalizing ts k defs with
  | nil => intro g hg; cases hg
  | cons g gs ih =>
    have hn' : ∀ x ∈ gs, Template.IsName x.name := fun x hx => hn x (by simp [hx])
    rw [body_cons, run_intro (hn g (by simp))] at h
    obtain ⟨⟨m₁, t₁⟩, h1, h⟩ := Option.map_eq_some_iff.mp h
    simp only [Prod.mk.injEq] at h
    obtain ⟨rfl, rfl⟩ := h
    obtain ⟨k, rfl⟩ : ∃ n, k = n + 1 := by
      cases k with
      | zero => cases hk
      | succ n => exact ⟨n, rfl⟩
    obtain ⟨r, defs', e1, e2, rfl⟩ := definitions_cons hk
    obtain ⟨d, hd1, hd2⟩ := hv g (by simp)
    simp only [List.find?_cons, decide_true, Option.some.injEq] at hd1
    subst hd1
    dsimp only at hd2
    have hclean : g.text = g.value → Clean g.value := by
      intro e
      have hs : NoSpecial g.value := Classical.byContradiction fun hs => by
        rw [e] at h1
        have := run_special (rest := List.replicate g.pad '\n' ++ body gs) (m' := m₁) (fun ts hts => body_first hn' g.pad hts) g.value hs [] t₁ h1
        have h2 := cString_length (lits t₁).1
        rw [hd2] at h2
        simp only [List.length_nil] at this
        omega
      intro c hc
      exact ⟨(hs c hc).1, (hs c hc).2.1, (hs c hc).2.2, fun e' => by rw [← hd2, e'] at hc; exact cString_no_null _ hc⟩
    have hlit : Lit g.text g.value := by
      rcases hl g (by simp) with e | h
      · rw [e]; exact (hclean e).noSpecial.lit
      · exact h
    rw [run_append_of (hlit [])] at h1
    obtain ⟨⟨m₂, t₂⟩, h2, h1⟩ := Option.map_eq_some_iff.mp h1
    simp only [List.nil_append, Prod.mk.injEq] at h1
    obtain ⟨rfl, rfl⟩ := h1
    obtain ⟨t₃, h3, rfl⟩ : ∃ t₃, run .line (body gs) = some (m₂, t₃) ∧ t₂ = .lit g.value :: .punct ';' :: t₃ := by
      obtain ⟨_, _, _, k1, k2, rfl⟩ := run_cons h2
      simp [step, inside] at k1
      obtain ⟨rfl, rfl⟩ := k1
      obtain ⟨_, _, _, k1, k3, rfl⟩ := run_cons k2
      simp [step, between, Template.idStart] at k1
      obtain ⟨rfl, rfl⟩ := k1
      obtain ⟨_, _, _, k1, k4, rfl⟩ := run_cons k3
      simp [step, between] at k1
      obtain ⟨rfl, rfl⟩ := k1
      rw [run_pad] at k4
      exact ⟨_, k4, rfl⟩
    simp only [lits, List.cons.injEq, true_and] at e1
    subst e1
    have hd' : g.name ∉ gs.map (·.name) ∧ (gs.map (·.name)).Nodup := List.nodup_cons.mp hd
    have := ih hn' hd'.2 (fun x hx => hl x (by simp [hx])) h3 e2 (fun x hx => by
      obtain ⟨d, k1, k2⟩ := hv x (by simp [hx])
      have hne : g.name ≠ x.name := fun e => hd'.1 (by rw [e]; exact List.mem_map.mpr ⟨x, hx, rfl⟩)
      simp only [List.find?_cons, hne, decide_false] at k1
      exact ⟨d, k1, k2⟩)
    intro x hx
    rcases List.mem_cons.mp hx with rfl | hx
    · exact hclean
    · exact this x hx

end Maike.Text.About
