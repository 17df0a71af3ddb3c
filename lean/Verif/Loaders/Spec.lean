import Verif.Loaders.Model

/-!
# Vocabulary for stating properties of the filters
-/

namespace Maike.Loaders

/-- Lines separated by newlines. -/
def unlines : List (List Char) → List Char
  | [] => []
  | [l] => l
  | l :: ls => l ++ '\n' :: unlines ls

def newlines (l : List Char) : Nat := l.count '\n'

/-- A line of the tag stream which corresponds to a line of a script: blanks at the beginning are kept, `#@` is replaced with two
blanks and followed by the rest of the line. All other text is dropped. -/
def Ext.tagLine (l : List Char) : List Char :=
  let indent := l.takeWhile blank
  match l.dropWhile blank with
  | '#' :: '@' :: text => indent ++ ' ' :: ' ' :: text
  | '#' :: _ => indent ++ [' ']
  | _ => indent

/-- Text on one line in which no block comment or raw string literal begins. There may be line comments. -/
structure Ordinary (l : List Char) : Prop where
  noNewline : '\n' ∉ l
  noComment : ¬ ['/', '*'] <:+: l
  noRaw : ¬ ['R', '"'] <:+: l

/-- Text on one line which has no comment or literal at all (nor the letter R, which may introduce a literal). -/
structure Simple (l : List Char) : Prop where
  noNewline : '\n' ∉ l
  noSlash : '/' ∉ l
  noQuote : '"' ∉ l
  noR : 'R' ∉ l

/-- Blanks, but no newline. -/
def Indent (l : List Char) : Prop := '\n' ∉ l ∧ ∀ c ∈ l, blank c = true

/-- The first character that is not blank, if any, and what follows. -/
def trimmed (l : List Char) : List Char := l.dropWhile blank

/-- The contents of a block comment: it does not contain the end of a comment. It does not end with an asterisk, since
the scanner fails to see that `**/` ends a comment. -/
def CommentBody (l : List Char) : Prop := ¬ ['*', '/'] <:+: l ∧ l.getLast? ≠ some '*'

/-- A delimiter of a raw string literal. -/
def Delim (l : List Char) : Prop := '\n' ∉ l ∧ '(' ∉ l ∧ ')' ∉ l ∧ '"' ∉ l

/-- C++ source files as seen by somebody who looks for tags. -/
inductive Item where
  /-- a tag line -/
  | tag (indent text : List Char)
  /-- any other line in which no block comment or raw string begins -/
  | plain (l : List Char)
  /-- code, a block comment which may extend over several lines, and the rest of the last one of these -/
  | comment (pre body post : List Char)
  /-- code, a raw string literal which may extend over several lines, and the rest of the last one of these -/
  | raw (pre delim body post : List Char)

def Item.render : Item → List Char
  | .tag indent text => indent ++ '/' :: '/' :: '@' :: text ++ ['\n']
  | .plain l => l ++ ['\n']
  | .comment pre body post => pre ++ '/' :: '*' :: body ++ '*' :: '/' :: post ++ ['\n']
  | .raw pre delim body post => pre ++ 'R' :: '"' :: delim ++ '(' :: body ++ ')' :: delim ++ '"' :: post ++ ['\n']

def Item.WellFormed : Item → Prop
  | .tag indent text => Indent indent ∧ '\n' ∉ text
  | .plain l => Ordinary l ∧ ¬ ['/', '/', '@'] <+: trimmed l
  | .comment pre body post => Simple pre ∧ CommentBody body ∧ Ordinary post
  | .raw pre delim body post => Simple pre ∧ Delim delim ∧ ')' ∉ body ∧ Ordinary post

/-- What the item contributes to the tag stream: for a tag line, its text in the same columns; otherwise only
blank lines, as many as the item has. -/
def Item.Contributes : Item → List Char → Prop
  | .tag indent text, out => out = indent ++ ' ' :: ' ' :: ' ' :: text ++ ['\n']
  | item, out => (∀ c ∈ out, blank c = true) ∧ newlines out = newlines item.render

/-- C++ source files as seen by somebody who looks for includes. -/
inductive Line where
  /-- `# include "path"` and more text; blanks are optional -/
  | includeProject (indent gap₁ gap₂ path post : List Char)
  /-- `# include <path>` and more text; blanks are optional -/
  | includeSystem (indent gap₁ gap₂ path post : List Char)
  /-- another preprocessor directive with an argument, such as `#define X` -/
  | directive (indent gap₁ name gap₂ : List Char) (arg : Char) (post : List Char)
  /-- another preprocessor directive whose argument starts with `"` or `<` right after the name, such as `#error"text"` -/
  | tight (indent gap₁ name : List Char) (mark : Char) (post : List Char)
  /-- a preprocessor directive without an argument, such as `#endif`, that has a blank at the end or is followed by a blank line -/
  | bare (indent gap₁ name blanks : List Char)
  /-- a line which is not a directive -/
  | plain (l : List Char)
  | comment (pre body post : List Char)
  | raw (pre delim body post : List Char)

def includeName : List Char := ['i', 'n', 'c', 'l', 'u', 'd', 'e']

def Line.render : Line → List Char
  | .includeProject indent gap₁ gap₂ path post =>
    indent ++ '#' :: gap₁ ++ includeName ++ gap₂ ++ '"' :: path ++ '"' :: post ++ ['\n']
  | .includeSystem indent gap₁ gap₂ path post =>
    indent ++ '#' :: gap₁ ++ includeName ++ gap₂ ++ '<' :: path ++ '>' :: post ++ ['\n']
  | .directive indent gap₁ name gap₂ arg post =>
    indent ++ '#' :: gap₁ ++ name ++ gap₂ ++ arg :: post ++ ['\n']
  | .tight indent gap₁ name mark post => indent ++ '#' :: gap₁ ++ name ++ mark :: post ++ ['\n']
  | .bare indent gap₁ name blanks => indent ++ '#' :: gap₁ ++ name ++ blanks ++ ['\n']
  | .plain l => l ++ ['\n']
  | .comment pre body post => (Item.comment pre body post).render
  | .raw pre delim body post => (Item.raw pre delim body post).render

def Line.WellFormed : Line → Prop
  | .includeProject indent gap₁ gap₂ path post =>
    Indent indent ∧ Indent gap₁ ∧ Indent gap₂ ∧ '\n' ∉ path ∧ '"' ∉ path ∧ Ordinary post
  | .includeSystem indent gap₁ gap₂ path post =>
    Indent indent ∧ Indent gap₁ ∧ Indent gap₂ ∧ '\n' ∉ path ∧ '>' ∉ path ∧ Ordinary post
  | .directive indent gap₁ name gap₂ arg post =>
    Indent indent ∧ Indent gap₁ ∧ Indent gap₂ ∧ gap₂ ≠ [] ∧
    name ≠ [] ∧ (∀ c ∈ name, blank c = false ∧ c ≠ '<' ∧ c ≠ '"') ∧
    blank arg = false ∧ arg ≠ '<' ∧ arg ≠ '"' ∧ Ordinary post
  | .tight indent gap₁ name mark post =>
    Indent indent ∧ Indent gap₁ ∧ name ≠ [] ∧ name ≠ includeName ∧
    (∀ c ∈ name, blank c = false ∧ c ≠ '<' ∧ c ≠ '"') ∧ (mark = '"' ∨ mark = '<') ∧ Ordinary post
  | .bare indent gap₁ name blanks =>
    Indent indent ∧ Indent gap₁ ∧ name ≠ [] ∧ (∀ c ∈ name, blank c = false ∧ c ≠ '<' ∧ c ≠ '"') ∧
    blanks ≠ [] ∧ ∀ c ∈ blanks, blank c = true
  | .plain l => Ordinary l ∧ (trimmed l).head? ≠ some '#'
  | .comment pre body post => Simple pre ∧ (trimmed pre).head? ≠ some '#' ∧ CommentBody body ∧ Ordinary post
  | .raw pre delim body post =>
    Simple pre ∧ (trimmed pre).head? ≠ some '#' ∧ Delim delim ∧ ')' ∉ body ∧ Ordinary post

/-- The dependency that is given by a line. -/
def Line.dependency (gen : List Char → Bool) : Line → List (List Char × Inc.Origin)
  | .includeProject _ _ _ path _ => [(path, if gen path then .generated else .project)]
  | .includeSystem _ _ _ path _ => [(path, .system)]
  | _ => []

end Maike.Loaders
