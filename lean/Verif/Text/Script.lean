import Verif.Text.Shell

/-!
# Scripts for the shell (C106)

What a shell executes when it reads a file, as far as it is needed for the log of maike: commands whose words are quoted, and comments.
-/

namespace Maike.Text.Shell

/-! ## Specification -/

/-- Where the shell is while it reads a script. -/
inductive Mode where
  | blank -- between words
  | bare -- in a word, not quoted
  | single -- in single quotes
  | escaped -- after a backslash which is not quoted
  | comment
deriving DecidableEq

/-- A line without words is no command. -/
def command (ws : List (List Char)) : List (List (List Char)) := if ws.isEmpty then [] else [ws.reverse]

/-- The commands of a script, as described in POSIX.1-2017, XCU 2.2, 2.3 and 2.9.1. Blanks separate words. A line break that is not quoted ends a command. Single quotes preserve the literal
value of each character, line breaks included. A backslash outside of quotes preserves the literal value of the next character. `#` at the beginning of a word starts a comment, which ends
before the next line break. `w` is the current word and `ws` are the other words of the current command, all in reverse order.

`none` if a quote is not terminated, if a word begins with anything else (it could be a reserved word, an alias or an assignment), if a character is met that has another meaning, or if a
backslash is followed by a line break. -/
def read : Mode → List Char → List (List Char) → List Char → Option (List (List (List Char)))
  | .blank, _, ws, [] => some (command ws)
  | .bare, w, ws, [] => some (command (w.reverse :: ws))
  | .single, _, _, [] => none
  | .escaped, _, _, [] => none
  | .comment, _, ws, [] => some (command ws)
  | .blank, _, ws, c :: s =>
    if c = ' ' ∨ c = '\t' then read .blank [] ws s
    else if c = '\n' then (read .blank [] [] s).map (command ws ++ ·)
    else if c = '#' then read .comment [] ws s
    else if c = '\'' then read .single [] ws s
    else if c = '\\' then read .escaped [] ws s
    else none
  | .bare, w, ws, c :: s =>
    if c = ' ' ∨ c = '\t' then read .blank [] (w.reverse :: ws) s
    else if c = '\n' then (read .blank [] [] s).map (command (w.reverse :: ws) ++ ·)
    else if c = '\'' then read .single w ws s
    else if c = '\\' then read .escaped w ws s
    else if c ∈ special then none
    else read .bare (c :: w) ws s
  | .single, w, ws, c :: s => if c = '\'' then read .bare w ws s else read .single (c :: w) ws s
  | .escaped, w, ws, c :: s => if c = '\n' then none else read .bare (c :: w) ws s
  | .comment, _, ws, c :: s => if c = '\n' then (read .blank [] [] s).map (command ws ++ ·) else read .comment [] ws s

/-- The commands that a shell executes when it is given a script: the words of each of them. -/
def commands (s : List Char) : Option (List (List (List Char))) := read .blank [] [] s

example : commands "# comment 'x\n\n'a b' c\n".toList = none := by decide +kernel
example : commands "# comment 'x\n\n'a b'  'c'#'d' # 'e'\n\\'\\'f 'g\nh'".toList = none := by decide +kernel
example : commands "# comment 'x\n\n'a b'  'c''d' # 'e'\n\\'\\'f 'g\nh'".toList =
    some [["a b".toList, "cd".toList], ["''f".toList, "g\nh".toList]] := by decide +kernel

/-! ## Lemmas -/

theorem read_single (s w rest : List Char) (ws : List (List Char)) (h : '\'' ∉ s) :
    read .single w ws (s ++ '\'' :: rest) = read .bare (s.reverse ++ w) ws rest := by
  induction s generalizing w with
  | nil => simp [read]
  | cons c s ih =>
    have hc : c ≠ '\'' := fun e => h (by simp [e])
    have hs : '\'' ∉ s := fun e => h (by simp [e])
    simp only [List.cons_append, read, hc, if_false]
    rw [ih _ hs]
    simp

theorem read_comment (s rest : List Char) (ws : List (List Char)) (h : '\n' ∉ s) :
    read .comment [] ws (s ++ '\n' :: rest) = (commands rest).map (command ws ++ ·) := by
  induction s with
  | nil => simp [read, commands]
  | cons c s ih =>
    have hc : c ≠ '\n' := fun e => h (by simp [e])
    have hs : '\n' ∉ s := fun e => h (by simp [e])
    simp only [List.cons_append, read, hc, if_false]
    exact ih hs

/-- A comment on a line of its own is ignored. -/
theorem commands_comment (s rest : List Char) (h : '\n' ∉ s) : commands ('#' :: (s ++ '\n' :: rest)) = commands rest := by
  have : commands ('#' :: (s ++ '\n' :: rest)) = read .comment [] [] (s ++ '\n' :: rest) := by
    rw [commands, read, if_neg (by decide), if_neg (by decide), if_pos rfl]
  rw [this, read_comment _ _ _ h]
  cases commands rest <;> simp [command]

theorem read_args (args : List (List Char)) (w : List Char) (ws : List (List Char)) (rest : List Char) (h : ∀ a ∈ args, '\'' ∉ a) :
    read .bare w ws ((args.flatMap fun a => ' ' :: shellEscape a) ++ ' ' :: rest) =
      read .blank [] ((args.map (·.flatMap escapeChar)).reverse ++ w.reverse :: ws) rest := by
  induction args generalizing w ws with
  | nil => simp [read]
  | cons a args ih =>
    have : ((a :: args).flatMap fun a => ' ' :: shellEscape a) ++ ' ' :: rest =
        ' ' :: '\'' :: (a.flatMap escapeChar ++ '\'' :: ((args.flatMap fun a => ' ' :: shellEscape a) ++ ' ' :: rest)) := by
      simp [shellEscape]
    rw [this, read, if_pos (by simp), read, if_neg (by decide), if_neg (by decide), if_neg (by decide), if_pos rfl,
      read_single _ _ _ _ (quote_not_mem_escape (h a (by simp))), ih _ _ fun a ha => h a (by simp [ha])]
    simp

/-- A printed command that is followed by a comment. -/
theorem commands_print (c : Command) (info rest : List Char) (h : ∀ a ∈ c.executable :: c.args, '\'' ∉ a) (hi : '\n' ∉ info) :
    commands (print c ++ [' ', '#'] ++ info ++ '\n' :: rest) =
      (commands rest).map (((c.executable :: c.args).map (·.flatMap escapeChar)) :: ·) := by
  have : print c ++ [' ', '#'] ++ info ++ '\n' :: rest =
      '\'' :: (c.executable.flatMap escapeChar ++ '\'' :: ((c.args.flatMap fun a => ' ' :: shellEscape a) ++ ' ' :: '#' :: (info ++ '\n' :: rest))) := by
    simp [print, shellEscape]
  rw [this, commands, read, if_neg (by decide), if_neg (by decide), if_neg (by decide), if_pos rfl,
    read_single _ _ _ _ (quote_not_mem_escape (h _ (by simp))), read_args _ _ _ _ fun a ha => h a (by simp [ha]),
    read, if_neg (by decide), if_neg (by decide), if_pos rfl, read_comment _ _ _ hi]
  congr 1
  funext l
  simp [command]

/-- Words that are not changed by the shell when they are printed. -/
def Plain (w : List Char) : Prop := '\'' ∉ w ∧ '\\' ∉ w

theorem plain_words {c : Command} (h : ∀ a ∈ c.executable :: c.args, Plain a) :
    (c.executable :: c.args).map (·.flatMap escapeChar) = c.executable :: c.args := by
  have := List.map_congr_left (f := fun w : List Char => w.flatMap escapeChar) (g := id) fun a ha => escape_plain (h a ha).1 (h a ha).2
  rw [this, List.map_id]

/-- Each command, followed by a comment, on a line of its own. -/
theorem commands_lines (l : List (Command × List Char)) (h : ∀ x ∈ l, (∀ a ∈ x.1.executable :: x.1.args, Plain a) ∧ '\n' ∉ x.2) :
    commands (l.flatMap fun x => print x.1 ++ [' ', '#'] ++ x.2 ++ ['\n']) = some (l.map fun x => x.1.executable :: x.1.args) := by
  induction l with
  | nil => rfl
  | cons x l ih =>
    have e : ((x :: l).flatMap fun x => print x.1 ++ [' ', '#'] ++ x.2 ++ ['\n']) =
        print x.1 ++ [' ', '#'] ++ x.2 ++ '\n' :: (l.flatMap fun x => print x.1 ++ [' ', '#'] ++ x.2 ++ ['\n']) := by simp
    obtain ⟨h1, h2⟩ := h x (by simp)
    rw [e, commands_print _ _ _ (fun a ha => (h1 a ha).1) h2, ih fun y hy => h y (by simp [hy]), plain_words h1]
    simp

end Maike.Text.Shell
