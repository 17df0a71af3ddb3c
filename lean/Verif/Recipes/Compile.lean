import Verif.Recipes.Status

/-!
# The command of the compiler (C83)
-/

namespace Maike.Recipes

open Maike.Kvs (Json Members)

/-! ## Specification -/

/-- A list of strings as a JSON value. -/
def texts (l : List String) : Json := .arr (l.map .str)

/-- The flags for a directory in which quoted includes are looked up: inside of the source directory, and at the corresponding place in the target directory. -/
def IncludeDir (env : Env) (srcDir targetDir dir flag : String) : Prop :=
  (flag = if srcDir = "." then "-iquote" ++ dir else "-iquote" ++ srcDir ++ "/" ++ dir) ∨ flag = "-iquote" ++ env.cwd ++ "/" ++ targetDir ++ "/" ++ dir

/-! ## Proof -/

theorem strings_texts (l : List String) : strings (l.map .str) = some l := by
  induction l with
  | nil => rfl
  | cons a l ih => simp [strings, Json.asString, ih]

theorem filterLoop_sublist (items seen ret : List String) : ∃ l, filterLoop items seen ret = ret ++ l ∧ l.Sublist items := by
  induction items generalizing seen ret with
  | nil => exact ⟨[], by simp [filterLoop], .slnil⟩
  | cons a items ih =>
    simp only [filterLoop]
    split
    · obtain ⟨l, h1, h2⟩ := ih seen ret
      exact ⟨l, h1, h2.cons a⟩
    · obtain ⟨l, h1, h2⟩ := ih (a :: seen) (ret ++ [a])
      exact ⟨a :: l, by rw [h1]; simp, h2.cons_cons a⟩

theorem filterLoop_nodup (items seen ret : List String) (hn : items.Nodup) (hd : ∀ x ∈ items, x ∉ seen) : filterLoop items seen ret = ret ++ items := by
  induction items generalizing seen ret with
  | nil => simp [filterLoop]
  | cons a items ih =>
    simp only [List.nodup_cons] at hn
    simp only [filterLoop, if_neg (hd a (by simp))]
    rw [ih _ _ hn.2]
    · simp
    · intro x hx
      simp only [List.mem_cons, not_or]
      refine ⟨?_, hd x (by simp [hx])⟩
      rintro rfl
      exact hn.1 hx

theorem firstOnly_facts (items : List String) :
    (∀ x, x ∈ firstOnly items ↔ x ∈ items) ∧ (firstOnly items).Nodup ∧ (firstOnly items).Sublist items ∧ (items.Nodup → firstOnly items = items) := by
  obtain ⟨h1, h2, _⟩ := filterLoop_facts items [] [] (by simp) (by simp)
  refine ⟨fun x => by simp [firstOnly, h1], h2, ?_, fun h => by simpa [firstOnly] using filterLoop_nodup items [] [] h (by simp)⟩
  obtain ⟨l, h3, h4⟩ := filterLoop_sublist items [] []
  simp only [List.nil_append] at h3
  rw [firstOnly, h3]
  exact h4

theorem mem_formatIquote {env : Env} {srcDir targetDir : String} {dirs : List String} {x : String} :
    x ∈ formatIquote env srcDir targetDir dirs ↔ ∃ dir ∈ dirs, IncludeDir env srcDir targetDir dir x := by
  simp only [formatIquote, List.mem_flatMap, List.mem_cons, List.not_mem_nil, or_false, IncludeDir]

/-! ## Theorems -/

theorem splitSpaces_words (s w : List Char) (hw : ' ' ∉ w) :
    (∀ x ∈ splitSpaces s w, ' ' ∉ x) ∧ [' '].intercalate (splitSpaces s w) = w ++ s := by
  induction s generalizing w with
  | nil => simp [splitSpaces, hw, List.intercalate]
  | cons c s ih =>
    unfold splitSpaces
    split
    · rename_i hc
      subst hc
      obtain ⟨h1, h2⟩ := ih [] (by simp)
      refine ⟨?_, ?_⟩
      · intro x hx
        rcases List.mem_cons.mp hx with rfl | hx
        · exact hw
        · exact h1 x hx
      · have hne : splitSpaces s [] ≠ [] := by
          have : ∀ s w, splitSpaces s w ≠ [] := by
            intro s
            induction s with
            | nil => intro w; simp [splitSpaces]
            | cons c s ih => intro w; unfold splitSpaces; split <;> simp [ih]
          exact this s []
        obtain ⟨y, ys, hy⟩ := List.exists_cons_of_ne_nil hne
        rw [hy] at h2 ⊢
        simp only [List.intercalate, List.intersperse_cons_cons, List.flatten_cons, List.nil_append, List.cons_append] at h2 ⊢
        rw [h2]
    · rename_i hc
      obtain ⟨h1, h2⟩ := ih (w ++ [c]) (by simp [hw]; exact fun h => hc h.symm)
      exact ⟨h1, by rw [h2]; simp⟩

/-- **C83.** What `pkg-config` prints is passed word by word: the flags are free of spaces, and are what has been printed when they are put together again with spaces between them.
Whitespace at the ends is left out, and a failure of `pkg-config` is an error. -/
theorem C83_words (out : Option String) :
    (out = none → pkgCflags out = none) ∧
    ∀ s, out = some s → ∃ flags, pkgCflags out = some flags ∧ (∀ f ∈ flags, ' ' ∉ f.toList) ∧
      ∃ before after, s.toList = before ++ [' '].intercalate (flags.map String.toList) ++ after ∧ (∀ c ∈ before, isSpace c = true) ∧ ∀ c ∈ after, isSpace c = true := by
  refine ⟨fun h => by rw [h]; rfl, ?_⟩
  rintro s rfl
  have hsplit : ∃ before after, s.toList = before ++ strip s.toList ++ after ∧ (∀ c ∈ before, isSpace c = true) ∧ ∀ c ∈ after, isSpace c = true := by
    refine ⟨s.toList.takeWhile isSpace, ((s.toList.dropWhile isSpace).reverse.takeWhile isSpace).reverse, ?_, ?_, ?_⟩
    · unfold strip
      rw [List.append_assoc, ← List.reverse_append, List.takeWhile_append_dropWhile, List.reverse_reverse, List.takeWhile_append_dropWhile]
    · intro c hc
      exact (List.all_eq_true.mp List.all_takeWhile) c hc
    · intro c hc
      exact (List.all_eq_true.mp List.all_takeWhile) c (List.mem_reverse.mp hc)
  obtain ⟨before, after, h1, h2, h3⟩ := hsplit
  by_cases he : strip s.toList = []
  · refine ⟨[], by simp [pkgCflags, he], by simp, before, after, ?_, h2, h3⟩
    rw [he] at h1; simpa [List.intercalate] using h1
  · obtain ⟨h4, h5⟩ := splitSpaces_words (strip s.toList) [] (by simp)
    refine ⟨(splitSpaces (strip s.toList) []).map String.ofList, by simp [pkgCflags, he], ?_, before, after, ?_, h2, h3⟩
    · intro f hf
      obtain ⟨x, hx, rfl⟩ := List.mem_map.mp hf
      simpa using h4 x hx
    · have : List.map String.toList (List.map String.ofList (splitSpaces (strip s.toList) [])) = splitSpaces (strip s.toList) [] := by
        rw [List.map_map]; simp [Function.comp_def]
      rw [this, h5]; simpa using h1

example : pkgCflags (some " -I/usr/include/a  -DX\n") = some ["-I/usr/include/a", "", "-DX"] := by
  decide +kernel

/-- **C83.** What the compiler is called with: the selected compiler; the flags; the revision of the standard; a flag for coloured messages; definitions about the build;
`-c` unless the target is to be linked; the source file; what it is linked with; and the first target. There are as many flags as different words in the
configuration (flags and include directories, where that of the source file is the first one) and in what dependencies ask for. Words are in this order, and if none occurs
twice then all of them are there as given. -/
theorem C83_command_partial {env : Env} {opts cfg : Members} {args : List String} (h : compileCommand env opts = some args) (hcfg : Kvs.lookup "compiler_cfg" opts = some (.obj cfg))
    {backend src srcDir targetDir target : String} {cflags dirs acts others : List String} {deps : List Json} (hb : Kvs.lookup "backend" cfg = some (.str backend))
    (hc : Kvs.lookup "cflags" cfg = some (texts cflags)) (hd : Kvs.lookup "iquote" cfg = some (texts dirs)) (ha : actions (.obj cfg) = some acts)
    (hs : Kvs.lookup "source_file" opts = some (.str src)) (hsd : infoField opts "source_dir" = some (.str srcDir)) (htd : infoField opts "target_dir" = some (.str targetDir))
    (hdeps : Kvs.lookup "dependencies" opts = some (.arr deps)) (ht : targetsOf opts = some (target :: others)) :
    ∃ flags words more std color defs mode inputs, args = backend :: flags ++ std ++ [color] ++ defs ++ mode ++ [src] ++ inputs ++ ["-o", target] ∧
      (∀ x, x ∈ flags ↔ x ∈ words) ∧ flags.Nodup ∧ flags.Sublist words ∧ (words.Nodup → flags = words) ∧
      words = cflags ++ formatIquote env srcDir targetDir ((if env.dirname src ≠ "" then [env.relpath (env.dirname src) srcDir] else []) ++ dirs) ++ more ∧
      (∀ x, x ∈ more ↔ ∃ item ∈ deps, ∃ l, flagsOf env.pkg item = some l ∧ x ∈ l) ∧
      (mode = ["-c"] ∧ inputs = [] ∧ "link" ∉ acts ∨ mode = [] ∧ linkInputs env.pkg opts = some inputs ∧ "link" ∈ acts) := by
  simp only [compileCommand, hcfg, hs, hsd, htd, hdeps, ha, Option.bind_eq_bind, Option.bind_some, Option.bind_eq_some_iff, Json.asString, Json.asArr, field, hb, Option.some.injEq] at h
  obtain ⟨fl, hfl, std, _, color, _, defs, _, inputs, hin, t, ht', rfl⟩ := h
  have := firstTarget_eq ht
  obtain rfl := Option.some.inj (this.symm.trans ht')
  simp only [collectCflags, field, hc, hd, texts, Json.asArr, Option.bind_some, strings_texts, Option.bind_eq_bind, Option.bind_eq_some_iff, Option.some.injEq] at hfl
  obtain ⟨more, hmore, rfl⟩ := hfl
  obtain ⟨h1, h2, h3, h4⟩ := firstOnly_facts (cflags ++ formatIquote env srcDir targetDir ((if env.dirname src ≠ "" then [env.relpath (env.dirname src) srcDir] else []) ++ dirs) ++ more)
  refine ⟨_, _, more, std, color, defs, if "link" ∈ acts then [] else ["-c"], inputs, rfl, h1, h2, h3, h4, rfl, fun x => mem_collect hmore, ?_⟩
  unfold linkedBy at hin
  by_cases hl : "link" ∈ acts
  · rw [if_pos hl] at hin
    exact .inr ⟨by simp [hl], hin, hl⟩
  · rw [if_neg hl] at hin
    exact .inl ⟨by simp [hl], (Option.some.inj hin).symm, hl⟩

namespace CompileExample

def opts (cflags : List String) : Members :=
  [("compiler_cfg", .obj [("backend", .str "g++"), ("cflags", texts cflags), ("iquote", texts ["include"])]),
   ("source_file", .str "a.cpp"), ("targets", texts ["a.o"]), ("dependencies", .arr [.obj [("ref", .str "pre.h"), ("origin", .str "project"), ("rel", .str "include")]]),
   ("task_id", .int 1), ("log_format", .str "plain_text"),
   ("build_info", .obj [("start_time", .int 0), ("build_id", .str "0"), ("target_dir", .str "__t"), ("source_dir", .str ".")])]

def env : Env where
  pkg := ⟨fun _ => none, fun _ => none, fun _ => none⟩
  cwd := "/w"
  relpath p _ := p
  dirname _ := ""
  utc _ := ""

theorem command (cflags : List String) : ∃ rest, compileCommand env (opts cflags) =
    some ("g++" :: firstOnly (cflags ++ ["-iquoteinclude", "-iquote/w/__t/include", "-includepre.h"]) ++ rest) ∧ rest.length = 11 ∧ "-include" ∉ rest := by
  apply Exists.intro
  constructor
  · simp [compileCommand, opts, Kvs.lookup, field, Json.asString, infoField, Json.asArr, collectCflags, strings_texts, texts, env, collect, flagsOf, isText, formatIquote,
      stdFlag, colorFlag, definitions, Json.asInt, actions, linkedBy, firstTarget]
    rfl
  · constructor
    · rfl
    · simp
      constructor
      all_goals
        intro h
        have := congrArg (fun s => s.toList[1]?) h
        simp at this

/-- The hypotheses of C83_command_partial are met. -/
example : ∃ args, compileCommand env (opts ["-g", "-Wall"]) = some args ∧ ∃ rest, args = ["g++", "-g", "-Wall", "-iquoteinclude", "-iquote/w/__t/include", "-includepre.h"] ++ rest := by
  obtain ⟨rest, h, _⟩ := command ["-g", "-Wall"]
  obtain ⟨flags, words, more, std, color, defs, mode, inputs, h1, _, _, _, h2, h3, _⟩ := C83_command_partial h (cfg := [("backend", .str "g++"), ("cflags", texts ["-g", "-Wall"]), ("iquote", texts ["include"])])
    (by rfl) (backend := "g++") (by rfl) (by rfl) (by rfl) (acts := []) (by rfl) (src := "a.cpp") (by rfl) (srcDir := ".") (by rfl) (targetDir := "__t") (by rfl) (by rfl)
    (target := "a.o") (others := []) (by rfl)
  refine ⟨_, h, rest, ?_⟩
  rw [(firstOnly_facts _).2.2.2 (by simp)]
  simp

/-- **C83 is false** for flags that consist of several words: `-include a.h -include b.h` loses its second `-include`, so that `b.h` is another source file. -/
theorem C83_false : ∃ args, compileCommand env (opts ["-include", "a.h", "-include", "b.h"]) = some args ∧ args.count "-include" = 1 ∧
    ∃ rest, args = ["g++", "-include", "a.h", "b.h"] ++ rest := by
  obtain ⟨rest, h, _, hr⟩ := command ["-include", "a.h", "-include", "b.h"]
  have e : firstOnly (["-include", "a.h", "-include", "b.h"] ++ ["-iquoteinclude", "-iquote/w/__t/include", "-includepre.h"]) =
      ["-include", "a.h", "b.h", "-iquoteinclude", "-iquote/w/__t/include", "-includepre.h"] := by
    simp [firstOnly, filterLoop]
  rw [e] at h
  refine ⟨_, h, ?_, _, rfl⟩
  simp [List.count_eq_zero.mpr hr]

end CompileExample

end Maike.Recipes
