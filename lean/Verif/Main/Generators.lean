import Verif.Recipes.OwnScripts
import Verif.Main.Targets

/-!
# Which files the generators of the project read (C114)

The scripts in doc compute the names of the files that they read with functions of Python. Their declarations refer to the same files by names that are resolved by maike.
-/

namespace Maike.Main

open Fs Tree Paths Recipes
open Maike.Db (Origin)

/-! ## `os.path` -/

/-- `os.path.abspath` leads to where the path leads to. -/
theorem pyAbspath_walk (cwd : List Str) (s : Str) : pyAbspath cwd.reverse s = (walk cwd (parse s)).reverse := by
  have hf : ∀ (ns : List Str) (l : List Str), [] ∉ ns → ns.foldl pyNormStep l.reverse = (ns.foldl walkStep l).reverse := by
    intro ns
    induction ns with
    | nil => simp
    | cons n ns ih =>
      intro l h
      simp only [List.mem_cons, not_or] at h
      rw [List.foldl_cons, List.foldl_cons, ← ih _ h.2]
      congr 1
      unfold pyNormStep walkStep
      by_cases h1 : n = dot
      · subst h1; simp [show dot ≠ dotdot from by decide]
      · by_cases h2 : n = dotdot
        · simp [h2, show dotdot ≠ dot from by decide]
        · rw [if_neg h1, if_neg h2, if_neg h2, if_neg (by simp [h1, Ne.symm h.1])]
          simp
  unfold pyAbspath walk
  have hn : (parse s).names = splitNames s [] := rfl
  have hr : (parse s).root = decide (s.head? = some '/') := rfl
  rw [hn, hr]
  have := hf (splitNames s []) (if s.head? = some '/' then [] else cwd) (parse_names s)
  by_cases h : s.head? = some '/'
  · simpa [h] using this
  · simpa [h] using this

theorem pyCommon_append (a b : List Str) : pyCommon a (a ++ b) = a.length := by
  induction a with
  | nil => cases b <;> rfl
  | cons x a ih => simp [pyCommon, ih]

theorem joinNames_snoc (ns : List Str) (e : Str) : joinNames (ns ++ [e]) = (if ns = [] then [] else joinNames ns ++ ['/']) ++ e := by
  induction ns with
  | nil => rfl
  | cons a l ih =>
    cases l with
    | nil => simp [joinNames]
    | cons b l =>
      rw [List.cons_append, List.cons_append, joinNames, ← List.cons_append, ih]
      simp [joinNames]

/-- `os.path.dirname` of a path with a name at its end. -/
theorem pyDirname_str (r : Bool) (ns : List Str) (e : Str) (h : ∀ n ∈ ns, n ≠ [] ∧ '/' ∉ n) (he : '/' ∉ e) :
    pyDirname (Path.str ⟨r, ns ++ [e], false⟩) = Path.str ⟨r, ns, false⟩ := by
  have hdrop : ∀ P : Str, (P = [] ∨ P.getLast? = some '/') → ((P ++ e).reverse.dropWhile (· ≠ '/')).reverse = P := by
    intro P hP
    rw [List.reverse_append, List.dropWhile_append_of_pos (by intro a ha; simp only [decide_eq_true_eq]; rintro rfl; exact he (List.mem_reverse.mp ha))]
    rcases hP with rfl | hP
    · rfl
    · obtain ⟨Q, rfl⟩ := List.getLast?_eq_some_iff.mp hP
      simp
  unfold pyDirname
  by_cases hns : ns = []
  · subst hns
    have e1 : Path.str ⟨r, [] ++ [e], false⟩ = (if r then ['/'] else []) ++ e := by simp [Path.str, joinNames]
    have e2 : Path.str ⟨r, [], false⟩ = if r then ['/'] else [] := by simp [Path.str, joinNames]
    rw [e1, e2, hdrop _ (by cases r <;> simp)]
    cases r <;> rfl
  · have e1 : Path.str ⟨r, ns ++ [e], false⟩ = ((if r then ['/'] else []) ++ joinNames ns ++ ['/']) ++ e := by
      simp [Path.str, joinNames_snoc, hns]
    have e2 : Path.str ⟨r, ns, false⟩ = (if r then ['/'] else []) ++ joinNames ns := by simp [Path.str]
    obtain ⟨c, hc, hc'⟩ := joinNames_last ns hns h
    obtain ⟨Q, hQ⟩ := List.getLast?_eq_some_iff.mp hc
    rw [e1, e2, hdrop _ (.inr (by simp)), if_neg]
    · rw [hQ]
      simp [List.dropWhile, hc']
    · rw [hQ]
      simp [hc']

/-! ## The file that is read -/

/-- The names of directories are names of files. -/
structure Written (c : Ctxt) (sub : List Str) (entry : Str) : Prop where
  source : NoSlash c.sourceDir
  target : NoSlash c.targetDir ∧ [] ∉ c.targetDir.names ∧ (c.targetDir.names = [] → c.targetDir.trailing = false)
  nonempty : c.targetDir ≠ Path.empty
  sub : ∀ n ∈ sub, '/' ∉ n
  entry : '/' ∉ entry

theorem inside_snoc (base : Path) (sub : List Str) (entry : Str) (hd : sub ≠ [] ∨ base.names ≠ [dot]) :
    inside base (sub ++ [entry]) = ⟨base.root, (inside base sub).names ++ [entry], false⟩ := by
  unfold inside
  by_cases h : base.names = [dot]
  · have hs : sub ≠ [] := hd.resolve_right (by simp [h])
    simp [h, hs]
  · simp [h]

theorem srcPath_normal {c : Ctxt} {sub : List Str} {entry : Str} (h : Found c sub entry) (hd : sub ≠ [] ∨ c.sourceDir.names ≠ [dot]) :
    c.srcPath.normal = ⟨c.sourceDir.root, (inside c.sourceDir sub).names ++ [entry], false⟩ := by
  obtain ⟨h1, h2⟩ := normal_inside c.sourceDir h.normal h.nonempty sub h.names
  have e : c.srcPath = inside c.sourceDir (sub ++ [entry]) := by
    rw [inside_snoc _ _ _ hd, h.path]
    show Path.append _ _ = _
    simp [Path.append, h1, h2]
  rw [e, normal_eq_self (inside_normal _ h.normal h.nonempty _ (by
    intro n hn
    rcases List.mem_append.mp hn with hn | hn
    · exact h.names n hn
    · rw [List.mem_singleton.mp hn]; exact h.isName)), inside_snoc _ _ _ hd]

/-- A path in a directory, as text. -/
theorem parse_below (d : Path) (hd : NoSlash d ∧ [] ∉ d.names ∧ (d.names = [] → d.trailing = false)) (hne : d ≠ Path.empty) (ns : List Str) (hn : ns ≠ []) (h : ∀ n ∈ ns, n ≠ [] ∧ '/' ∉ n) :
    parse (d.str ++ '/' :: joinNames ns) = ⟨d.root, d.names ++ ns, false⟩ := by
  have hp : parse d.str = d := parse_str d (fun n hn => ⟨fun e => hd.2.1 (e ▸ hn), hd.1 n hn⟩) hd.2.2
  have hstr : d.str ≠ [] := by
    intro e
    rw [e] at hp
    exact hne hp.symm
  have hs : splitNames d.str [] = d.names := congrArg Path.names hp
  have hr : decide (d.str.head? = some '/') = d.root := congrArg Path.root hp
  have hj : splitNames (joinNames ns) [] = ns := by simpa using splitNames_join ns h false (by simp)
  obtain ⟨c, hc, hc'⟩ := joinNames_last ns hn h
  unfold parse
  rw [splitNames_slash, hs, hj]
  have e1 : (d.str ++ '/' :: joinNames ns).head? = d.str.head? := by
    obtain ⟨a, l, e⟩ := List.exists_cons_of_ne_nil hstr
    rw [e]; rfl
  have e2 : (d.str ++ '/' :: joinNames ns).getLast? = some c := by
    rw [List.getLast?_append, List.getLast?_cons, hc]; rfl
  rw [e1, hr, e2]
  simp [hc']

variable {c : Ctxt} {sub : List Str} {entry : Str}

/-- The name of the file that a generator reads. -/
theorem besidesSource_eq (h : Found c sub entry) (hw : Written c sub entry) (hd : sub ≠ [] ∨ c.sourceDir.names ≠ [dot]) (cwd : List Str) (n : Str) :
    besidesSource cwd.reverse c.srcPath.normal.str c.sourceDir.str c.targetDir.str n = some (c.targetDir.str ++ '/' :: joinNames ((if sub = [] then [dot] else sub) ++ [n])) := by
  have hbase : ∀ n ∈ c.sourceDir.names, n ≠ [] ∧ '/' ∉ n := fun n hn => ⟨fun e => isNormal_names _ h.normal (e ▸ hn), hw.source n hn⟩
  have hin : ∀ n ∈ (inside c.sourceDir sub).names, n ≠ [] ∧ '/' ∉ n := by
    intro n hn
    unfold inside at hn
    dsimp only at hn
    split at hn
    · exact ⟨(h.names n hn).2.2, hw.sub n hn⟩
    · rcases List.mem_append.mp hn with hn | hn
      · exact hbase n hn
      · exact ⟨(h.names n hn).2.2, hw.sub n hn⟩
  have hsrc : parse c.sourceDir.str = c.sourceDir := by
    refine parse_str _ hbase fun e => ?_
    have := h.normal
    generalize c.sourceDir = d at *
    cases this <;> simp_all [Path.empty]
  have hp : parse (inside c.sourceDir sub).str = inside c.sourceDir sub := parse_str _ hin fun _ => rfl
  have hdir : (inside c.sourceDir sub).str ≠ [] := by
    intro e
    rw [e] at hp
    exact inside_ne_empty _ h.normal h.nonempty _ hp.symm
  have hrel : pyRelpath cwd.reverse (inside c.sourceDir sub).str c.sourceDir.str = some (if sub = [] then dot else joinNames sub) := by
    have hb : pyAbspath cwd.reverse (inside c.sourceDir sub).str = pyAbspath cwd.reverse c.sourceDir.str ++ sub := by
      rw [pyAbspath_walk, pyAbspath_walk, hp, hsrc, inside_walk, foldl_names sub h.names]
      simp
    simp only [pyRelpath, hdir, if_false, hb, pyCommon_append]
    simp
  rw [besidesSource, srcPath_normal h hd, pyDirname_str _ _ _ hin hw.entry]
  show (pyRelpath _ (inside c.sourceDir sub).str _).map _ = _
  rw [hrel]
  simp only [Option.map_some, Option.some.injEq]
  split
  · simp [joinNames]
  · rename_i hs
    rw [joinNames_snoc, if_neg hs]
    simp

/-- Where the targets of a directory are. -/
theorem walk_target (h : Found c sub entry) (n : Str) (hn : IsName n) (cwd : List Str) :
    walk cwd (makeTargetName c ⟨false, [n], false⟩) = n :: sub.reverse ++ walk cwd c.targetDir := by
  rw [C47_inside_partial c sub entry h _ ⟨rfl, by simp, by simpa using hn.2.2⟩ (by simpa using Ne.symm hn.1)]
  simp [hn.2.1]

/-- **C114** (generators). A generator that is not in the root of the project reads the file `n` that its declaration refers to as `./n`, wherever maike is started: this is the target `n` of any file
in the same directory. -/
theorem C114_reads_partial (h : Found c sub entry) (hw : Written c sub entry) (hd : sub ≠ [] ∨ c.sourceDir.names ≠ [dot]) (n : Str) (hn : IsName n) (hs : '/' ∉ n) (cwd : List Str) :
    ∃ s, besidesSource cwd.reverse c.srcPath.normal.str c.sourceDir.str c.targetDir.str n = some s ∧
      walk cwd (parse s) = walk cwd (prependSearchPath c (parse ('.' :: '/' :: n)) .generated) ∧
      ∀ c' entry', Found c' sub entry' → c'.sourceDir = c.sourceDir → c'.targetDir = c.targetDir → walk cwd (parse s) = walk cwd (makeTargetName c' ⟨false, [n], false⟩) := by
  refine ⟨_, besidesSource_eq h hw hd cwd n, ?_⟩
  have hall : ∀ x ∈ (if sub = [] then [dot] else sub) ++ [n], x ≠ [] ∧ '/' ∉ x := by
    intro x hx
    rcases List.mem_append.mp hx with hx | hx
    · split at hx
      · rw [List.mem_singleton.mp hx]; decide
      · exact ⟨(h.names x hx).2.2, hw.sub x hx⟩
    · rw [List.mem_singleton.mp hx]; exact ⟨hn.2.2, hs⟩
  have hwalk : walk cwd (parse (c.targetDir.str ++ '/' :: joinNames ((if sub = [] then [dot] else sub) ++ [n]))) = n :: sub.reverse ++ walk cwd c.targetDir := by
    rw [parse_below _ hw.target hw.nonempty _ (by simp) hall]
    unfold walk
    rw [List.foldl_append, List.foldl_append]
    split
    · rename_i hsub
      simp [hsub, walkStep, hn.1, hn.2.1, hn.2.2, show dot ≠ dotdot from by decide]
    · rw [foldl_names sub h.names]
      simp [walkStep, hn.1, hn.2.1, hn.2.2]
  rw [hwalk]
  have hparse : parse ('.' :: '/' :: n) = ⟨false, [dot, n], false⟩ := by
    have := parse_str ⟨false, [dot, n], false⟩ (by
      intro x hx
      rcases List.mem_cons.mp hx with rfl | hx
      · decide
      · rw [List.mem_singleton.mp hx]; exact ⟨hn.2.2, hs⟩) (by simp)
    simpa [Path.str, joinNames, dot] using this
  constructor
  · rw [hparse, C65_dotSlash c c sub sub entry entry h h rfl rfl n hn ⟨false, [dot, n], false⟩ ⟨rfl, by simp, by simpa [dot] using Ne.symm hn.2.2⟩ (by simp [startsWithDotSlash]) (by simp) rfl
      (fun cwd => by simp [walk, walkStep, hn.1, hn.2.1, hn.2.2, show dot ≠ dotdot from by decide]), walk_target h n hn]
  · intro c' entry' h' _ ht
    rw [walk_target h' n hn, ht]

/-- **C114** (generators). The same for the options of a task: these are the names that are passed to a script by maike. -/
theorem C114_input_partial (h : Found c sub entry) (hw : Written c sub entry) (hd : sub ≠ [] ∨ c.sourceDir.names ≠ [dot]) (n : String) (hn : IsName n.toList) (hs : '/' ∉ n.toList) (cwd : List Str)
    {opts : Kvs.Members} (h1 : (infoField opts "target_dir").bind Kvs.Json.asString = some (String.ofList c.targetDir.str))
    (h2 : (infoField opts "source_dir").bind Kvs.Json.asString = some (String.ofList c.sourceDir.str)) (h3 : Kvs.lookup "source_file" opts = some (.str (String.ofList c.srcPath.normal.str))) :
    ∃ s, inputOf cwd.reverse n opts = some s ∧ walk cwd (parse s.toList) = walk cwd (prependSearchPath c (parse ('.' :: '/' :: n.toList)) .generated) := by
  obtain ⟨s, e, hwalk, _⟩ := C114_reads_partial h hw hd n.toList hn hs cwd
  refine ⟨String.ofList s, ?_, by simpa using hwalk⟩
  simp [inputOf, h1, h2, h3, Kvs.Json.asString, e]

/-- **C114** (generators). The program that doc/cmdlineopts.py and doc/configdefault.py start is the one that they refer to, `core/bin/maike2`. -/
theorem C114_starts (h : Found c sub entry) (hw : Written c sub entry) (cwd : List Str) :
    walk cwd (parse (c.targetDir.str ++ "/core/bin/maike2".toList)) = walk cwd (prependSearchPath c (parse "core/bin/maike2".toList) .generated) := by
  have hc : Found ⟨(c.sourceDir / ⟨false, ["core".toList, "bin".toList], false⟩).normal / ⟨false, ["maike.cpp".toList], false⟩, c.sourceDir, c.targetDir⟩ ["core".toList, "bin".toList] "maike.cpp".toList :=
    ⟨h.normal, h.nonempty, by decide, by decide, rfl⟩
  have e1 : parse "core/bin/maike2".toList = ⟨false, ["core".toList, "bin".toList] ++ ["maike2".toList], false⟩ := by decide +kernel
  have e2 : "/core/bin/maike2".toList = '/' :: joinNames ["core".toList, "bin".toList, "maike2".toList] := by decide +kernel
  rw [e1, C65_plain c _ _ _ hc rfl "maike2".toList (by decide), walk_target hc _ (by decide), e2, parse_below _ hw.target hw.nonempty _ (by simp) (by decide)]
  unfold walk
  rw [List.foldl_append, foldl_names _ (by decide)]
  rfl

/-- A generator in the root of the project fails if the source directory is the current one: the name of its directory is empty, for which `os.path.relpath` raises an exception. -/
theorem C114_top (cwd : List Str) (sourceFile sourceDir targetDir n : Str) (h : '/' ∉ sourceFile) : besidesSource cwd sourceFile sourceDir targetDir n = none := by
  have : pyDirname sourceFile = [] := by
    have e : ∀ l : Str, '/' ∉ l → l.dropWhile (· ≠ '/') = [] := by
      intro l hl
      induction l with
      | nil => rfl
      | cons x l ih =>
        simp only [List.mem_cons, not_or] at hl
        rw [List.dropWhile_cons_of_pos (by simpa using Ne.symm hl.1), ih hl.2]
    rw [pyDirname, e _ (by simpa using h)]
    rfl
  simp [besidesSource, this, pyRelpath]

/-! ## Examples -/

namespace GeneratorExample

def ctxt : Ctxt := ⟨parse "../maike/doc/manpage.py".toList, parse "../maike".toList, parse "out".toList⟩

/-- The provisions of `C114_reads_partial` are met. -/
example : Found ctxt ["doc".toList] "manpage.py".toList ∧ Written ctxt ["doc".toList] "manpage.py".toList :=
  ⟨⟨.rel 1 ["maike".toList] false (by decide) (by decide), by decide, by decide, by decide, by decide +kernel⟩, ⟨parse_noSlash _, ⟨parse_noSlash _, by decide +kernel, by decide +kernel⟩, by decide +kernel, by decide, by decide⟩⟩

example : besidesSource ["home".toList, "build".toList] "../maike/doc/manpage.py".toList "../maike".toList "out".toList "cmdlineopts.md".toList = some "out/doc/cmdlineopts.md".toList := by decide +kernel

/-- **C114 is false** if the source directory is given as `./src`: then maike puts targets into the source directory (`C47_false`), and the script looks for them where they belong. -/
theorem C114_false_directory :
    besidesSource ["home".toList] "src/doc/manpage.py".toList "./src".toList "out".toList "cmdlineopts.md".toList = some "out/doc/cmdlineopts.md".toList ∧
    prependSearchPath ⟨parse "src/doc/manpage.py".toList, parse "./src".toList, parse "out".toList⟩ (parse "./cmdlineopts.md".toList) .generated = parse "src/doc/cmdlineopts.md".toList := by
  decide +kernel

end GeneratorExample

end Maike.Main
