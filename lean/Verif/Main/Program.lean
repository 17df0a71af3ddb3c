import Verif.Main.DepGraph
import Verif.Cli.Theorems
import Verif.Tree.Commands

/-!
# The program: from the command line to the exit status (C76)

`main`, core/bin/maike.cpp:282-412. The command line is read by the model in `Cli`, the configuration by the one in `Kvs`, and what follows is
the run of `Main/Run.lean`.
-/

namespace Maike.Main

open Fs Tree Paths Kvs

/-! ## Model -/

/-- What the program finds outside of the directories that it works on: contents of files, decoder and regular expressions (see
`Main/Source.lean`), whether a regular expression can be compiled, the directory of the recipes that are installed, what recipes print
when they are called with `configure` and `get_tags`, texts of error messages, and the number of processors. Such calls
of recipes are supposed not to change any file. -/
structure Machine where
  outside : Outside
  valid : String → Bool
  systemDir : Path
  configure : String → Members → Option Members
  getTags : Compiler → Path → Option Members
  message : Path → Str
  nprocs : Int

/-- `option<...>()` for an option whose value is a path, core/cmd_line_parser/command_line.hpp:436-440. -/
def pathOption (c : Cli.Collected Cli.Value) (i : Nat) : Str :=
  match c.value i with
  | some (.path s) => s
  | _ => []

/-- The same for lists of paths. -/
def pathsOption (c : Cli.Collected Cli.Value) (i : Nat) : List Str :=
  match c.value i with
  | some (.paths l) => l
  | _ => []

/-- The same for the number of workers; the default is `ThreadCount{}`, core/sched/thread_count.hpp:20-22. -/
def threadsOption (c : Cli.Collected Cli.Value) (i : Nat) : Int :=
  match c.value i with
  | some (.threads n) => n
  | _ => -1

/-- `sourceDir` of `makeBuildInfo`, core/bin/maike.cpp:33-34, with core/build/info.cpp:9. -/
def sourceDirOf (c : Cli.Collected Cli.Value) : Path := if c.isSet 12 then parse (pathOption c 12) else parse ['.']

/-- `targetDir` of `makeBuildInfo`, core/bin/maike.cpp:36-42, with core/build/info.cpp:9. -/
def targetDirOf (c : Cli.Collected Cli.Value) : Path :=
  if c.isSet 13 then parse (pathOption c 13)
  else if (sourceDirOf c).filename ≠ ['.'] then parse ((sourceDirOf c).filename ++ ['_', 't', 'a', 'r', 'g', 'e', 't', 's'])
  else parse ['_', '_', 't', 'a', 'r', 'g', 'e', 't', 's']

/-- `is_regular_file`, which follows symbolic links. -/
def isFile (fs : Build.FileSys Path) (p : Path) : Bool :=
  match fs p.normal with
  | some st => !st.dir
  | none => false

/-- `CommandDictionary::get`, core/source_tree_loader/command_dictionary.cpp:9-42, while the files stay as they are (see C48). -/
def findRecipe (dirs : Commands.Dirs) (fs : Build.FileSys Path) (cmd : Path) : Option (Path × Db.Origin) :=
  if cmd = Path.empty then some (cmd, .project)
  else if isFile fs (dirs.project / cmd) then some ((dirs.project / cmd).normal, .project)
  else if isFile fs (dirs.system / cmd) then some ((dirs.system / cmd).normal, .system)
  else none

/-- `commands`, core/bin/maike.cpp:330-332, together with the execution of recipes. -/
def resolverOf (m : Machine) (sourceDir : Path) (fs : Build.FileSys Path) : Resolver where
  get cmd := (findRecipe ⟨sourceDir, m.systemDir⟩ fs (parse cmd.toList)).map fun r => (String.ofList r.1.str, r.2)
  configure := m.configure

/-- The configuration, core/bin/maike.cpp:314-319. -/
def configOf (m : Machine) (c : Cli.Collected Cli.Value) : Config :=
  if c.isSet 11 then .default
  else
    let files := if c.isSet 9 then (pathsOption c 9).map parse else [sourceDirOf c / parse ['m', 'a', 'i', 'k', 'e', 'c', 'o', 'n', 'f', 'i', 'g', '.', 'j', 's', 'o', 'n']]
    loadConfig m.valid (files.map fun p => (m.outside.content p).bind (readCompound m.outside))

/-- The loop in `resolveRecipes`, core/bin/config.cpp:62-64. -/
def resolveLoaders (r : Resolver) : List (String × Loader) → Option (List (String × Loader))
  | [] => some []
  | (name, l) :: ls => (l.compiler.resolve r).bind fun k => (resolveLoaders r ls).map fun ls => (name, { l with compiler := k }) :: ls

/-- `resolveRecipes`, core/bin/config.cpp:56-69. -/
def resolveRecipes (r : Resolver) (cfg : Config) : Option Config :=
  (cfg.dirCompiler.resolve r).bind fun k => (resolveLoaders r cfg.loaders).map fun ls => { cfg with dirCompiler := k, loaders := ls }

/-- What is to be done with the source tree, core/bin/maike.cpp:365-405. -/
inductive What where
  | list
  | graph
  | targets (names : List Str)
  | all
deriving DecidableEq

/-- The settings of a run. -/
structure Settings where
  job : Job
  loaders : List (String × Loader)
  what : What
  dry : Bool
  force : Bool

/-- core/bin/maike.cpp:365, 373, 382. -/
def whatOf (c : Cli.Collected Cli.Value) : What :=
  if c.isSet 6 then .list else if c.isSet 3 then .graph else if c.isSet 8 then .targets (pathsOption c 8) else .all

/-- The arguments of the functions called in core/bin/maike.cpp:328-405, for a configuration with resolved recipes. -/
def settingsOf (m : Machine) (d : Disk) (c : Cli.Collected Cli.Value) (cfg : Config) (loaders : List (String × Loader)) : Settings where
  job :=
    { sourceDir := sourceDirOf c
      targetDir := targetDirOf c
      recursive := cfg.tree.recursive
      nameFilter := fun s => cfg.tree.filter.any fun r => m.outside.search r s
      dirFilter := fun s => cfg.tree.dirFilter.any fun r => m.outside.search r s
      dirCompiler := cfg.dirCompiler
      loader := loaderOf m.outside loaders
      resolver := resolverOf m (sourceDirOf c) d.fs
      getTags := m.getTags
      message := m.message
      workers := (Text.Numbers.threadCountValue m.nprocs (threadsOption c 16)).toNat }
  loaders := loaders
  what := whatOf c
  dry := c.isSet 17
  force := c.isSet 18

/-- What is printed by options that do not need a source tree. -/
inductive Info where
  | help
  | version
  | about
  | config (cfg : Config)

/-- What follows from the command line and the configuration. -/
inductive Plan where
  | print (i : Info)
  /-- an exception -/
  | abort
  | run (s : Settings)

/-- The second part of `main`: core/bin/maike.cpp:312-337. -/
def planFor (m : Machine) (d : Disk) (c : Cli.Collected Cli.Value) : Plan :=
  if c.isSet 10 then .print (.config (configOf m c))
  else
    match resolveRecipes (resolverOf m (sourceDirOf c) d.fs) (configOf m c) with
    | none => .abort
    | some cfg =>
      match mapLoaders cfg with
      | none => .abort
      | some loaders => .run (settingsOf m d c cfg loaders)

/-- The first part of `main`, core/bin/maike.cpp:284-337. -/
def plan (m : Machine) (d : Disk) (args : List Str) : Plan :=
  match Cli.collect Cli.maikeOptions args with
  | none => .abort
  | some c =>
    if c.isSet 0 then .print .help
    else if c.isSet 1 then .print .version
    else if c.isSet 2 then .print .about
    else planFor m d c

/-- What is printed to the standard output, apart from the header, core/bin/maike.cpp:339-352. -/
inductive Output where
  | nothing
  | info (i : Info)
  | lines (l : List Str)

/-- The build of everything, core/bin/maike.cpp:397-405, with the invoker of l. 379. -/
def Settings.build (s : Settings) (tree : Db.SourceTree Path) (kind : Path → Bool) : Build.Build Path :=
  { theBuild s.job tree s.force kind with dryrun := s.dry }

/-- The build of named targets, core/bin/maike.cpp:382-394. -/
def Settings.setup (s : Settings) (tree : Db.SourceTree Path) (kind : Path → Bool) : Build.Setup Path :=
  { s.job.setup tree s.force kind with dryrun := s.dry }

/-- `Ends m kind d now args status output fs`: the program, started with `args` on the file system `d` at time `now`, has returned
`status`, has printed `output`, and the file system is `fs` now. core/bin/maike.cpp:282-412. -/
inductive Ends (m : Machine) (kind : Path → Bool) (d : Disk) (now : Nat) (args : List Str) : Int → Output → Build.FileSys Path → Prop
  | printed {i} : plan m d args = .print i → Ends m kind d now args 0 (.info i) d.fs
  | aborted : plan m d args = .abort → Ends m kind d now args (-1) .nothing d.fs
  /-- exception from `collectSourceFiles` -/
  | scanFails {s n t e} : plan m d args = .run s → Steps (s.job.world d) n (Scan.init (s.job.world d)) t → takeResult t = some (.error e) →
      Ends m kind d now args (-1) .nothing d.fs
  /-- exception from another part of `SourceTreeLoader::load` -/
  | treeFails {s n t files e} : plan m d args = .run s → Steps (s.job.world d) n (Scan.init (s.job.world d)) t →
      takeResult t = some (.ok files) → Db.load (srcList files) = .error e → Ends m kind d now args (-1) .nothing d.fs
  | listed {s files tree} : plan m d args = .run s → Loads s.job d files tree → s.what = .list →
      Ends m kind d now args 0 (.lines (listing s.job.targetDir tree.targets)) d.fs
  | graph {s files tree} : plan m d args = .run s → Loads s.job d files tree → s.what = .graph →
      Ends m kind d now args 0 (.lines (graphLines tree.graph)) d.fs
  | cyclic {s files tree} : plan m d args = .run s → Loads s.job d files tree → s.what = .all → (Db.taskListAll tree.graph).1 ≠ .ok →
      Ends m kind d now args (-1) .nothing d.fs
  | built {s files tree as st n} : plan m d args = .run s → Loads s.job d files tree → s.what = .all → (Db.taskListAll tree.graph).1 = .ok →
      Build.exec (s.build tree kind) as (Build.init (s.build tree kind) d.fs now) = some st → st.sched.pc = .returned n →
      Ends m kind d now args 0 .nothing st.fs
  | failed {s files tree as st n} : plan m d args = .run s → Loads s.job d files tree → s.what = .all → (Db.taskListAll tree.graph).1 = .ok →
      Build.exec (s.build tree kind) as (Build.init (s.build tree kind) d.fs now) = some st → st.sched.pc = .rethrown n →
      Ends m kind d now args (-1) .nothing st.fs
  | named {s files tree names schedules n st} : plan m d args = .run s → Loads s.job d files tree → s.what = .targets names →
      Build.compileSeveral (s.setup tree kind) (names.map parse) schedules (.start d.fs now) = some (.completed n, st) →
      Ends m kind d now args 0 .nothing st.fs
  | namedFails {s files tree names schedules v st} : plan m d args = .run s → Loads s.job d files tree → s.what = .targets names →
      Build.compileSeveral (s.setup tree kind) (names.map parse) schedules (.start d.fs now) = some (v, st) → (∀ n, v ≠ .completed n) →
      Ends m kind d now args (-1) .nothing st.fs

/-! ## Specification -/

/-- The option with this full name is selected by one of the arguments. -/
def Given (args : List Str) (name : String) : Prop :=
  ∃ str ∈ args, str ≠ [] ∧ ∃ o, Cli.Selects Cli.maikeOptions str o ∧ o.name = name.toList

/-- This is what the last argument that selects the option says about its value. -/
def LastValue (args : List Str) (name : String) (value : Str) : Prop :=
  ∃ before str after o, args = before ++ str :: after ∧ str ≠ [] ∧ Cli.Selects Cli.maikeOptions str o ∧ o.name = name.toList ∧
    (∀ str' ∈ after, str' ≠ [] → ¬ Cli.Selects Cli.maikeOptions str' o) ∧ value = Cli.argValue str

/-- The argument is empty, or it selects an option and has a value that this option accepts. -/
def Acceptable (str : Str) : Prop :=
  str ≠ [] → ∃ o, Cli.Selects Cli.maikeOptions str o ∧ (o.valueRequired → Cli.argValue str ≠ []) ∧ (o.convert (Cli.argValue str)).isSome

/-- This is the configuration that the command line asks for: the default one, or the one that is read from the given files, or the one that is
read from `maikeconfig.json` in the source directory. -/
structure ConfigFor (m : Machine) (args : List Str) (cfg : Config) : Prop where
  default : Given args "--config-default" → cfg = .default
  files : ¬ Given args "--config-default" → ∀ value, LastValue args "--configfiles" value →
    cfg = loadConfig m.valid ((Cli.parseList value).map fun p => (m.outside.content (parse p)).bind (readCompound m.outside))
  project : ¬ Given args "--config-default" → ¬ Given args "--configfiles" → ∀ dir,
    (LastValue args "--source-dir" dir ∨ (¬ Given args "--source-dir" ∧ dir = ".".toList)) →
    cfg = loadConfig m.valid [(m.outside.content (parse dir / parse "maikeconfig.json".toList)).bind (readCompound m.outside)]

/-! ## Lemmas -/

section

variable {m : Machine} {kind : Path → Bool} {d : Disk} {now : Nat} {args : List Str}

/-- `index` is the index of the option `name`. -/
def HasIndex (name : String) (index : Nat) : Prop := ∃ o ∈ Cli.maikeOptions, o.name = name.toList ∧ o.index = index

theorem hasIndex {name : String} {index : Nat}
    (h : (Cli.maikeOptions.map fun o => (o.name, o.index)).contains (name.toList, index) = true) : HasIndex name index := by
  have h := List.contains_iff_mem.mp h
  obtain ⟨o, ho, e⟩ := List.mem_map.mp h
  injection e with e1 e2
  exact ⟨o, ho, e1, e2⟩

theorem given_iff {c : Cli.Collected Cli.Value} (hc : Cli.collect Cli.maikeOptions args = some c) {name : String} {index : Nat}
    (hi : HasIndex name index) : c.isSet index = true ↔ Given args name := by
  obtain ⟨o, ho, hn, rfl⟩ := hi
  rw [(Cli.C51_last _ Cli.maikeOptions_proper args c hc o ho).1]
  constructor
  · rintro ⟨str, h1, h2, h3⟩; exact ⟨str, h1, h2, o, h3, hn⟩
  · rintro ⟨str, h1, h2, o', h3, hn'⟩
    have : o' = o := Cli.inj_of_nodup_map Cli.maikeOptions_proper.names h3.mem ho (hn'.trans hn.symm)
    exact ⟨str, h1, h2, this ▸ h3⟩

theorem lastValue {c : Cli.Collected Cli.Value} (hc : Cli.collect Cli.maikeOptions args = some c) {name : String} {index : Nat}
    (hi : HasIndex name index) {value : Str} (hv : LastValue args name value) :
    ∃ o ∈ Cli.maikeOptions, o.name = name.toList ∧ o.index = index ∧ c.isSet index = true ∧ c.value index = o.convert value ∧
      (o.valueRequired → value ≠ []) ∧ (o.convert value).isSome := by
  obtain ⟨o, ho, hn, rfl⟩ := hi
  obtain ⟨before, str, after, o', rfl, h2, h3, h4, h5, rfl⟩ := hv
  have e : o' = o := Cli.inj_of_nodup_map Cli.maikeOptions_proper.names h3.mem ho (h4.trans hn.symm)
  subst e
  obtain ⟨g1, g2, _⟩ := Cli.C51_last _ Cli.maikeOptions_proper _ c hc o' ho
  obtain ⟨o, k1, k2, k3⟩ := (Cli.C51_accepted _ Cli.maikeOptions_proper _).mp (by rw [hc]; rfl) str (by simp) h2
  rw [Cli.Selects.unique Cli.maikeOptions_proper k1 h3] at k2 k3
  exact ⟨o', ho, hn, rfl, g1.mpr ⟨str, by simp, h2, h3⟩, g2 before str after rfl h2 h3 h5, k2, k3⟩

theorem hasIndex_help : HasIndex "--help" 0 := hasIndex (by decide +kernel)
theorem hasIndex_version : HasIndex "--version" 1 := hasIndex (by decide +kernel)
theorem hasIndex_about : HasIndex "--about" 2 := hasIndex (by decide +kernel)
theorem hasIndex_graph : HasIndex "--print-dep-graph" 3 := hasIndex (by decide +kernel)
theorem hasIndex_list : HasIndex "--list-targets" 6 := hasIndex (by decide +kernel)
theorem hasIndex_targets : HasIndex "--targets" 8 := hasIndex (by decide +kernel)
theorem hasIndex_dump : HasIndex "--configdump" 10 := hasIndex (by decide +kernel)
theorem hasIndex_source : HasIndex "--source-dir" 12 := hasIndex (by decide +kernel)
theorem hasIndex_target : HasIndex "--target-dir" 13 := hasIndex (by decide +kernel)
theorem hasIndex_workers : HasIndex "--num-workers" 16 := hasIndex (by decide +kernel)
theorem hasIndex_dry : HasIndex "--dry-run" 17 := hasIndex (by decide +kernel)
theorem hasIndex_force : HasIndex "--force-rebuild" 18 := hasIndex (by decide +kernel)

/-- Where settings come from. -/
theorem plan_run {s : Settings} (h : plan m d args = .run s) :
    ∃ c cfg loaders, Cli.collect Cli.maikeOptions args = some c ∧ c.isSet 0 = false ∧ c.isSet 1 = false ∧ c.isSet 2 = false ∧
      c.isSet 10 = false ∧ resolveRecipes (resolverOf m (sourceDirOf c) d.fs) (configOf m c) = some cfg ∧ mapLoaders cfg = some loaders ∧
      s = settingsOf m d c cfg loaders := by
  unfold plan at h
  split at h
  · cases h
  · rename_i c hc
    split at h
    · cases h
    · split at h
      · cases h
      · split at h
        · cases h
        · unfold planFor at h
          split at h
          · cases h
          · split at h
            · cases h
            · rename_i cfg hcfg
              split at h
              · cases h
              · rename_i loaders hl
                injection h with h
                exact ⟨c, cfg, loaders, hc, by simp_all, by simp_all, by simp_all, by simp_all, hcfg, hl, h.symm⟩

theorem exists_lastValue {name : String} (h : Given args name) : ∃ value, LastValue args name value := by
  obtain ⟨str, hs1, hs2, o, hs3, hn⟩ := h
  have hlast : ∃ before str after, args = before ++ str :: after ∧ str ≠ [] ∧ Cli.Selects Cli.maikeOptions str o ∧
      ∀ str' ∈ after, str' ≠ [] → ¬ Cli.Selects Cli.maikeOptions str' o := by
    induction args generalizing str with
    | nil => cases hs1
    | cons a args ih =>
      by_cases hex : ∃ str ∈ args, str ≠ [] ∧ Cli.Selects Cli.maikeOptions str o
      · obtain ⟨str', h1, h2, h3⟩ := hex
        obtain ⟨before, x, after, rfl, h⟩ := ih str' h1 h2 h3
        exact ⟨a :: before, x, after, rfl, h⟩
      · rcases List.mem_cons.mp hs1 with rfl | hs1
        · exact ⟨[], str, args, rfl, hs2, hs3, fun s h1 h2 h3 => hex ⟨s, h1, h2, h3⟩⟩
        · exact absurd ⟨str, hs1, hs2, hs3⟩ hex
  obtain ⟨before, x, after, he, hx, hsel, hafter⟩ := hlast
  exact ⟨_, before, x, after, o, he, hx, hsel, hn, hafter, rfl⟩

/-- The value of an option. -/
theorem option_value {c : Cli.Collected Cli.Value} (hc : Cli.collect Cli.maikeOptions args = some c) {o : Cli.Opt Cli.Value}
    (ho : o ∈ Cli.maikeOptions) {name : String} (hn : o.name = name.toList) {value : Str} (hv : LastValue args name value) :
    c.isSet o.index = true ∧ c.value o.index = o.convert value ∧ (o.valueRequired → value ≠ []) ∧ (o.convert value).isSome := by
  obtain ⟨o', ho', hn', _, h⟩ := lastValue hc ⟨o, ho, hn, rfl⟩ hv
  have := Cli.inj_of_nodup_map Cli.maikeOptions_proper.names ho' ho (hn'.trans hn.symm)
  subst this
  exact h

theorem sourceDir_value {c : Cli.Collected Cli.Value} (hc : Cli.collect Cli.maikeOptions args = some c) {value : Str}
    (hv : LastValue args "--source-dir" value) : sourceDirOf c = parse value ∧ value ≠ [] := by
  obtain ⟨h1, h2, h3, _⟩ := option_value hc (o := ⟨12, "--source-dir".toList, true, Cli.pathValue⟩) (by simp [Cli.maikeOptions]) rfl hv
  refine ⟨?_, h3 rfl⟩
  simp only at h1 h2
  simp [sourceDirOf, h1, pathOption, h2, Cli.pathValue]

theorem targetDir_value {c : Cli.Collected Cli.Value} (hc : Cli.collect Cli.maikeOptions args = some c) {value : Str}
    (hv : LastValue args "--target-dir" value) : targetDirOf c = parse value ∧ value ≠ [] := by
  obtain ⟨h1, h2, h3, _⟩ := option_value hc (o := ⟨13, "--target-dir".toList, true, Cli.pathValue⟩) (by simp [Cli.maikeOptions]) rfl hv
  refine ⟨?_, h3 rfl⟩
  simp only at h1 h2
  simp [targetDirOf, h1, pathOption, h2, Cli.pathValue]

theorem targets_value {c : Cli.Collected Cli.Value} (hc : Cli.collect Cli.maikeOptions args = some c) {value : Str}
    (hv : LastValue args "--targets" value) : c.isSet 8 = true ∧ pathsOption c 8 = Cli.parseList value := by
  obtain ⟨h1, h2, h3, _⟩ := option_value hc (o := ⟨8, "--targets".toList, true, Cli.pathsValue⟩) (by simp [Cli.maikeOptions]) rfl hv
  simp only at h1 h2
  exact ⟨h1, by simp [pathsOption, h2, Cli.pathsValue]⟩

theorem hasIndex_default : HasIndex "--config-default" 11 := hasIndex (by decide +kernel)
theorem hasIndex_files : HasIndex "--configfiles" 9 := hasIndex (by decide +kernel)

theorem configFor_of {c : Cli.Collected Cli.Value} (hc : Cli.collect Cli.maikeOptions args = some c) : ConfigFor m args (configOf m c) := by
  constructor
  · intro h
    rw [← given_iff hc hasIndex_default] at h
    simp [configOf, h]
  · intro h v hv
    rw [← given_iff hc hasIndex_default] at h
    obtain ⟨h1, h2, _⟩ := option_value hc (o := ⟨9, "--configfiles".toList, true, Cli.pathsValue⟩) (by simp [Cli.maikeOptions]) rfl hv
    simp only at h1 h2
    simp [configOf, h, h1, pathsOption, h2, Cli.pathsValue, Function.comp_def]
  · intro h h' dir hdir
    rw [← given_iff hc hasIndex_default] at h
    rw [← given_iff hc hasIndex_files] at h'
    have : sourceDirOf c = parse dir := by
      rcases hdir with hdir | ⟨hdir, rfl⟩
      · exact (sourceDir_value hc hdir).1
      · rw [← given_iff hc hasIndex_source] at hdir
        rw [sourceDirOf, if_neg hdir]; rfl
    simp only [configOf, h, h', Bool.false_eq_true, if_false, List.map_cons, List.map_nil, this]
    rfl

theorem parse_ne_empty {s : Str} (h : s ≠ []) : parse s ≠ Path.empty := by
  intro e
  obtain ⟨c, s, rfl⟩ := List.exists_cons_of_ne_nil h
  by_cases hc : c = '/'
  · subst hc
    have := congrArg Path.root e
    simp [parse, Path.empty] at this
  · have : (parse (c :: s)).names ≠ [] := by
      simp only [parse, splitNames, if_neg hc, List.nil_append]
      have : ∀ (s cur : Str), cur ≠ [] → splitNames s cur ≠ [] := by
        intro s
        induction s with
        | nil => intro cur h; simp [splitNames, h]
        | cons c s ih =>
          intro cur h
          simp only [splitNames]
          split
          · simp [h]
          · exact ih _ (by simp)
      exact this _ _ (by simp)
    rw [e] at this
    exact this rfl

theorem plan_sourceDir {s : Settings} (h : plan m d args = .run s) : s.job.sourceDir ≠ Path.empty := by
  obtain ⟨c, cfg, loaders, hc, _, _, _, _, _, _, rfl⟩ := plan_run h
  show sourceDirOf c ≠ _
  by_cases hset : c.isSet 12 = true
  · obtain ⟨v, hv⟩ := exists_lastValue ((given_iff hc hasIndex_source).mp hset)
    obtain ⟨h1, h2⟩ := sourceDir_value hc hv
    rw [h1]; exact parse_ne_empty h2
  · rw [sourceDirOf, if_neg hset]; decide

theorem build_dry {s : Settings} {files : List (Path × FileInfo)} {tree : Db.SourceTree Path} (hw : (s.job.world d).Ok)
    (hl : Loads s.job d files tree) (hok : (Db.taskListAll tree.graph).1 = .ok) (hdry : s.dry = true)
    {as : List (Build.Act Path)} {st : Build.State Path}
    (hx : Build.exec (s.build tree kind) as (Build.init (s.build tree kind) d.fs now) = some st) : st.fs = d.fs := by
  have hs : Db.Map.Sorted (srcList files) := (files_sorted_of_ok hw hl).map_val fun x => x.2.toSrcInfo
  obtain ⟨_, files3, _, _, _, hg, s3⟩ := Build.load_ok hs hl.2
  refine (Build.C38_nothing_changes (s.build tree kind) ?_ hdry hx).1
  exact ((Db.C21_all_tasks files3 s3 hg).2 hok).2 s.job.workers

theorem world_ok_of (hd : d.Ok) {s : Settings} (h : plan m d args = .run s) : (s.job.world d).Ok :=
  ⟨plan_sourceDir h, hd.nodup, hd.isName⟩

theorem what_of {s : Settings} (h : plan m d args = .run s) :
    (s.what = .list ↔ Given args "--list-targets") ∧ (s.what = .graph ↔ ¬ Given args "--list-targets" ∧ Given args "--print-dep-graph") ∧
    (s.what = .all ↔ ¬ Given args "--list-targets" ∧ ¬ Given args "--print-dep-graph" ∧ ¬ Given args "--targets") ∧
    (s.dry = true ↔ Given args "--dry-run") ∧ (s.force = true ↔ Given args "--force-rebuild") ∧
    (∀ v, ¬ Given args "--list-targets" → ¬ Given args "--print-dep-graph" → LastValue args "--targets" v → s.what = .targets (Cli.parseList v)) := by
  obtain ⟨c, cfg, loaders, hc, _, _, _, _, _, _, rfl⟩ := plan_run h
  rw [← given_iff hc hasIndex_list, ← given_iff hc hasIndex_graph, ← given_iff hc hasIndex_targets, ← given_iff hc hasIndex_dry,
    ← given_iff hc hasIndex_force]
  simp only [settingsOf, whatOf]
  refine ⟨?_, ?_, ?_, trivial, trivial, ?_⟩
  · split
    · simp_all
    · split
      · simp_all
      · split <;> simp_all
  · split
    · simp_all
    · split
      · simp_all
      · split <;> simp_all
  · split
    · simp_all
    · split
      · simp_all
      · split <;> simp_all
  · intro v h1 h2 hv
    obtain ⟨h3, h4⟩ := targets_value hc hv
    rw [if_neg h1, if_neg h2, if_pos h3, h4]

/-! ## C76 -/

/-- **C76.** If the program returns 0, and it has been asked neither for information, nor for a dry run, nor for single targets, then every target of
every file that is found below the source directory exists. If it is not a directory, it is newer than the file that it is made from, and than
everything that this file needs. -/
theorem C76_success {s : Settings} (hplan : plan m d args = .run s) (hp : Proper s.job kind d now)
    (h1 : ¬ Given args "--list-targets") (h2 : ¬ Given args "--print-dep-graph") (h3 : ¬ Given args "--targets") (h4 : ¬ Given args "--dry-run")
    {out : Output} {fs : Build.FileSys Path} (h : Ends m kind d now args 0 out fs) {p : Path} {i : FileInfo} (hsc : Scanned s.job d p i)
    {t : TTarget} (ht : t ∈ i.targets) :
    Build.Exists fs t.name ∧ (kind t.name = false → Build.StrictlyNewer fs t.name p.normal ∧
      ∀ q, Needs s.job d p.normal q → kind q = false →
        (∀ p' i', Scanned s.job d p' i' → ∀ x, Declares i' x → x.name = q → Db.isExternal x.origin = false) →
        Build.StrictlyNewer fs t.name q) := by
  obtain ⟨w1, w2, w3, w4, _, _⟩ := what_of hplan
  have hdry : s.dry = false := by rw [← Bool.not_eq_true, w4]; exact h4
  have hall := w3.mpr ⟨h1, h2, h3⟩
  generalize hst : (0 : Int) = status at h
  cases h with
  | printed e => rw [hplan] at e; cases e
  | listed e _ ew => rw [hplan] at e; cases e; rw [hall] at ew; cases ew
  | graph e _ ew => rw [hplan] at e; cases e; rw [hall] at ew; cases ew
  | named e _ ew => rw [hplan] at e; cases e; rw [hall] at ew; cases ew
  | @built s' files tree as st n e hl _ hok hx hpc =>
    rw [hplan] at e
    injection e with e
    subst e
    have hb : s.build tree kind = theBuild s.job tree s.force kind := by unfold Settings.build; rw [hdry]; rfl
    rw [hb] at hx
    exact C70_end_to_end hp ⟨hl, hok, as, hx⟩ ⟨n, hpc⟩ hsc ht
  | _ => omega

/-- **C76.** In this case also, what is made from a C++ file is newer than the files that it includes. -/
theorem C76_includes {s : Settings} (hplan : plan m d args = .run s) (hp : Proper s.job kind d now)
    (h1 : ¬ Given args "--list-targets") (h2 : ¬ Given args "--print-dep-graph") (h3 : ¬ Given args "--targets") (h4 : ¬ Given args "--dry-run")
    {out : Output} {fs : Build.FileSys Path} (h : Ends m kind d now args 0 out fs) {p : Path} {i : FileInfo} (hsc : Scanned s.job d p i)
    {t : TTarget} (ht : t ∈ i.targets) (hk : kind t.name = false) {q : Path} (hi : IncludesTrans m.outside s.loaders s.job d p.normal q)
    (hkq : kind q = false) (hext : ∀ p' i', Scanned s.job d p' i' → ∀ x, Declares i' x → x.name = q → Db.isExternal x.origin = false) :
    Build.StrictlyNewer fs t.name q := by
  have hj : s.job.loader = loaderOf m.outside s.loaders := by
    obtain ⟨c, cfg, loaders, _, _, _, _, _, _, _, rfl⟩ := plan_run hplan
    rfl
  exact ((C76_success hplan hp h1 h2 h3 h4 h hsc ht).2 hk).2 q (C75_needed hj hi) hkq hext

/-- **C76.** If the program returns 0 when it has been asked for single targets, without `--force-rebuild` and `--dry-run`, then everything that is needed for
each of them is up to date, except for what is always rebuilt. With `--force-rebuild`, this holds for the last one. -/
theorem C76_named {s : Settings} (hplan : plan m d args = .run s) (hp : Proper s.job kind d now)
    (h1 : ¬ Given args "--list-targets") (h2 : ¬ Given args "--print-dep-graph") {value : Str} (h3 : LastValue args "--targets" value)
    (h4 : ¬ Given args "--dry-run") {out : Output} {fs : Build.FileSys Path} (h : Ends m kind d now args 0 out fs) :
    ∃ files tree, Loads s.job d files tree ∧
      (¬ Given args "--force-rebuild" → ∀ name ∈ Cli.parseList value, ∃ t root, (s.job.targetDir / parse name, t) ∈ tree.targets ∧
        tree.graph.PathOf root t.sourceFilename ∧ ∀ u, Graph.Reach tree.graph.toGraph root u → tree.graph.Builds u → Build.Steady tree.graph u →
          Build.UpToDate fs (Build.makeTask tree.graph u) ∧ ∀ p ∈ (Build.makeTask tree.graph u).targets, Build.Exists fs p) ∧
      (∀ before last, Cli.parseList value = before ++ [last] → ∃ t root, (s.job.targetDir / parse last, t) ∈ tree.targets ∧
        tree.graph.PathOf root t.sourceFilename ∧ ∀ u, Graph.Reach tree.graph.toGraph root u → tree.graph.Builds u →
          Build.UpToDate fs (Build.makeTask tree.graph u) ∧ ∀ p ∈ (Build.makeTask tree.graph u).targets, Build.Exists fs p) := by
  obtain ⟨w1, w2, w3, w4, w5, w6⟩ := what_of hplan
  have hdry : s.dry = false := by rw [← Bool.not_eq_true, w4]; exact h4
  have hall := w6 value h1 h2 h3
  generalize hst : (0 : Int) = status at h
  cases h with
  | printed e => rw [hplan] at e; cases e
  | listed e _ ew => rw [hplan] at e; cases e; rw [hall] at ew; cases ew
  | graph e _ ew => rw [hplan] at e; cases e; rw [hall] at ew; cases ew
  | built e _ ew => rw [hplan] at e; cases e; rw [hall] at ew; cases ew
  | @named s' files tree names schedules n st e hl ew hx =>
    rw [hplan] at e
    injection e with e
    subst e
    rw [hall] at ew
    injection ew with ew
    subst ew
    refine ⟨files, tree, hl, fun hf => ?_, fun before last he => ?_⟩
    · have hforce : (s.setup tree kind).force = false := by
        show s.force = false
        rw [← Bool.not_eq_true, w5]; exact hf
      intro name hname
      exact Build.C69_up_to_date (c := s.setup tree kind) (loadable hp hl) hl.2 (no_empty hp hl) hforce rfl hdry hp.past hp.kinds hx
        (parse name) (List.mem_map_of_mem hname)
    · rw [he, List.map_append] at hx
      exact Build.C69_last (c := s.setup tree kind) (loadable hp hl) hl.2 (no_empty hp hl) rfl hdry hp.past hp.kinds hx
  | _ => omega

/-- **C76.** Asking for information does not change any file, and neither does a dry run, whatever else is on the command line and however the
program ends. -/
theorem C76_read_only (hd : d.Ok)
    (hq : Given args "--help" ∨ Given args "--version" ∨ Given args "--about" ∨ Given args "--configdump" ∨ Given args "--list-targets" ∨
      Given args "--print-dep-graph" ∨ Given args "--dry-run")
    {status : Int} {out : Output} {fs : Build.FileSys Path} (h : Ends m kind d now args status out fs) : fs = d.fs := by
  have hrun : ∀ s, plan m d args = .run s → s.what = .list ∨ s.what = .graph ∨ s.dry = true := by
    intro s hs
    obtain ⟨w1, w2, w3, w4, _, _⟩ := what_of hs
    obtain ⟨c, cfg, loaders, hc, k0, k1, k2, k10, _, _, _⟩ := plan_run hs
    have hn : ∀ {name i}, HasIndex name i → c.isSet i = false → ¬ Given args name := by
      intro name i hi hf hg
      rw [(given_iff hc hi).mpr hg] at hf; cases hf
    rcases hq with h | h | h | h | h | h | h
    · exact absurd h (hn hasIndex_help k0)
    · exact absurd h (hn hasIndex_version k1)
    · exact absurd h (hn hasIndex_about k2)
    · exact absurd h (hn hasIndex_dump k10)
    · exact .inl (w1.mpr h)
    · by_cases hl : Given args "--list-targets"
      · exact .inl (w1.mpr hl)
      · exact .inr (.inl (w2.mpr ⟨hl, h⟩))
    · exact .inr (.inr (w4.mpr h))
  cases h with
  | @built s files tree as st n e hl hw hok hx =>
    rcases hrun s e with h | h | h
    · rw [hw] at h; cases h
    · rw [hw] at h; cases h
    · exact build_dry (world_ok_of hd e) hl hok h hx
  | @failed s files tree as st n e hl hw hok hx =>
    rcases hrun s e with h | h | h
    · rw [hw] at h; cases h
    · rw [hw] at h; cases h
    · exact build_dry (world_ok_of hd e) hl hok h hx
  | @named s files tree names schedules n st e hl hw hx =>
    rcases hrun s e with h | h | h
    · rw [hw] at h; cases h
    · rw [hw] at h; cases h
    · exact Build.C69_dry (c := s.setup tree kind) ((files_sorted_of_ok (world_ok_of hd e) hl).map_val fun x => x.2.toSrcInfo) hl.2 h hx
  | @namedFails s files tree names schedules v st e hl hw hx =>
    rcases hrun s e with h | h | h
    · rw [hw] at h; cases h
    · rw [hw] at h; cases h
    · exact Build.C69_dry (c := s.setup tree kind) ((files_sorted_of_ok (world_ok_of hd e) hl).map_val fun x => x.2.toSrcInfo) hl.2 h hx
  | _ => rfl

/-- What happens if the plan is not to look at the source tree. -/
theorem ends_print {i : Info} (hplan : plan m d args = .print i) (status : Int) (out : Output) (fs : Build.FileSys Path) :
    Ends m kind d now args status out fs ↔ status = 0 ∧ out = .info i ∧ fs = d.fs := by
  constructor
  · intro h
    cases h with
    | printed e => rw [hplan] at e; cases e; exact ⟨rfl, rfl, rfl⟩
    | aborted e => rw [hplan] at e; cases e
    | scanFails e => rw [hplan] at e; cases e
    | treeFails e => rw [hplan] at e; cases e
    | listed e => rw [hplan] at e; cases e
    | graph e => rw [hplan] at e; cases e
    | cyclic e => rw [hplan] at e; cases e
    | built e => rw [hplan] at e; cases e
    | failed e => rw [hplan] at e; cases e
    | named e => rw [hplan] at e; cases e
    | namedFails e => rw [hplan] at e; cases e
  · rintro ⟨rfl, rfl, rfl⟩; exact .printed hplan

theorem ends_abort (hplan : plan m d args = .abort) (status : Int) (out : Output) (fs : Build.FileSys Path) :
    Ends m kind d now args status out fs ↔ status = -1 ∧ out = .nothing ∧ fs = d.fs := by
  constructor
  · intro h
    cases h with
    | printed e => rw [hplan] at e; cases e
    | aborted e => exact ⟨rfl, rfl, rfl⟩
    | scanFails e => rw [hplan] at e; cases e
    | treeFails e => rw [hplan] at e; cases e
    | listed e => rw [hplan] at e; cases e
    | graph e => rw [hplan] at e; cases e
    | cyclic e => rw [hplan] at e; cases e
    | built e => rw [hplan] at e; cases e
    | failed e => rw [hplan] at e; cases e
    | named e => rw [hplan] at e; cases e
    | namedFails e => rw [hplan] at e; cases e
  · rintro ⟨rfl, rfl, rfl⟩; exact .aborted hplan

/-- **C76.** If one of the arguments is not accepted, the program returns -1 and does nothing. -/
theorem C76_rejected {str : Str} (hs : str ∈ args) (hn : ¬ Acceptable str) (status : Int) (out : Output) (fs : Build.FileSys Path) :
    Ends m kind d now args status out fs ↔ status = -1 ∧ out = .nothing ∧ fs = d.fs := by
  apply ends_abort
  have : Cli.collect Cli.maikeOptions args = none := by
    cases hc : Cli.collect Cli.maikeOptions args with
    | none => rfl
    | some c => exact absurd (fun hne => (Cli.C51_accepted _ Cli.maikeOptions_proper args).mp (by rw [hc]; rfl) str hs hne) hn
  unfold plan
  rw [this]

/-- **C76.** `--help` comes before `--version`, this before `--about`, and this before `--configdump`; each of them prevents everything else,
provided that the other arguments are acceptable. -/
theorem C76_info (ha : ∀ str ∈ args, Acceptable str) (status : Int) (out : Output) (fs : Build.FileSys Path) :
    (Given args "--help" → (Ends m kind d now args status out fs ↔ status = 0 ∧ out = .info .help ∧ fs = d.fs)) ∧
    (¬ Given args "--help" → Given args "--version" → (Ends m kind d now args status out fs ↔ status = 0 ∧ out = .info .version ∧ fs = d.fs)) ∧
    (¬ Given args "--help" → ¬ Given args "--version" → Given args "--about" →
      (Ends m kind d now args status out fs ↔ status = 0 ∧ out = .info .about ∧ fs = d.fs)) ∧
    (¬ Given args "--help" → ¬ Given args "--version" → ¬ Given args "--about" → Given args "--configdump" →
      ∃ cfg, ConfigFor m args cfg ∧ (Ends m kind d now args status out fs ↔ status = 0 ∧ out = .info (.config cfg) ∧ fs = d.fs)) := by
  obtain ⟨c, hc⟩ := Option.isSome_iff_exists.mp ((Cli.C51_accepted _ Cli.maikeOptions_proper args).mpr ha)
  simp only [← given_iff hc hasIndex_help, ← given_iff hc hasIndex_version, ← given_iff hc hasIndex_about, ← given_iff hc hasIndex_dump]
  refine ⟨fun h => ends_print ?_ .., fun h h' => ends_print ?_ .., fun h h' h'' => ends_print ?_ .., fun h h' h'' h3 =>
    ⟨configOf m c, configFor_of hc, ends_print ?_ ..⟩⟩
  · simp [plan, hc, h]
  · simp [plan, hc, h, h']
  · simp [plan, hc, h, h', h'']
  · simp [plan, planFor, hc, h, h', h'', h3]

/-- **C76.** The exit status is 0 or -1. Unless it is 0, nothing but the header is printed to the standard output. -/
theorem C76_status {status : Int} {out : Output} {fs : Build.FileSys Path} (h : Ends m kind d now args status out fs) :
    status = 0 ∨ (status = -1 ∧ out = .nothing) := by
  cases h <;> simp

/-- **C76.** Whether a query succeeds, and what it prints, does not depend on the number of workers, or on the order in which they proceed. -/
theorem C76_deterministic (hd : d.Ok) {now' : Nat} {kind' : Path → Bool} (hq : Given args "--list-targets" ∨ Given args "--print-dep-graph")
    {out out' : Output} {status : Int} {fs fs' : Build.FileSys Path} (h : Ends m kind d now args 0 out fs)
    (h' : Ends m kind' d now' args status out' fs') : status = 0 ∧ out' = out := by
  cases hplan : plan m d args with
  | print i =>
    obtain ⟨_, rfl, _⟩ := (ends_print hplan _ _ _).mp h
    obtain ⟨h1, h2, _⟩ := (ends_print hplan _ _ _).mp h'
    exact ⟨h1, h2⟩
  | abort => exact absurd ((ends_abort hplan _ _ _).mp h).1 (by decide)
  | run s =>
    obtain ⟨w1, w2, w3, _⟩ := what_of hplan
    have hw := world_ok_of hd hplan
    have hall : s.what ≠ .all := fun e => by
      obtain ⟨h1, h2, _⟩ := w3.mp e
      rcases hq with h | h
      · exact h1 h
      · exact h2 h
    have hnamed : ∀ l, s.what ≠ .targets l := fun l e => by
      rcases hq with h | h
      · rw [w1.mpr h] at e; cases e
      · by_cases hl : Given args "--list-targets"
        · rw [w1.mpr hl] at e; cases e
        · rw [w2.mpr ⟨hl, h⟩] at e; cases e
    have key : ∃ files tree, Loads s.job d files tree ∧
        out = (if s.what = .list then .lines (listing s.job.targetDir tree.targets) else .lines (graphLines tree.graph)) := by
      clear h'
      generalize hst : (0 : Int) = status₀ at h
      cases h with
      | printed e => rw [hplan] at e; cases e
      | listed e hl ew => rw [hplan] at e; cases e; exact ⟨_, _, hl, by rw [if_pos ew]⟩
      | graph e hl ew => rw [hplan] at e; cases e; exact ⟨_, _, hl, by rw [ew]; rfl⟩
      | named e hl ew => rw [hplan] at e; cases e; exact absurd ew (hnamed _)
      | built e hl ew => rw [hplan] at e; cases e; exact absurd ew hall
      | _ => omega
    obtain ⟨files, tree, hl, rfl⟩ := key
    cases h' with
    | printed e => rw [hplan] at e; cases e
    | aborted e => rw [hplan] at e; cases e
    | scanFails e hs hr =>
      rw [hplan] at e; cases e
      obtain ⟨⟨n, t, ht, hr'⟩, _⟩ := hl
      have := C49_schedule hw ht hs hr' (by rw [hr]; simp)
      rw [hr] at this; cases this
    | treeFails e hs hr hf =>
      rw [hplan] at e; cases e
      obtain ⟨⟨n, t, ht, hr'⟩, hok⟩ := hl
      have := C49_schedule hw ht hs hr' (by rw [hr]; simp)
      rw [hr] at this
      injection this with this
      injection this with this
      subst this
      rw [hok] at hf; cases hf
    | listed e hl' ew =>
      rw [hplan] at e; cases e
      obtain ⟨_, rfl⟩ := loads_unique hw hl hl'
      exact ⟨rfl, by rw [if_pos ew]⟩
    | graph e hl' ew =>
      rw [hplan] at e; cases e
      obtain ⟨_, rfl⟩ := loads_unique hw hl hl'
      exact ⟨rfl, by rw [ew]; rfl⟩
    | cyclic e hl ew => rw [hplan] at e; cases e; exact absurd ew hall
    | built e hl ew => rw [hplan] at e; cases e; exact absurd ew hall
    | failed e hl ew => rw [hplan] at e; cases e; exact absurd ew hall
    | named e hl ew => rw [hplan] at e; cases e; exact absurd ew (hnamed _)
    | namedFails e hl ew => rw [hplan] at e; cases e; exact absurd ew (hnamed _)

/-- **C76.** The directories that the program works on. -/
theorem C76_dirs {s : Settings} (hplan : plan m d args = .run s) :
    (∀ value, LastValue args "--source-dir" value → s.job.sourceDir = parse value) ∧
    (¬ Given args "--source-dir" → s.job.sourceDir = parse ".".toList) ∧
    (∀ value, LastValue args "--target-dir" value → s.job.targetDir = parse value) ∧
    (¬ Given args "--target-dir" → ¬ Given args "--source-dir" → s.job.targetDir = parse "__targets".toList) ∧
    (¬ Given args "--target-dir" → s.job.sourceDir.filename ≠ ".".toList →
      s.job.targetDir = parse (s.job.sourceDir.filename ++ "_targets".toList)) := by
  obtain ⟨c, cfg, loaders, hc, _, _, _, _, _, _, rfl⟩ := plan_run hplan
  rw [← given_iff hc hasIndex_source, ← given_iff hc hasIndex_target]
  refine ⟨fun v hv => (sourceDir_value hc hv).1, fun h => ?_, fun v hv => (targetDir_value hc hv).1, fun h h' => ?_, fun h h' => ?_⟩
  · show sourceDirOf c = _
    rw [sourceDirOf, if_neg h]; rfl
  · show targetDirOf c = _
    have : (sourceDirOf c).filename = ['.'] := by rw [sourceDirOf, if_neg h']; decide
    rw [targetDirOf, if_neg h, if_neg (by rw [this]; simp)]; rfl
  · show targetDirOf c = _
    have h' : (sourceDirOf c).filename ≠ ['.'] := h'
    rw [targetDirOf, if_neg h, if_pos h']; rfl

/-- **C76.** There is at least one worker, and as many as asked for. -/
theorem C76_workers {s : Settings} (hplan : plan m d args = .run s) :
    1 ≤ s.job.workers ∧ ∀ n : Nat, 1 ≤ n → n ≤ 2147483647 → LastValue args "--num-workers" (Nat.toDigits 10 n) → s.job.workers = n := by
  obtain ⟨c, cfg, loaders, hc, _, _, _, _, _, _, rfl⟩ := plan_run hplan
  have hval : ∀ v, LastValue args "--num-workers" v → ∃ k, Text.Numbers.threadCount v = some k ∧ threadsOption c 16 = k := by
    intro v hv
    obtain ⟨h1, h2, h3, h4⟩ := option_value hc (o := ⟨16, "--num-workers".toList, true, fun s => (Text.Numbers.threadCount s).map .threads⟩)
      (by simp [Cli.maikeOptions]) rfl hv
    simp only at h1 h2 h4
    cases hk : Text.Numbers.threadCount v with
    | none => rw [hk] at h4; cases h4
    | some k => exact ⟨k, rfl, by simp [threadsOption, h2, hk]⟩
  refine ⟨?_, fun n h1 h2 hv => ?_⟩
  · show 1 ≤ (Text.Numbers.threadCountValue m.nprocs (threadsOption c 16)).toNat
    have : 1 ≤ Text.Numbers.threadCountValue m.nprocs (threadsOption c 16) := by
      by_cases h : c.isSet 16 = true
      · obtain ⟨v, hv⟩ := exists_lastValue ((given_iff hc hasIndex_workers).mp h)
        obtain ⟨k, hk, e⟩ := hval v hv
        rw [e]; exact Text.Numbers.C53_positive v k _ hk
      · obtain ⟨o, ho, hn, hi⟩ := hasIndex_workers
        have hlast := Cli.C51_last _ Cli.maikeOptions_proper args c hc o ho
        rw [hi] at hlast
        have hnone : c.value 16 = none := hlast.2.2 fun str h1 h2 h3 => h (hlast.1.mpr ⟨str, h1, h2, h3⟩)
        have : threadsOption c 16 = -1 := by simp [threadsOption, hnone]
        rw [this]; exact Text.Numbers.C53_default _
    omega
  · show (Text.Numbers.threadCountValue m.nprocs (threadsOption c 16)).toNat = n
    obtain ⟨k, hk, e⟩ := hval _ hv
    rw [Text.Numbers.C53_decimal n h1 h2] at hk
    cases hk
    rw [e]
    simp [Text.Numbers.threadCountValue]
    omega

/-! Recipes -/

/-- **C76.** Every answer of the dictionary of recipes (see C48) is the one that the model of the program uses, as long as files do not change. -/
theorem C76_recipe (dirs : Commands.Dirs) (fs : Build.FileSys Path) (as : List Commands.Act) (hc : ∀ g, .change g ∉ as) (i : Nat) (cmd : Path) :
    (∀ r, (Commands.exec dirs (Commands.init (isFile fs)) as).pc i = .returned cmd r → findRecipe dirs fs cmd = some r) ∧
    ((Commands.exec dirs (Commands.init (isFile fs)) as).pc i = .threw cmd → findRecipe dirs fs cmd = none) := by
  obtain ⟨h1, h2⟩ := Commands.C48_search dirs (isFile fs) as hc i cmd
  refine ⟨fun r hr => ?_, fun ht => ?_⟩
  · rcases h1 r hr with ⟨rfl, rfl⟩ | ⟨hne, hf⟩
    · rfl
    · cases hf with
      | project h => simp [findRecipe, hne, h]
      | system h h' => simp [findRecipe, hne, h, h']
  · obtain ⟨hne, h, h'⟩ := h2 ht
    simp [findRecipe, hne, h, h']

/-- **C76.** Resolving the recipes replaces each compiler by its resolved version, see `Compiler.resolve_iff`, and changes nothing else. -/
theorem C76_resolved {r : Resolver} {cfg cfg' : Config} (hr : resolveRecipes r cfg = some cfg') :
    cfg'.tree = cfg.tree ∧ cfg.dirCompiler.resolve r = some cfg'.dirCompiler ∧ cfg'.loaders.map Prod.fst = cfg.loaders.map Prod.fst ∧
    ∀ (k : Nat) name l, cfg.loaders[k]? = some (name, l) → ∃ l', cfg'.loaders[k]? = some (name, l') ∧ l'.kind = l.kind ∧ l.compiler.resolve r = some l'.compiler := by
  obtain ⟨c, hc, h⟩ := Option.bind_eq_some_iff.mp hr
  obtain ⟨ls, hls, rfl⟩ := Option.map_eq_some_iff.mp h
  refine ⟨rfl, hc, ?_⟩
  clear h hr
  show ls.map Prod.fst = _ ∧ ∀ (k : Nat) name l, _ → ∃ l', ls[k]? = _ ∧ _
  generalize cfg.loaders = loaders at hls
  induction loaders generalizing ls with
  | nil => cases hls; simp
  | cons x loaders ih =>
    obtain ⟨name, l⟩ := x
    obtain ⟨c', hc', hls⟩ := Option.bind_eq_some_iff.mp hls
    obtain ⟨ls', hls', rfl⟩ := Option.map_eq_some_iff.mp hls
    obtain ⟨h1, h2⟩ := ih _ hls'
    refine ⟨by simp [h1], fun k name' l' hk => ?_⟩
    cases k with
    | zero =>
      simp only [List.getElem?_cons_zero, Option.some.injEq, Prod.mk.injEq] at hk
      obtain ⟨rfl, rfl⟩ := hk
      exact ⟨_, List.getElem?_cons_zero, rfl, hc'⟩
    | succ k => exact h2 k name' l' (by simpa using hk)

/-- **C76.** The program works with the configuration that the command line asks for. In particular, a recipe for directories that is mentioned in
it must exist. -/
theorem C76_config (ha : ∀ str ∈ args, Acceptable str)
    (hq : ¬ Given args "--help" ∧ ¬ Given args "--version" ∧ ¬ Given args "--about" ∧ ¬ Given args "--configdump") :
    ∃ cfg, ConfigFor m args cfg ∧ ∀ dir, (LastValue args "--source-dir" dir ∨ (¬ Given args "--source-dir" ∧ dir = ".".toList)) →
      (resolveRecipes (resolverOf m (parse dir) d.fs) cfg = none →
        ∀ status out fs, Ends m kind d now args status out fs ↔ status = -1 ∧ out = .nothing ∧ fs = d.fs) ∧
      ∀ s, plan m d args = .run s → ∃ cfg', resolveRecipes (resolverOf m (parse dir) d.fs) cfg = some cfg' ∧ s.job.recursive = cfg'.tree.recursive ∧
        s.job.dirCompiler = cfg'.dirCompiler ∧ mapLoaders cfg' = some s.loaders ∧
        (∀ str, s.job.nameFilter str = cfg'.tree.filter.any fun r => m.outside.search r str) ∧
        ∀ str, s.job.dirFilter str = cfg'.tree.dirFilter.any fun r => m.outside.search r str := by
  obtain ⟨c, hc⟩ := Option.isSome_iff_exists.mp ((Cli.C51_accepted _ Cli.maikeOptions_proper args).mpr ha)
  rw [← given_iff hc hasIndex_help, ← given_iff hc hasIndex_version, ← given_iff hc hasIndex_about, ← given_iff hc hasIndex_dump] at hq
  obtain ⟨k1, k2, k3, k4⟩ := hq
  refine ⟨configOf m c, configFor_of hc, fun dir hdir => ?_⟩
  have hdir : sourceDirOf c = parse dir := by
    rcases hdir with hdir | ⟨hdir, rfl⟩
    · exact (sourceDir_value hc hdir).1
    · rw [← given_iff hc hasIndex_source] at hdir
      rw [sourceDirOf, if_neg hdir]; rfl
  rw [← hdir]
  refine ⟨fun hn status out fs => ends_abort ?_ .., fun s hs => ?_⟩
  · simp only [plan, hc, k1, k2, k3, k4, planFor, hn, Bool.false_eq_true, if_false]
  · obtain ⟨c', cfg', loaders, hc', _, _, _, _, hcfg, hl, rfl⟩ := plan_run hs
    rw [hc] at hc'
    cases hc'
    exact ⟨cfg', hcfg, rfl, rfl, hl, fun _ => rfl, fun _ => rfl⟩

theorem resolveRecipes_missing (r : Resolver) (cfg : Config) (h : r.get cfg.dirCompiler.recipe = none) : resolveRecipes r cfg = none := by
  simp [resolveRecipes, Compiler.resolve, h]

/-! Options without effect -/

/-- Options that nothing asks for. -/
def Agree (i : Nat) (c c' : Cli.Collected Cli.Value) : Prop := ∀ j, j ≠ i → c.isSet j = c'.isSet j ∧ c.value j = c'.value j

theorem planFor_congr {c c' : Cli.Collected Cli.Value} {i : Nat} (hi : i = 4 ∨ i = 5 ∨ i = 7) (h : Agree i c c') :
    planFor m d c = planFor m d c' ∧ c.isSet 0 = c'.isSet 0 ∧ c.isSet 1 = c'.isSet 1 ∧ c.isSet 2 = c'.isSet 2 := by
  have h0 := h 0 (by omega); have h1 := h 1 (by omega); have h2 := h 2 (by omega); have h3 := h 3 (by omega)
  have h6 := h 6 (by omega); have h8 := h 8 (by omega); have h9 := h 9 (by omega); have h10 := h 10 (by omega)
  have h11 := h 11 (by omega); have h12 := h 12 (by omega); have h13 := h 13 (by omega); have h16 := h 16 (by omega)
  have h17 := h 17 (by omega); have h18 := h 18 (by omega)
  refine ⟨?_, h0.1, h1.1, h2.1⟩
  have e1 : sourceDirOf c = sourceDirOf c' := by simp only [sourceDirOf, pathOption, h12]
  have e2 : targetDirOf c = targetDirOf c' := by simp only [targetDirOf, pathOption, h13, e1]
  have e3 : configOf m c = configOf m c' := by simp only [configOf, pathsOption, h11, h9, e1]
  have e4 : whatOf c = whatOf c' := by simp only [whatOf, pathsOption, h6, h3, h8]
  have e5 : threadsOption c 16 = threadsOption c' 16 := by simp only [threadsOption, h16]
  have e6 : ∀ cfg loaders, settingsOf m d c cfg loaders = settingsOf m d c' cfg loaders := by
    intro cfg loaders
    simp only [settingsOf, e1, e2, e4, e5, h17, h18]
  unfold planFor
  rw [h10.1, e1, e3]
  simp only [e6]

/-- **C76.** `--print-dep-graph-inv`, `--dump-database` and `--list-external-deps` are accepted, but they have no effect: the program does what it does
without them. -/
theorem C76_unimplemented (name : String) (hs : name = "--print-dep-graph-inv" ∨ name = "--dump-database" ∨ name = "--list-external-deps") :
    plan m d (args ++ [name.toList]) = plan m d args := by
  have hone : ∀ c, ∃ c' i, (i = 4 ∨ i = 5 ∨ i = 7) ∧ Cli.collectOne (Cli.optionNames Cli.maikeOptions) c name.toList = some c' ∧ Agree i c' c := by
    intro c
    have hfind : ∃ o ∈ Cli.maikeOptions, o.name = name.toList ∧ (o.index = 4 ∨ o.index = 5 ∨ o.index = 7) ∧ o.valueRequired = false ∧
        (o.convert []).isSome = true ∧ '=' ∉ o.name ∧ name.toList ≠ [] := by
      rcases hs with rfl | rfl | rfl
      · exact ⟨⟨4, "--print-dep-graph-inv".toList, false, Cli.pathValue⟩, by simp [Cli.maikeOptions], rfl, by simp, rfl, rfl, by decide +kernel,
          by decide +kernel⟩
      · exact ⟨⟨5, "--dump-database".toList, false, Cli.pathValue⟩, by simp [Cli.maikeOptions], rfl, by simp, rfl, rfl, by decide +kernel,
          by decide +kernel⟩
      · exact ⟨⟨7, "--list-external-deps".toList, false, Cli.pathValue⟩, by simp [Cli.maikeOptions], rfl, by simp, rfl, rfl, by decide +kernel,
          by decide +kernel⟩
    obtain ⟨o, ho, hn, hi, hv, hconv, heq, hne⟩ := hfind
    obtain ⟨v, hconv⟩ := Option.isSome_iff_exists.mp hconv
    obtain ⟨hsel, _, harg, _⟩ := Cli.C51_full Cli.maikeOptions o ho heq []
    rw [hn] at hsel harg
    have hb := (Cli.binaryFind_iff Cli.maikeOptions_proper name.toList o).mpr hsel
    refine ⟨⟨fun i => if i = o.index then some v else c.value i, fun i => if i = o.index then true else c.isSet i⟩, o.index, hi, ?_, ?_⟩
    · rw [Cli.collectOne, if_neg hne, hb]
      simp only [Cli.setOption, hv, harg, hconv, Bool.false_eq_true, false_and, if_false]
    · intro j hj; simp [hj]
  unfold plan Cli.collect
  rw [List.foldlM_append]
  cases hc : List.foldlM (Cli.collectOne (Cli.optionNames Cli.maikeOptions)) Cli.Collected.init args with
  | none => rfl
  | some c =>
    obtain ⟨c', i, hi, h1, h2⟩ := hone c
    obtain ⟨e, e0, e1, e2⟩ := planFor_congr (m := m) (d := d) hi h2
    simp [h1, e, e0, e1, e2]

/-- Where the second run differs from the first one, the plan is the same, if the same recipes are found. -/
theorem plan_same {d₂ : Disk} {s : Settings} (hplan : plan m d args = .run s)
    (hrec : ∀ cmd, findRecipe ⟨s.job.sourceDir, m.systemDir⟩ d₂.fs cmd = findRecipe ⟨s.job.sourceDir, m.systemDir⟩ d.fs cmd) :
    plan m d₂ args = .run s := by
  obtain ⟨c, cfg, loaders, hc, k0, k1, k2, k10, hcfg, hl, rfl⟩ := plan_run hplan
  have hr : resolverOf m (sourceDirOf c) d₂.fs = resolverOf m (sourceDirOf c) d.fs := by
    unfold resolverOf
    congr 1
    funext cmd
    rw [show findRecipe ⟨sourceDirOf c, m.systemDir⟩ d₂.fs = findRecipe ⟨sourceDirOf c, m.systemDir⟩ d.fs from funext hrec]
  have hs : settingsOf m d₂ c cfg loaders = settingsOf m d c cfg loaders := by simp only [settingsOf, hr]
  simp only [plan, hc, k0, k1, k2, Bool.false_eq_true, if_false, planFor, k10, hr, hcfg, hl, hs]

/-- **C76.** If the program has returned 0, and is started once more with the same arguments, it does not change any file, provided that the files that have been
made are left out by the filters, that nothing is always rebuilt, and that the same recipes are found. -/
theorem C76_twice {s : Settings} (hplan : plan m d args = .run s) (hp : Proper s.job kind d now)
    (h1 : ¬ Given args "--list-targets") (h2 : ¬ Given args "--print-dep-graph") (h3 : ¬ Given args "--targets") (h4 : ¬ Given args "--dry-run")
    (h5 : ¬ Given args "--force-rebuild") {out : Output} {fs : Build.FileSys Path} (h : Ends m kind d now args 0 out fs)
    (hh : Hidden s.job kind d) (halways : ∀ p i, Scanned s.job d p i → i.policy ≠ .always)
    {d₂ : Disk} (hd₂ : d₂.Ok) (hfs : d₂.fs = fs)
    (hrec : ∀ cmd, findRecipe ⟨s.job.sourceDir, m.systemDir⟩ d₂.fs cmd = findRecipe ⟨s.job.sourceDir, m.systemDir⟩ d.fs cmd)
    {later : Nat} {status : Int} {out₂ : Output} {fs₂ : Build.FileSys Path} (hend : Ends m kind d₂ later args status out₂ fs₂) :
    ∀ p, kind p = false → fs₂ p = fs p := by
  obtain ⟨w1, w2, w3, w4, w5, _⟩ := what_of hplan
  have hdry : s.dry = false := by rw [← Bool.not_eq_true, w4]; exact h4
  have hforce : s.force = false := by rw [← Bool.not_eq_true, w5]; exact h5
  have hall := w3.mpr ⟨h1, h2, h3⟩
  have hplan₂ := plan_same hplan hrec
  have hb : ∀ tree, s.build tree kind = theBuild s.job tree s.force kind := fun tree => by unfold Settings.build; rw [hdry]; rfl
  have key : ∃ files tree st, Runs s.job s.force kind d now files tree st ∧ st.Succeeded ∧ st.fs = fs := by
    clear hend
    generalize hst : (0 : Int) = status at h
    cases h with
    | printed e => rw [hplan] at e; cases e
    | listed e _ ew => rw [hplan] at e; cases e; rw [hall] at ew; cases ew
    | graph e _ ew => rw [hplan] at e; cases e; rw [hall] at ew; cases ew
    | named e _ ew => rw [hplan] at e; cases e; rw [hall] at ew; cases ew
    | @built s' files tree as st n e hl _ hok hx hpc =>
      rw [hplan] at e
      injection e with e
      subst e
      rw [hb] at hx
      exact ⟨files, tree, st, ⟨hl, hok, as, hx⟩, ⟨n, hpc⟩, rfl⟩
    | _ => omega
  obtain ⟨files, tree, st, hr, hs, rfl⟩ := key
  cases hend with
  | @built s' files tree as st n e hl _ hok hx hpc =>
    rw [hplan₂] at e
    injection e with e
    subst e
    rw [hb, hforce] at hx
    exact (C71_nothing hp hr hs hh halways hd₂ hfs ⟨hl, hok, as, hx⟩).2
  | @failed s' files tree as st n e hl _ hok hx hpc =>
    rw [hplan₂] at e
    injection e with e
    subst e
    rw [hb, hforce] at hx
    exact (C71_nothing hp hr hs hh halways hd₂ hfs ⟨hl, hok, as, hx⟩).2
  | named e _ ew => rw [hplan₂] at e; cases e; rw [hall] at ew; cases ew
  | namedFails e _ ew => rw [hplan₂] at e; cases e; rw [hall] at ew; cases ew
  | _ => exact fun p _ => congrFun hfs p

/-- **C76.** A finding: the name of the target directory is made from the last component of the source directory. If this is given with a slash at the end, then
the name starts with only one underscore; the filters that are used by default do not hide it. Different source directories can share a target
directory. -/
theorem C76_slash : ∃ c1 c2 c3 c4 : Cli.Collected Cli.Value,
    Cli.collect Cli.maikeOptions ["--source-dir=.".toList] = some c1 ∧ targetDirOf c1 = parse "__targets".toList ∧
    Cli.collect Cli.maikeOptions ["--source-dir=./".toList] = some c2 ∧ targetDirOf c2 = parse "_targets".toList ∧
    Cli.collect Cli.maikeOptions ["--source-dir=a/lib".toList] = some c3 ∧ targetDirOf c3 = parse "lib_targets".toList ∧
    Cli.collect Cli.maikeOptions ["--source-dir=b/lib".toList] = some c4 ∧ targetDirOf c4 = parse "lib_targets".toList := by
  have key : ∀ (v t : Str), ((Cli.collect Cli.maikeOptions [v]).map fun c => decide (targetDirOf c = parse t)) = some true →
      ∃ c, Cli.collect Cli.maikeOptions [v] = some c ∧ targetDirOf c = parse t := by
    intro v t h
    obtain ⟨c, hc, e⟩ := Option.map_eq_some_iff.mp h
    exact ⟨c, hc, of_decide_eq_true e⟩
  obtain ⟨c1, h1, e1⟩ := key "--source-dir=.".toList "__targets".toList (by decide +kernel)
  obtain ⟨c2, h2, e2⟩ := key "--source-dir=./".toList "_targets".toList (by decide +kernel)
  obtain ⟨c3, h3, e3⟩ := key "--source-dir=a/lib".toList "lib_targets".toList (by decide +kernel)
  obtain ⟨c4, h4, e4⟩ := key "--source-dir=b/lib".toList "lib_targets".toList (by decide +kernel)
  exact ⟨c1, c2, c3, c4, h1, e1, h2, e2, h3, e3, h4, e4⟩

end

end Maike.Main
