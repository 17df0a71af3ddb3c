import Verif.Build.Reasons
import Verif.Main.Accept

/-!
# What the program says when it fails (C103)
-/

namespace Maike.Main

open Fs Tree Paths

/-! ## Model -/

/-- The texts of the exceptions from `SourceTreeLoader::load`: core/db/dependency_graph.cpp:46-50, core/db/source_file_list.cpp:53-57 and
core/utils/graphutils.hpp:63. -/
def loadMessage : Db.LoadError Path → Str
  | .unresolved requiredBy name => requiredBy.str ++ ": error: Failed to resolve ".toList ++ name.str
  | .duplicateTarget name definedIn => "Target has ".toList ++ name.str ++ " has already been defined in ".toList ++ definedIn.str
  | .cyclic => "Cyclic dependency detected".toList
  | .invalidNode => []

/-- The text of the exception for a command that has failed, core/db/task_list.cpp:104-107. -/
def failMessage (source : Path) : Str := source.str ++ ": Compilation failed".toList

/-- The text of the exception for a target that does not exist, core/db/source_tree.cpp:22-25. -/
def unknownMessage (name : Path) : Str := "Unkonwn target `".toList ++ name.str ++ "`".toList

/-- `Complains m kind d now args text`: the program, started with `args` on the file system `d` at time `now`, has ended because of an exception of a kind that is modelled here, and `text` is
what it has printed on the standard error stream, without the line break at the end (core/bin/maike.cpp:406-410). What is printed for exceptions from `Execve` and from recipes is not modelled. -/
inductive Complains (m : Machine) (kind : Path → Bool) (d : Disk) (now : Nat) (args : List Str) : Str → Prop
  | scan {s n t e} : plan m d args = .run s → Steps (s.job.world d) n (Scan.init (s.job.world d)) t → takeResult t = some (.error e) → Complains m kind d now args e
  | tree {s n t files e} : plan m d args = .run s → Steps (s.job.world d) n (Scan.init (s.job.world d)) t →
      takeResult t = some (.ok files) → Db.load (srcList files) = .error e → Complains m kind d now args (loadMessage e)
  | cyclic {s files tree} : plan m d args = .run s → Loads s.job d files tree → s.what = .all → (Db.taskListAll tree.graph).1 ≠ .ok →
      Complains m kind d now args "Cyclic dependency detected".toList
  | failed {s files tree as st t} : plan m d args = .run s → Loads s.job d files tree → s.what = .all → (Db.taskListAll tree.graph).1 = .ok →
      Build.exec (s.build tree kind) as (Build.init (s.build tree kind) d.fs now) = some st → st.sched.pc = .rethrown t → .finish t .failure ∈ st.sched.hist →
      Complains m kind d now args (failMessage ((s.build tree kind).task t).src)
  | unknown {s files tree names schedules name st} : plan m d args = .run s → Loads s.job d files tree → s.what = .targets names →
      Build.compileSeveral (s.setup tree kind) (names.map parse) schedules (.start d.fs now) = some (.unknown name, st) → Complains m kind d now args (unknownMessage name)
  | cyclicNamed {s files tree names schedules name st} : plan m d args = .run s → Loads s.job d files tree → s.what = .targets names →
      Build.compileSeveral (s.setup tree kind) (names.map parse) schedules (.start d.fs now) = some (.cyclic name, st) →
      Complains m kind d now args "Cyclic dependency detected".toList
  | failedNamed {s files tree names schedules name st r t} : plan m d args = .run s → Loads s.job d files tree → s.what = .targets names →
      Build.compileSeveral (s.setup tree kind) (names.map parse) schedules (.start d.fs now) = some (.failed name, st) → st.builds.getLast? = some (name, r) →
      r.sched.pc = .rethrown t → .finish t .failure ∈ r.sched.hist → Complains m kind d now args (failMessage (Build.makeTask tree.graph t).src)

/-! ## Specification -/

/-- The text is true of the project. -/
inductive Explains (j : Job) (d : Disk) : Str → Prop
  /-- files that cannot be loaded, and directories that cannot be listed: all of them are reported, each on a line -/
  | unreadable {l : List (Path × Str)} : l ≠ [] → l.Nodup → (∀ p m, (p, m) ∈ l ↔ (j.world d).Reached p ∧ (j.world d).Says p m) →
      Explains j d (l.map fun x => x.2 ++ ['\n']).flatten
  /-- the file depends on something that does not exist -/
  | missing {a : Path} {x : TDep} : DependsOn j d a x → ¬ Available j d x.name → Explains j d (a.str ++ ": error: Failed to resolve ".toList ++ x.name.str)
  /-- the file declares a target that is declared by another file, too, or it declares a target twice -/
  | twice {p q : Path} {i k : FileInfo} {t t' : TTarget} : Scanned j d p i → Scanned j d q k → t ∈ i.targets → t' ∈ k.targets → t.name = t'.name →
      t.name ≠ p.normal → t'.name ≠ q.normal → (q.normal = p.normal → ¬ (i.targets.map TTarget.name).Nodup) →
      Explains j d ("Target has ".toList ++ t.name.str ++ " has already been defined in ".toList ++ p.normal.str)
  /-- some file depends on itself -/
  | circle {a : Path} : Requires j d a a → Explains j d "Cyclic dependency detected".toList
  /-- a command for the file has failed -/
  | failed {p : Path} {i : FileInfo} : Scanned j d p i → i.targets ≠ [] → Explains j d (p.normal.str ++ ": Compilation failed".toList)
  /-- nothing of that name is made -/
  | unknown {name : Path} : (¬ ∃ p i t, Scanned j d p i ∧ t ∈ i.targets ∧ t.name = j.targetDir / name ∧ t.name ≠ p.normal) →
      Explains j d ("Unkonwn target `".toList ++ name.str ++ "`".toList)

/-! ## Proof -/

variable {m : Machine} {kind : Path → Bool} {d : Disk} {now : Nat} {args : List Str} {s : Settings}

theorem loadMessage_true (hw : (s.job.world d).Ok) (hap : Apart s.job d) {files : List (Path × FileInfo)} (hf : Finds s.job d files) {e : Db.LoadError Path}
    (h : Db.load (srcList files) = .error e) : Explains s.job d (loadMessage e) := by
  have hm := covers_of_finds hw hf
  have hL := loadable_of_finds hw hf
  have hr := Build.load_error hL (covers_apart hm hap) h
  cases e with
  | unresolved a b =>
    obtain ⟨⟨e, he, rfl⟩, hno⟩ := hr
    obtain ⟨x, hx, rfl⟩ := (covers_refers_iff hm).mpr he
    exact .missing hx (fun h => hno ((known_iff hm).mp h))
  | duplicateTarget name src =>
    obtain ⟨i, x, t, t', h1, h2, h3, h4, rfl, h6, h7, h8, h9⟩ := Build.declaredTwice_spec hL hr
    obtain ⟨p, i, hs, e⟩ := (hm _).mp h1
    injection e with e1 e2
    subst e1 e2
    obtain ⟨q, k, hq, rfl⟩ := (hm _).mp h2
    obtain ⟨u, hu, rfl⟩ := List.mem_map.mp h3
    obtain ⟨u', hu', rfl⟩ := List.mem_map.mp h4
    refine .twice hs hq hu hu' h6.symm h7 (by rw [← h6] at h8; exact h8) (fun e hn => h9 e ?_)
    simpa [FileInfo.toSrcInfo, List.map_map, Function.comp_def] using hn
  | cyclic =>
    obtain ⟨x, hx, t, ht, hne, q, hq, hc⟩ := hr
    obtain ⟨r, i, e, h1, h2, h3, rfl⟩ := hc
    have hch : Build.Chain (srcList files) e.name e.name := by
      rcases Build.useChain_chain h1 with e' | h1
      · have := Build.Chain.single (Build.Refers.use h2 h3)
        rwa [e'] at this
      · exact .tail h1 (.use h2 h3)
    exact .circle ((covers_requires_iff hm).mpr hch)
  | invalidNode => exact hr.elim

theorem failMessage_true (hw : (s.job.world d).Ok) {files : List (Path × FileInfo)} {tree : Db.SourceTree Path} (hl : Loads s.job d files tree) {u : Nat}
    (hb : tree.graph.Builds u) : Explains s.job d (failMessage (Build.makeTask tree.graph u).src) := by
  obtain ⟨p, info, hp, hne⟩ := hb
  rcases Build.record_origin (loadable_of_ok hw hl) hl.2 hp with ⟨i0, hi0, htg, _⟩ | ⟨h, _⟩
  · obtain ⟨⟨k, i⟩, hy, e⟩ := List.mem_map.mp hi0
    obtain ⟨a, hs, rfl⟩ := (mem_files_of_ok hw hl _ _).mp hy
    injection e with e1 e2
    subst e1 e2
    have : (Build.makeTask tree.graph u).src = a.normal := by simp [Build.makeTask, hp]
    rw [this]
    refine .failed hs (fun e => hne ?_)
    rw [htg]
    simp [FileInfo.toSrcInfo, e]
  · exact absurd h hne

theorem exec_reachable {b : Build.Build Path} {as : List (Build.Act Path)} {fs : Build.FileSys Path} {now : Nat} {st : Build.State Path}
    (hx : Build.exec b as (Build.init b fs now) = some st) : TaskList.Reachable b.job st.sched :=
  Build.exec_induction (Q := fun st => TaskList.Reachable b.job st.sched) (fun _ _ _ h1 h2 => Build.reachable_step h1 h2) ⟨[], rfl⟩ hx

theorem finished_task {j : TaskList.Job} (hj : j.Topological) {st : TaskList.State} (hr : TaskList.Reachable j st) {t : Nat} {o : TaskList.Outcome}
    (h : .finish t o ∈ st.hist) : t ∈ j.tasks := by
  have hi := TaskList.inv hj hr
  apply hi.a.subs_tasks
  rw [hi.a.fifo]
  exact List.mem_append_left _ ((hi.a.fin_iff t).mp (TaskList.mem_fins.mpr ⟨_, h⟩)).1

/-- How a list of targets fails. -/
theorem several_failed {c : Build.Setup Path} {names : List Path} {schedules : List (List (Build.Act Path))} {pr st : Build.Progress Path} {name : Path}
    (h : Build.compileSeveral c names schedules pr = some (.failed name, st)) :
    ∃ t as fs clock r n, (Db.taskListFor c.tree.graph t.sourceFilename).1 = .ok ∧ Build.exec (c.build t) as (Build.init (c.build t) fs clock) = some r ∧
      r.sched.pc = .rethrown n ∧ st.builds.getLast? = some (name, r) := by
  induction names generalizing schedules pr with
  | nil => simp [Build.compileSeveral] at h
  | cons a names ih =>
    unfold Build.compileSeveral at h
    split at h
    · cases h
    · rename_i t ht
      split at h
      · rename_i hok
        split at h
        · cases h
        · rename_i as rest
          split at h
          · cases h
          · rename_i r hx
            split at h
            · exact ih h
            · rename_i n hn
              simp only [Option.some.injEq, Prod.mk.injEq, Build.Verdict.failed.injEq] at h
              obtain ⟨rfl, rfl⟩ := h
              exact ⟨t, as, _, _, r, n, hok, hx, hn, by simp⟩
            · cases h
      · cases h

/-- The targets that are named in an error. -/
theorem several_named {c : Build.Setup Path} {names : List Path} {schedules : List (List (Build.Act Path))} {pr st : Build.Progress Path} {name : Path} :
    (Build.compileSeveral c names schedules pr = some (.unknown name, st) → Build.getTarget c name = none ∧ name ∈ names) ∧
    (Build.compileSeveral c names schedules pr = some (.cyclic name, st) → ∃ t, Build.getTarget c name = some t ∧ (Db.taskListFor c.tree.graph t.sourceFilename).1 ≠ .ok) := by
  constructor
  · intro h
    obtain ⟨l, _, rest, h1, _, h2⟩ := Build.compileSeveral_builds _ _ _ _ _ _ h
    exact ⟨h2, by rw [h1]; simp⟩
  · intro h
    obtain ⟨l, _, rest, t, _, _, h1, h2⟩ := Build.compileSeveral_builds _ _ _ _ _ _ h
    exact ⟨t, h1, h2⟩

/-! ## C103 -/

/-- **C103.** What the program says when it fails is true: each of the messages is a statement about the files of the project, and the project is like that. -/
theorem C103_true (hd : d.Ok) (hplan : plan m d args = .run s) (hap : Apart s.job d) {text : Str} (h : Complains m kind d now args text) : Explains s.job d text := by
  have hw := world_ok_of hd hplan
  cases h with
  | scan e hs hr =>
    rw [hplan] at e; injection e with e; subst e
    obtain ⟨l, h1, h2, rfl⟩ := C50_text hw hs hr
    obtain ⟨p, t, hp⟩ := (C50_throws hw hs hr).mp ⟨_, rfl⟩
    exact .unreadable (List.ne_nil_of_mem ((h2 _ _).mpr hp)) h1 h2
  | tree e hs hr ht =>
    rw [hplan] at e; injection e with e; subst e
    exact loadMessage_true hw hap ⟨_, _, hs, hr⟩ ht
  | cyclic e hl _ hno =>
    rw [hplan] at e; injection e with e; subst e
    rw [Ne, acyclic_iff hw hap hl] at hno
    obtain ⟨a, ha⟩ := Classical.not_forall.mp hno
    exact .circle (Classical.not_not.mp ha)
  | @failed s' files tree as st t e hl _ hok hx hn hf =>
    rw [hplan] at e; injection e with e; subst e
    obtain ⟨_, files3, _, _, _, hg, s3⟩ := Build.load_ok (loadable_of_ok hw hl).sorted hl.2
    obtain ⟨g1, g2⟩ := (Db.C21_all_tasks files3 s3 hg).2 hok
    exact failMessage_true hw hl ((g1 t).mp (finished_task (g2 s.job.workers) (exec_reachable hx) hf))
  | @unknown s' files tree names schedules name st e hl ew hx =>
    rw [hplan] at e; injection e with e; subst e
    obtain ⟨hno, hmem⟩ := several_named.1 hx
    obtain ⟨nm, _, rfl⟩ := List.mem_map.mp hmem
    refine .unknown ?_
    rintro ⟨p, i, t, h1, h2, h3, h4⟩
    have hm := covers_of_finds hw hl.1
    have hL := loadable_of_ok hw hl
    obtain ⟨_, _, hc, _, _, _, _⟩ := Build.load_ok hL.sorted hl.2
    obtain ⟨hsorted, hmem⟩ := (Db.C08_one_owner (srcList files)).2 _ hc
    have hi := (hm _).mpr ⟨p, i, h1, rfl⟩
    have ht : (⟨t.name, t.useDeps.map toDep⟩ : Db.TargetInfo Path) ∈ i.toSrcInfo.targets := List.mem_map.mpr ⟨t, h2, rfl⟩
    have := (hmem (s.job.targetDir / parse nm) ⟨p.normal, ⟨t.name, t.useDeps.map toDep⟩⟩).mpr ⟨_, hi, ht, h4, by rw [hL.normal _ hi _ ht]; exact h3.symm⟩
    have := Db.Map.lookup_of_mem hsorted this
    have hno' : Db.Map.lookup (s.job.targetDir / parse nm) tree.targets = none := hno
    rw [this] at hno'
    cases hno'
  | @cyclicNamed s' files tree names schedules name st e hl ew hx =>
    rw [hplan] at e; injection e with e; subst e
    obtain ⟨t, ht, hno⟩ := several_named.2 hx
    have hm := covers_of_finds hw hl.1
    have hL := loadable_of_ok hw hl
    obtain ⟨_, _, hc, _, _, _, _⟩ := Build.load_ok hL.sorted hl.2
    obtain ⟨hsorted, hmem⟩ := (Db.C08_one_owner (srcList files)).2 _ hc
    obtain ⟨i, hi, _⟩ := (hmem _ _).mp (Db.Map.lookup_mem ht)
    rw [Ne, show (s.setup tree kind).tree = tree from rfl, Build.tasksFor_iff hL (covers_apart hm hap) hl.2 ⟨_, hi⟩] at hno
    obtain ⟨a, ha⟩ := Classical.not_forall.mp hno
    obtain ⟨_, ha⟩ := Classical.not_imp.mp ha
    exact .circle ((covers_requires_iff hm).mpr (Classical.not_not.mp ha))
  | @failedNamed s' files tree names schedules name st r t e hl ew hx hlast hn hf =>
    rw [hplan] at e; injection e with e; subst e
    obtain ⟨tg, as, fs, clock, r', n, hok, hr, _, hlast'⟩ := several_failed hx
    rw [hlast] at hlast'
    simp only [Option.some.injEq, Prod.mk.injEq, true_and] at hlast'
    subst hlast'
    obtain ⟨_, files3, _, _, _, hg, s3⟩ := Build.load_ok (loadable_of_ok hw hl).sorted hl.2
    obtain ⟨root, hroot⟩ : ∃ root, tree.graph.PathOf root tg.sourceFilename := by
      cases hn : Db.getNode tree.graph tg.sourceFilename with
      | none => simp [Db.taskListFor, show (s.setup tree kind).tree = tree from rfl, hn] at hok
      | some node => exact ⟨node, ((Db.C07_getNode files3 s3 hg _).1 node).mp hn⟩
    obtain ⟨g1, g2⟩ := (Db.C21_single_target files3 s3 hg hroot).2 hok
    exact failMessage_true hw hl ((g1 t).mp (finished_task (g2 s.job.workers) (exec_reachable hr) hf)).2

/-- **C103.** A program that complains returns -1, and prints nothing on the standard output stream. -/
theorem C103_status {text : Str} (h : Complains m kind d now args text) : ∃ fs, Ends m kind d now args (-1) .nothing fs := by
  cases h with
  | scan e hs hr => exact ⟨_, .scanFails e hs hr⟩
  | tree e hs hr ht => exact ⟨_, .treeFails e hs hr ht⟩
  | cyclic e hl ew hno => exact ⟨_, .cyclic e hl ew hno⟩
  | failed e hl ew hok hx hn hf => exact ⟨_, .failed e hl ew hok hx hn⟩
  | unknown e hl ew hx => exact ⟨_, .namedFails e hl ew hx (by simp)⟩
  | cyclicNamed e hl ew hx => exact ⟨_, .namedFails e hl ew hx (by simp)⟩
  | failedNamed e hl ew hx hlast hn hf => exact ⟨_, .namedFails e hl ew hx (by simp)⟩

/-- A task has been given up because of an exception (and not because of the status of a command). -/
def Raised (s : Settings) (kind : Path → Bool) (d : Disk) (now : Nat) : Prop :=
  ∃ files tree t, Loads s.job d files tree ∧
    ((∃ as st, Build.exec (s.build tree kind) as (Build.init (s.build tree kind) d.fs now) = some st ∧ .finish t .threw ∈ st.sched.hist) ∨
     (∃ names schedules v st x, Build.compileSeveral (s.setup tree kind) names schedules (.start d.fs now) = some (v, st) ∧ x ∈ st.builds ∧ .finish t .threw ∈ x.2.sched.hist))

/-- **C103.** There is no failure without a reason: if the arguments have been accepted and the program returns -1, then it has said what is wrong with the project, unless there was an
exception while a task was performed. -/
theorem C103_always (hd : d.Ok) (hplan : plan m d args = .run s) {out : Output} {fs : Build.FileSys Path} (h : Ends m kind d now args (-1) out fs) :
    (∃ text, Complains m kind d now args text) ∨ Raised s kind d now := by
  have hw := world_ok_of hd hplan
  generalize hst : (-1 : Int) = status at h
  cases h with
  | printed e => cases hst
  | aborted e => rw [hplan] at e; cases e
  | scanFails e hs hr => exact .inl ⟨_, .scan e hs hr⟩
  | treeFails e hs hr ht => exact .inl ⟨_, .tree e hs hr ht⟩
  | listed _ _ _ => cases hst
  | graph _ _ _ => cases hst
  | cyclic e hl ew hno => exact .inl ⟨_, .cyclic e hl ew hno⟩
  | built _ _ _ _ _ _ => cases hst
  | @failed s' files tree as st n e hl ew hok hx hn =>
    have e' := e
    rw [hplan] at e'; injection e' with e'; subst e'
    obtain ⟨_, files3, _, _, _, hg, s3⟩ := Build.load_ok (loadable_of_ok hw hl).sorted hl.2
    obtain ⟨g1, g2⟩ := (Db.C21_all_tasks files3 s3 hg).2 hok
    rcases (TaskList.inv (g2 s.job.workers) (exec_reachable hx)).c.ended_thr n hn with hf | hf
    · exact .inl ⟨_, .failed e hl ew hok hx hn hf⟩
    · exact .inr ⟨files, tree, n, hl, .inl ⟨as, st, hx, hf⟩⟩
  | named _ _ _ _ => cases hst
  | @namedFails s' files tree names schedules v st e hl ew hx hv =>
    cases v with
    | completed n => exact absurd rfl (hv n)
    | unknown name => exact .inl ⟨_, .unknown e hl ew hx⟩
    | cyclic name => exact .inl ⟨_, .cyclicNamed e hl ew hx⟩
    | failed name =>
      have e' := e
      rw [hplan] at e'; injection e' with e'; subst e'
      obtain ⟨tg, as, fs, clock, r, n, hok, hr, hn, hlast⟩ := several_failed hx
      obtain ⟨_, files3, _, _, _, hg, s3⟩ := Build.load_ok (loadable_of_ok hw hl).sorted hl.2
      obtain ⟨root, hroot⟩ : ∃ root, tree.graph.PathOf root tg.sourceFilename := by
        cases hn : Db.getNode tree.graph tg.sourceFilename with
        | none => simp [Db.taskListFor, show (s.setup tree kind).tree = tree from rfl, hn] at hok
        | some node => exact ⟨node, ((Db.C07_getNode files3 s3 hg _).1 node).mp hn⟩
      obtain ⟨g1, g2⟩ := (Db.C21_single_target files3 s3 hg hroot).2 hok
      rcases (TaskList.inv (g2 s.job.workers) (exec_reachable hr)).c.ended_thr n hn with hf | hf
      · exact .inl ⟨_, .failedNamed e hl ew hx hlast hn hf⟩
      · exact .inr ⟨files, tree, n, hl, .inr ⟨_, schedules, _, st, _, hx, List.mem_of_getLast? hlast, hf⟩⟩

end Maike.Main
