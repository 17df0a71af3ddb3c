import Verif.Build.ThreadsEnd
import Verif.Main.DepGraph
import Verif.Main.Ends
import Verif.Main.Serial
import Verif.Tree.ScanThreadTheorems

/-!
# The program, one operation of a thread at a time (C107)

core/bin/maike.cpp:282-412. In `Main/Program.lean`, the scan of the source directory and the builds are those in which critical sections are single actions. Here both are done by threads that share a pool
(`workers`, core/bin/maike.cpp:328, 357, 392 and 405): `Tree/ScanThreads.lean` and `Build/Threads.lean`. Between the phases, the workers are idle: each of them is about to lock the mutex of the pool, has locked it, or
sleeps; any such state may be the first one of a phase, and `C107_handover` says that what is left by a scan is one of them (for builds, this is `C104_left`).
-/

namespace Maike.Main

open Fs Tree Paths
open Maike.Build (FileSys)
open Maike.Build.Threaded (Reaches plain contents TState)

/-! ## Model -/

/-- The scan of the source directory has ended with this result. -/
def ScanEnds (j : Job) (d : Disk) (r : Except Str (List (Path × FileInfo))) : Prop :=
  ∃ t, Tree.Threads.Reachable (j.world d) j.workers t ∧ t.Ended r

/-- `SourceTreeLoader::load`, core/source_tree_loader/main.cpp:7-23. -/
def ThreadLoads (j : Job) (d : Disk) (files : List (Path × FileInfo)) (tree : Db.SourceTree Path) : Prop := ScanEnds j d (.ok files) ∧ Db.load (srcList files) = .ok tree

/-- `ThreadEnds m kind d now args status output fs`: the program, started with `args` on the file system `d` at time `now`, has returned `status`, has printed `output`, and the file system is `fs` now.
core/bin/maike.cpp:282-412. -/
inductive ThreadEnds (m : Machine) (kind : Path → Bool) (d : Disk) (now : Nat) (args : List Str) : Int → Output → FileSys Path → Prop
  | printed {i} : plan m d args = .print i → ThreadEnds m kind d now args 0 (.info i) d.fs
  | aborted : plan m d args = .abort → ThreadEnds m kind d now args (-1) .nothing d.fs
  /-- exception from `collectSourceFiles` -/
  | scanFails {s e} : plan m d args = .run s → ScanEnds s.job d (.error e) → ThreadEnds m kind d now args (-1) .nothing d.fs
  /-- exception from another part of `SourceTreeLoader::load` -/
  | treeFails {s files e} : plan m d args = .run s → ScanEnds s.job d (.ok files) → Db.load (srcList files) = .error e → ThreadEnds m kind d now args (-1) .nothing d.fs
  | listed {s files tree} : plan m d args = .run s → ThreadLoads s.job d files tree → s.what = .list →
      ThreadEnds m kind d now args 0 (.lines (listing s.job.targetDir tree.targets)) d.fs
  | graph {s files tree} : plan m d args = .run s → ThreadLoads s.job d files tree → s.what = .graph → ThreadEnds m kind d now args 0 (.lines (graphLines tree.graph)) d.fs
  | cyclic {s files tree} : plan m d args = .run s → ThreadLoads s.job d files tree → s.what = .all → (Db.taskListAll tree.graph).1 ≠ .ok →
      ThreadEnds m kind d now args (-1) .nothing d.fs
  | built {s files tree st n} : plan m d args = .run s → ThreadLoads s.job d files tree → s.what = .all → (Db.taskListAll tree.graph).1 = .ok →
      Reaches (plain (s.build tree kind)) (s.build tree kind).job (Build.init (s.build tree kind) d.fs now) st → st.th.mpc = .returned n →
      ThreadEnds m kind d now args 0 .nothing st.env.fs
  | failed {s files tree st n} : plan m d args = .run s → ThreadLoads s.job d files tree → s.what = .all → (Db.taskListAll tree.graph).1 = .ok →
      Reaches (plain (s.build tree kind)) (s.build tree kind).job (Build.init (s.build tree kind) d.fs now) st → st.th.mpc = .rethrown n →
      ThreadEnds m kind d now args (-1) .nothing st.env.fs
  | named {s files tree names n fs} : plan m d args = .run s → ThreadLoads s.job d files tree → s.what = .targets names →
      Build.Threaded.Several (s.setup tree kind) (names.map parse) d.fs now 0 (.completed n) fs → ThreadEnds m kind d now args 0 .nothing fs
  | namedFails {s files tree names v fs} : plan m d args = .run s → ThreadLoads s.job d files tree → s.what = .targets names →
      Build.Threaded.Several (s.setup tree kind) (names.map parse) d.fs now 0 v fs → (∀ n, v ≠ .completed n) → ThreadEnds m kind d now args (-1) .nothing fs

/-! ## Lemmas -/

variable {m : Machine} {kind : Path → Bool} {d : Disk} {now : Nat} {args : List Str}

theorem scan_iff (hd : d.Ok) {s : Settings} (hplan : plan m d args = .run s) {r : Except Str (List (Path × FileInfo))} (h : ScanEnds s.job d r) :
    ∃ n t, Steps (s.job.world d) n (Scan.init (s.job.world d)) t ∧ takeResult t = some r := by
  obtain ⟨t, h1, h2⟩ := h
  obtain ⟨n, a, g1, g2, _⟩ := Tree.Threads.C105_refines (world_ok_of hd hplan) (plan_workers hplan) h1 h2
  exact ⟨n, a, g1, g2⟩

theorem loads_threads (hd : d.Ok) {s : Settings} (hplan : plan m d args = .run s) {files : List (Path × FileInfo)} {tree : Db.SourceTree Path} (h : ThreadLoads s.job d files tree) :
    Loads s.job d files tree := ⟨scan_iff hd hplan h.1, h.2⟩

theorem all_topological (hd : d.Ok) {s : Settings} (hplan : plan m d args = .run s) {files : List (Path × FileInfo)} {tree : Db.SourceTree Path} (hl : Loads s.job d files tree)
    (hok : (Db.taskListAll tree.graph).1 = .ok) : (s.build tree kind).job.Topological := by
  obtain ⟨_, files3, _, _, _, hg, s3⟩ := Build.load_ok (loadable_of_ok (world_ok_of hd hplan) hl).sorted hl.2
  exact ((Db.C21_all_tasks files3 s3 hg).2 hok).2 s.job.workers

theorem one_topological (hd : d.Ok) {s : Settings} (hplan : plan m d args = .run s) {files : List (Path × FileInfo)} {tree : Db.SourceTree Path} (hl : Loads s.job d files tree)
    (t : Db.Target Path) (hok : (Db.taskListFor tree.graph t.sourceFilename).1 = .ok) : ((s.setup tree kind).build t).job.Topological := by
  obtain ⟨_, files3, _, _, _, hg, s3⟩ := Build.load_ok (loadable_of_ok (world_ok_of hd hplan) hl).sorted hl.2
  obtain ⟨root, hr⟩ : ∃ root, tree.graph.PathOf root t.sourceFilename := by
    cases hn : Db.getNode tree.graph t.sourceFilename with
    | none => simp [Db.taskListFor, hn] at hok
    | some node => exact ⟨node, ((Db.C07_getNode files3 s3 hg _).1 node).mp hn⟩
  exact ((Db.C21_single_target files3 s3 hg hr).2 hok).2 s.job.workers

/-- A scan by threads ends, and its result is that of any other scan. -/
theorem scan_exists (hd : d.Ok) (hfin : d.Finite) {s : Settings} (hplan : plan m d args = .run s) : ∃ r, ScanEnds s.job d r := by
  obtain ⟨h, hh⟩ := height_of_finite hd hfin (plan_sourceDir hplan)
  have hw := world_ok_of hd hplan
  have hn := plan_workers hplan
  let s₀ : Tree.Threads.State FileInfo :=
    { pcs := .incLock .main :: List.replicate s.job.workers .lock, owner := fun _ => none, readers := [], queue := [], value := 0, files := [], errlog := [], alive := true, loads := [] }
  have h0 : Tree.Threads.Start s.job.workers s₀ := by
    refine ⟨by simp [s₀], rfl, ?_, ?_, fun _ _ => rfl, rfl, rfl, rfl, rfl, rfl, rfl, rfl⟩
    · intro tid pc hp
      simp only [s₀, List.getElem?_cons_succ] at hp
      exact .inl (List.eq_of_mem_replicate (List.mem_of_getElem? hp))
    · intro tid
      simp only [s₀, reduceCtorEq, false_iff]
      cases tid with
      | zero => simp
      | succ k => simp [List.getElem?_replicate]
  obtain ⟨as, s', r, g1, g2⟩ := Tree.Threads.C105_ends hw hn hh ⟨s₀, [], h0, rfl⟩
  exact ⟨r, s', ⟨s₀, as, h0, g1⟩, g2⟩

theorem threads_scan (hd : d.Ok) (hfin : d.Finite) {s : Settings} (hplan : plan m d args = .run s) {n : Nat} {t : Scan FileInfo} {files : List (Path × FileInfo)}
    (h : Steps (s.job.world d) n (Scan.init (s.job.world d)) t) (hr : takeResult t = some (.ok files)) : ScanEnds s.job d (.ok files) := by
  obtain ⟨r, h1⟩ := scan_exists hd hfin hplan
  obtain ⟨n', t', g1, g2⟩ := scan_iff hd hplan h1
  have := C49_schedule (world_ok_of hd hplan) h g1 hr (by rw [g2]; simp)
  rw [g2] at this
  cases this
  exact h1

theorem threads_scanFails (hd : d.Ok) (hfin : d.Finite) {s : Settings} (hplan : plan m d args = .run s) {n : Nat} {t : Scan FileInfo} {e : Str}
    (h : Steps (s.job.world d) n (Scan.init (s.job.world d)) t) (hr : takeResult t = some (.error e)) : ∃ e', ScanEnds s.job d (.error e') := by
  obtain ⟨r, h1⟩ := scan_exists hd hfin hplan
  obtain ⟨n', t', g1, g2⟩ := scan_iff hd hplan h1
  have hw := world_ok_of hd hplan
  obtain ⟨e', rfl⟩ := (C50_throws hw g1 g2).mpr ((C50_throws hw h hr).mp ⟨e, rfl⟩)
  exact ⟨e', h1⟩

/-! ## Theorems -/

/-- **C107 (the program).** However the operations of the threads are interleaved, in the scan and in the builds, the program ends as in `Main/Program.lean`: all that has been shown for `Ends` holds for the threads. -/
theorem C107_program (hd : d.Ok) {status : Int} {out : Output} {fs : FileSys Path} (h : ThreadEnds m kind d now args status out fs) : Ends m kind d now args status out fs := by
  cases h with
  | printed h => exact .printed h
  | aborted h => exact .aborted h
  | scanFails hp h =>
    obtain ⟨n, t, g1, g2⟩ := scan_iff hd hp h
    exact .scanFails hp g1 g2
  | treeFails hp h h' =>
    obtain ⟨n, t, g1, g2⟩ := scan_iff hd hp h
    exact .treeFails hp g1 g2 h'
  | listed hp hl hw => exact .listed hp (loads_threads hd hp hl) hw
  | graph hp hl hw => exact .graph hp (loads_threads hd hp hl) hw
  | cyclic hp hl hw hc => exact .cyclic hp (loads_threads hd hp hl) hw hc
  | built hp hl hw hc hr hn =>
    have hl := loads_threads hd hp hl
    obtain ⟨as, x, g1, g2, _, _, _, _, g3, _⟩ := Build.Threaded.C107_refines _ (all_topological hd hp hl hc) hr
    rw [← g2]
    exact .built hp hl hw hc g1 (g3 _ hn)
  | failed hp hl hw hc hr hn =>
    have hl := loads_threads hd hp hl
    obtain ⟨as, x, g1, g2, _, _, _, _, _, g3⟩ := Build.Threaded.C107_refines _ (all_topological hd hp hl hc) hr
    rw [← g2]
    exact .failed hp hl hw hc g1 (g3 _ hn)
  | named hp hl hw hs =>
    have hl := loads_threads hd hp hl
    obtain ⟨schedules, p', g1, rfl⟩ := (Build.Threaded.C107_several _ (one_topological hd hp hl) _ (.start d.fs now) _ _).mp hs
    exact .named hp hl hw g1
  | namedFails hp hl hw hs hv =>
    have hl := loads_threads hd hp hl
    obtain ⟨schedules, p', g1, rfl⟩ := (Build.Threaded.C107_several _ (one_topological hd hp hl) _ (.start d.fs now) _ _).mp hs
    exact .namedFails hp hl hw g1 hv

/-- **C107 (the program).** On a file system with finitely many paths, the program can end like this if and only if it can do so with critical sections as single actions. -/
theorem C107_same (hd : d.Ok) (hfin : d.Finite) (status : Int) (out : Output) (fs : FileSys Path) :
    ThreadEnds m kind d now args status out fs ↔ Ends m kind d now args status out fs := by
  refine ⟨C107_program hd, fun h => ?_⟩
  have hloads : ∀ {s : Settings} {files tree}, plan m d args = .run s → Loads s.job d files tree → ThreadLoads s.job d files tree :=
    fun hp ⟨⟨n, t, h1, h2⟩, h3⟩ => ⟨threads_scan hd hfin hp h1 h2, h3⟩
  cases h with
  | printed h => exact .printed h
  | aborted h => exact .aborted h
  | scanFails hp h h' =>
    obtain ⟨e', he⟩ := threads_scanFails hd hfin hp h h'
    exact .scanFails hp he
  | treeFails hp h h' h'' => exact .treeFails hp (threads_scan hd hfin hp h h') h''
  | listed hp hl hw => exact .listed hp (hloads hp hl) hw
  | graph hp hl hw => exact .graph hp (hloads hp hl) hw
  | cyclic hp hl hw hc => exact .cyclic hp (hloads hp hl) hw hc
  | built hp hl hw hc hr hn =>
    obtain ⟨s, g1, g2, _, _, _, _, g3, _⟩ := Build.Threaded.C107_realised _ hr
    rw [← g2]
    exact .built hp (hloads hp hl) hw hc g1 (g3 _ hn)
  | failed hp hl hw hc hr hn =>
    obtain ⟨s, g1, g2, _, _, _, _, _, g3⟩ := Build.Threaded.C107_realised _ hr
    rw [← g2]
    exact .failed hp (hloads hp hl) hw hc g1 (g3 _ hn)
  | named hp hl hw hs =>
    exact .named hp (hloads hp hl) hw ((Build.Threaded.C107_several _ (one_topological hd hp hl) _ (.start d.fs now) _ _).mpr ⟨_, _, hs, rfl⟩)
  | namedFails hp hl hw hs hv =>
    exact .namedFails hp (hloads hp hl) hw ((Build.Threaded.C107_several _ (one_topological hd hp hl) _ (.start d.fs now) _ _).mpr ⟨_, _, hs, rfl⟩) hv

/-- **C107 (success).** When the program has returned zero after it has been asked to build everything, each target of each file of the project exists, and, unless it is a directory, is strictly newer than the file that it is
made from, and than everything that this file needs, however the threads have been scheduled. -/
theorem C107_success {s : Settings} (hplan : plan m d args = .run s) (hp : Proper s.job kind d now)
    (h1 : ¬ Given args "--list-targets") (h2 : ¬ Given args "--print-dep-graph") (h3 : ¬ Given args "--targets") (h4 : ¬ Given args "--dry-run")
    {out : Output} {fs : FileSys Path} (h : ThreadEnds m kind d now args 0 out fs) {p : Path} {i : FileInfo} (hsc : Scanned s.job d p i)
    {t : TTarget} (ht : t ∈ i.targets) :
    Build.Exists fs t.name ∧ (kind t.name = false → Build.StrictlyNewer fs t.name p.normal ∧
      ∀ q, Needs s.job d p.normal q → kind q = false →
        (∀ p' i', Scanned s.job d p' i' → ∀ x, Declares i' x → x.name = q → Db.isExternal x.origin = false) →
        Build.StrictlyNewer fs t.name q) :=
  C76_success hplan hp h1 h2 h3 h4 (C107_program hp.disk h) hsc ht

/-- **C107 (the program can end).** When everything is built, from wherever the threads are, as long as there is no exception: the program can end, without a spurious wake-up, and with zero if no recipe has failed so far. -/
theorem C107_all (hd : d.Ok) {s : Settings} (hplan : plan m d args = .run s) (hroot : (d.fs s.job.sourceDir.normal).isSome) {files : List (Path × FileInfo)} {tree : Db.SourceTree Path}
    (hl : ThreadLoads s.job d files tree) (hwhat : s.what = .all) (hok : (Db.taskListAll tree.graph).1 = .ok) {st : TState (plain (s.build tree kind))}
    (hr : Reaches (plain (s.build tree kind)) (s.build tree kind).job (Build.init (s.build tree kind) d.fs now) st) (hthrew : ∀ t, .finish t .threw ∉ st.th.hist) :
    ∃ as st' status, Build.Threaded.TExec (plain (s.build tree kind)) (s.build tree kind).job as st st' ∧ (∀ a ∈ as, a.isSpurious = false) ∧ st'.th.Ended ∧
      ThreadEnds m kind d now args status .nothing st'.env.fs ∧ ((∀ t, .finish t .failure ∉ st.th.hist) → status = 0) := by
  obtain ⟨h1, h2, h3⟩ := all_facts (kind := kind) hd hplan hroot (loads_threads hd hplan hl) hok
  obtain ⟨as, st', g1, g2, g3, g4⟩ := Build.Threaded.C107_can_end _ h1 h2 h3 hr hthrew
  have hr' := hr.more g1
  rcases g3 with ⟨n, hn⟩ | ⟨n, hn⟩
  · exact ⟨as, st', 0, g1, g2, .inl ⟨n, hn⟩, .built hplan hl hwhat hok hr' hn, fun _ => rfl⟩
  · refine ⟨as, st', -1, g1, g2, .inr ⟨n, hn⟩, .failed hplan hl hwhat hok hr' hn, fun hf => ?_⟩
    obtain ⟨k, hk⟩ := g4 hf
    rw [hk] at hn; cases hn

/-- **C107 (targets by name).** The same for one of several targets: the build can end, and if it returns then so can the builds of the targets after it. -/
theorem C107_named (hd : d.Ok) {s : Settings} (hplan : plan m d args = .run s) (hroot : (d.fs s.job.sourceDir.normal).isSome) {files : List (Path × FileInfo)} {tree : Db.SourceTree Path}
    (hl : ThreadLoads s.job d files tree) {t : Db.Target Path} (hok : (Db.taskListFor tree.graph t.sourceFilename).1 = .ok) {fs : FileSys Path} {now' total : Nat}
    (hex : ∀ p, Build.Exists d.fs p → Build.Exists fs p) {st : TState (plain ((s.setup tree kind).build t))}
    (hr : Reaches (plain ((s.setup tree kind).build t)) ((s.setup tree kind).build t).job (Build.init ((s.setup tree kind).build t) fs now') st) (hthrew : ∀ t, .finish t .threw ∉ st.th.hist)
    (after : List Path) :
    ∃ as st', Build.Threaded.TExec (plain ((s.setup tree kind).build t)) ((s.setup tree kind).build t).job as st st' ∧ (∀ a ∈ as, a.isSpurious = false) ∧ st'.th.Ended ∧
      ((∀ t, .finish t .failure ∉ st.th.hist) → ∃ n, st'.th.mpc = .returned n) ∧
      ∀ n, st'.th.mpc = .returned n → ∃ v fs', Build.Threaded.Several (s.setup tree kind) after st'.env.fs st'.env.clock (total + n) v fs' ∧ ∀ name, v ≠ .failed name := by
  have hl' := loads_threads hd hplan hl
  obtain ⟨h1, h2, h3⟩ := one_facts (kind := kind) hd hplan hroot hl' hok
  obtain ⟨as, st', g1, g2, g3, g4⟩ := Build.Threaded.C107_can_end _ h1 h2 (fun u hu => hex _ (h3 u hu)) hr hthrew
  refine ⟨as, st', g1, g2, g3, g4, fun n _ => ?_⟩
  obtain ⟨as', x, k1, k2, _⟩ := Build.Threaded.C107_refines _ h1 (hr.more g1)
  obtain ⟨schedules, v, p', k3, k4⟩ := several_ends (kind := kind) hd hplan hroot hl' after ⟨st'.env.fs, st'.env.clock, [], total + n⟩ fun p hp => by
    show Build.Exists st'.env.fs p
    rw [← k2]
    exact Build.exists_exec k1 (hex p hp)
  exact ⟨v, p'.fs, (Build.Threaded.C107_several _ (one_topological hd hplan hl') _ ⟨st'.env.fs, st'.env.clock, [], total + n⟩ _ _).mpr ⟨schedules, p', k3, rfl⟩, k4⟩

/-- A run on the file system `d` with contents `c`, at time `now`, which executes its recipes with `n` workers, has ended without an exception, and `c'` are the contents of files. -/
def ThreadMakes {V : Type} (j : Job) (force : Bool) (kind : Path → Bool) (tools : Build.Tools Path) (eff : Build.Effects Path V tools) (recipe : String → Kvs.Members → Recipes.Script) (info : Kvs.Json)
    (format : Text.LogFormat) (d : Disk) (c : Path → V) (now : Nat) (files : List (Path × FileInfo)) (tree : Db.SourceTree Path) (n : Nat) (c' : Path → V) : Prop :=
  Loads j d files tree ∧ (Db.taskListAll tree.graph).1 = .ok ∧
  ∃ (st : TState (contents ((theBuild j tree force kind).withWorkers n) tools (scriptOf recipe files tree info format) eff)) (k : Nat),
    Reaches _ ((theBuild j tree force kind).withWorkers n).job (Build.cinit ((theBuild j tree force kind).withWorkers n) d.fs now c) st ∧ st.th.mpc = .returned k ∧ st.env.content = c'

/-- **C107 (contents).** Two runs that start with the same files, with any numbers of workers, however their threads are scheduled, and that both succeed, leave the same in all files, if they are forced, or if the directories
that are targets exist already. -/
theorem C107_workers {V : Type} {j : Job} (hp : Proper j kind d now) {files : List (Path × FileInfo)} {tree : Db.SourceTree Path} {force : Bool} {tools : Build.Tools Path}
    {eff : Build.Effects Path V tools} {recipe : String → Kvs.Members → Recipes.Script} {info : Kvs.Json} {format : Text.LogFormat} (hu : Uses j kind tools recipe info format d files tree)
    (hk : ReadsKnown j kind eff recipe info format d files tree)
    (hdirs : force = true ∨ ∀ p i, Scanned j d p i → ∀ t ∈ i.targets, kind t.name = true → (d.fs t.name).isSome)
    {c : Path → V} {n n' : Nat} {c₁ c₂ : Path → V} (hr : ThreadMakes j force kind tools eff recipe info format d c now files tree n c₁)
    (hr' : ThreadMakes j force kind tools eff recipe info format d c now files tree n' c₂) : c₁ = c₂ := by
  have key : ∀ {n c'}, ThreadMakes j force kind tools eff recipe info format d c now files tree n c' →
      ∃ x, RunsOn j force kind tools eff recipe info format d c now files tree n x ∧ x.base.base.Succeeded ∧ x.content = c' := by
    rintro n c' ⟨hl, hok, st, k, g1, g2, g3⟩
    obtain ⟨as, x, k1, k2, _, _, _, k3, _⟩ := Build.Threaded.C107_contents _ tools _ eff ((run_sane hp hl hok force).1.withWorkers n).topological g1
    exact ⟨x, ⟨hl, hok, as, k1⟩, ⟨k, k3 k g2⟩, k2.trans g3⟩
  obtain ⟨x, a1, a2, rfl⟩ := key hr
  obtain ⟨y, b1, b2, rfl⟩ := key hr'
  exact C94_run_workers hp hu hk hdirs a1 b1 a2 b2

/-- What a worker of the pool does when it has nothing to do. -/
def idleOf : Tree.Threads.Pc FileInfo → TaskList.Threads.WPc
  | .test => .test
  | .asleep => .asleep
  | _ => .lock

/-- **C107 (hand-over).** When the scan has ended, the pool is as it has to be for a build: no task is in the queue, and each worker is about to lock the mutex of the pool, has it, or sleeps. -/
theorem C107_handover {w : World FileInfo} (hw : w.Ok) {n : Nat} (hn : 0 < n) {t : Tree.Threads.State FileInfo} (ht : Tree.Threads.Reachable w n t) {r : Except Str (List (Path × FileInfo))}
    (he : t.Ended r) (j : TaskList.Job) (hj : j.workers = n) :
    (∀ tid pc, t.pcs[tid + 1]? = some pc → pc.Idle) ∧
    TaskList.Threads.Start j { TaskList.Threads.fresh j with wpcs := t.pcs.tail.map idleOf, owner := fun | .pool => t.owner .pool | _ => none, queue := t.queue.map fun _ => 0 } := by
  have hl := Tree.Threads.C105_left hw hn ht he
  have hset : ∀ i, (t.pcs.set 0 (.incLock .main))[i + 1]? = t.pcs[i + 1]? := fun i => by simp
  have hidle : ∀ tid pc, t.pcs[tid + 1]? = some pc → pc.Idle := fun tid pc h => hl.idle tid pc (by rw [← h]; exact hset tid)
  have hlen : t.pcs.length = n + 1 := by
    have := hl.threads
    simpa [Tree.Threads.State.at] using this
  have htail : ∀ k : Nat, t.pcs.tail[k]? = t.pcs[k + 1]? := fun k => by rw [List.getElem?_tail]
  refine ⟨hidle, ⟨rfl, ?_, ?_, ?_, ?_, rfl, rfl, rfl, rfl, rfl, rfl, ?_, rfl, rfl⟩⟩
  · simp [hlen, hj]
  · intro p hp
    obtain ⟨pc, _, rfl⟩ := List.mem_map.mp hp
    cases pc <;> simp [idleOf, TaskList.Threads.WPc.Idle]
  · intro tid
    have hpool := hl.pool tid
    have ho : ({ t.at 0 (.incLock .main) with files := [], errlog := [], alive := true, loads := [] } : Tree.Threads.State FileInfo).owner .pool = t.owner .pool := rfl
    rw [ho] at hpool
    show t.owner .pool = some tid ↔ _
    rw [hpool]
    constructor
    · intro h
      cases tid with
      | zero =>
        rw [hl.main] at h
        cases h
      | succ k =>
        refine ⟨k, rfl, ?_⟩
        have h : (t.pcs.set 0 (.incLock .main))[k + 1]? = some .test := h
        rw [hset] at h
        simp [h, idleOf]
    · rintro ⟨k, rfl, h⟩
      show (t.pcs.set 0 (.incLock .main))[k + 1]? = some .test
      rw [hset]
      simp only [List.getElem?_map, htail, Option.map_eq_some_iff] at h
      obtain ⟨pc, h1, h2⟩ := h
      rcases hidle k pc h1 with rfl | rfl | rfl
      · cases h2
      · exact h1
      · cases h2
  · intro m hm
    cases m <;> first | exact absurd rfl hm | rfl
  · have : t.queue = [] := hl.queue
    simp [this]

end Maike.Main
