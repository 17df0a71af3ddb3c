import Verif.Build.Ends
import Verif.Main.Program

/-!
# The program ends (C87)
-/

namespace Maike.Main

open Fs Tree Paths
open Maike.Build (FileSys)

/-! ## Specification -/

/-- Below each path, directories are nested to a finite depth. -/
def Disk.Finite (d : Disk) : Prop := ∀ base : Path, ∃ M, ∀ sub : List Str, (∀ n ∈ sub, IsName n) → (d.fs (inside base sub)).isSome → sub.length ≤ M

/-- No task has ended with an exception other than the one for recipes that fail. Such exceptions come from recipes that cannot be launched, from a log that
cannot be written, and from missing source files. -/
def NoException (st : Build.State Path) : Prop := ∀ t, .finish t .threw ∉ st.sched.hist

/-! ## The scan -/

variable {m : Machine} {kind : Path → Bool} {d : Disk} {now : Nat} {args : List Str}

theorem inside_length (base : Path) (sub : List Str) : sub.length ≤ (inside base sub).names.length := by
  unfold inside
  dsimp only
  split <;> simp

/-- It is enough that finitely many paths exist. -/
theorem finite_of_list {l : List Path} (hl : ∀ p, (d.fs p).isSome → p ∈ l) : d.Finite := by
  obtain ⟨M, hM⟩ : ∃ M, ∀ p ∈ l, p.names.length ≤ M := by
    clear hl
    induction l with
    | nil => exact ⟨0, by simp⟩
    | cons p l ih =>
      obtain ⟨M, hM⟩ := ih
      refine ⟨max p.names.length M, fun q hq => ?_⟩
      rcases List.mem_cons.mp hq with rfl | hq
      · omega
      · have := hM q hq; omega
  intro base
  exact ⟨M, fun sub _ h => Nat.le_trans (inside_length base sub) (hM _ (hl _ h))⟩

/-- An entry, in normal form. -/
theorem located_inside {I : Type} {w : World I} (hw : w.Ok) {p : Path} {sub : List Str} (hp : Located w p sub) {n : Str} (hn : IsName n) :
    (p.normal / ⟨false, [n], false⟩).normal = inside w.root.normal (sub ++ [n]) := by
  have h1 := located_entry hw hp hn
  have h2 : (p.normal / ⟨false, [n], false⟩).normal.trailing = false := by
    rw [entry_eq _ _ hn]
    exact normal_trailing hn
  have h3 := h1.normalNames
  have h4 := h1.normalRoot
  generalize (p.normal / ⟨false, [n], false⟩).normal = q at *
  obtain ⟨r, ns, t⟩ := q
  simp only at h2 h3 h4
  subst h2 h3 h4
  unfold inside
  rw [normal_root]

/-- Directories have finitely many levels. -/
theorem height_of_finite (hd : d.Ok) (hfin : d.Finite) {j : Job} (hne : j.sourceDir ≠ Path.empty) : ∃ h, (j.world d).Height h (j.world d).root := by
  have hw : (j.world d).Ok := ⟨hne, hd.nodup, hd.isName⟩
  obtain ⟨M, hM⟩ := hfin (j.world d).root.normal
  have deep : ∀ sub p n, Located (j.world d) p sub → n ∈ (d.names p.normal).1 → sub.length + 1 ≤ M := by
    intro sub p n hp hn
    have h1 := located_entry hw hp (hd.isName _ _ hn)
    have h2 := hd.listed _ _ hn
    rw [located_inside hw hp (hd.isName _ _ hn)] at h2
    have := hM _ h1.names h2
    simpa using this
  have key : ∀ k sub p, Located (j.world d) p sub → sub.length + k = M → (j.world d).Height (k + 1) p := by
    intro k
    induction k with
    | zero =>
      intro sub p hp hlen _ n hn
      have := deep sub p n hp hn
      omega
    | succ k ih =>
      intro sub p hp hlen _ n hn
      exact ih _ _ (located_entry hw hp (hd.isName _ _ hn)) (by simp only [List.length_append, List.length_singleton]; omega)
  obtain ⟨sub, hs⟩ := located hw (.root)
  by_cases hlen : sub.length ≤ M
  · exact ⟨_, key (M - sub.length) sub _ hs (by omega)⟩
  · refine ⟨1, fun _ n hn => ?_⟩
    have := deep sub _ n hs hn
    omega

/-- **C87.** The scan of the source directory takes at most a certain number of steps, whatever the schedule, and from wherever it is it can be completed. -/
theorem C87_scan (hd : d.Ok) (hfin : d.Finite) {s : Settings} (hplan : plan m d args = .run s) :
    (∃ N, ∀ n t, Steps (s.job.world d) n (Scan.init (s.job.world d)) t → n ≤ N) ∧
    ∀ n t, Steps (s.job.world d) n (Scan.init (s.job.world d)) t → ∃ k t', Steps (s.job.world d) k t t' ∧ takeResult t' ≠ none := by
  obtain ⟨h, hh⟩ := height_of_finite hd hfin (plan_sourceDir hplan)
  exact ⟨C49_terminates (world_ok_of hd hplan) hh, fun n t hs => C49_ends (world_ok_of hd hplan) hh hs⟩

/-! ## The builds -/

theorem plan_workers {s : Settings} (h : plan m d args = .run s) : 1 ≤ s.job.workers := by
  obtain ⟨c, cfg, loaders, hc, _, _, _, _, _, _, rfl⟩ := plan_run h
  show 1 ≤ (Text.Numbers.threadCountValue m.nprocs (threadsOption c 16)).toNat
  have key : 1 ≤ Text.Numbers.threadCountValue m.nprocs (threadsOption c 16) := by
    by_cases hset : c.isSet 16 = true
    · obtain ⟨v, hv⟩ := exists_lastValue ((given_iff hc hasIndex_workers).mp hset)
      obtain ⟨_, h2, _, h4⟩ := option_value hc
        (o := ⟨16, "--num-workers".toList, true, fun s => (Text.Numbers.threadCount s).map .threads⟩) (by simp [Cli.maikeOptions]) rfl hv
      simp only at h2 h4
      cases ht : Text.Numbers.threadCount v with
      | none => simp [ht] at h4
      | some x =>
        simp only [threadsOption, h2, ht, Option.map_some]
        exact Text.Numbers.C53_positive v x m.nprocs ht
    · have : threadsOption c 16 = -1 := by
        obtain ⟨g1, _, g3⟩ := Cli.C51_last _ Cli.maikeOptions_proper args c hc
          ⟨16, "--num-workers".toList, true, fun s => (Text.Numbers.threadCount s).map .threads⟩ (by simp [Cli.maikeOptions])
        have := g3 fun str h1 h2 h3 => hset (g1.mpr ⟨str, h1, h2, h3⟩)
        simp only at this
        simp [threadsOption, this]
      rw [this]
      exact Text.Numbers.C53_default m.nprocs
  omega

/-- The files of a scan are as theorems about the database need them, if paths that are not files are disregarded. -/
theorem loadable_of_finds {j : Job} (hw : (j.world d).Ok) {files : List (Path × FileInfo)} (hl : Finds j d files) :
    Build.Loadable (srcList files) fun _ => true := by
  have hmem : ∀ x ∈ srcList files, ∃ p i, Scanned j d p i ∧ x = (p.normal, i.toSrcInfo) := by
    intro x hx
    obtain ⟨⟨k, i⟩, hy, rfl⟩ := List.mem_map.mp hx
    obtain ⟨p, h1, rfl⟩ := (mem_of_finds hw hl _ _).mp hy
    exact ⟨p, i, h1, rfl⟩
  refine ⟨(sorted_of_finds hw hl).map_val _, ?_, ?_, ?_, fun _ _ _ _ h => (by cases h), fun _ _ _ _ _ => rfl⟩
  · intro x hx
    obtain ⟨p, i, _, rfl⟩ := hmem x hx
    simp only [FileInfo.toSrcInfo, List.append_nil, List.mem_map]
    rintro _ ⟨y, _, rfl⟩
    rfl
  · intro x hx
    obtain ⟨p, i, _, rfl⟩ := hmem x hx
    rfl
  · intro x hx t ht
    obtain ⟨p, i, hs, rfl⟩ := hmem x hx
    obtain ⟨t', ht', rfl⟩ := List.mem_map.mp ht
    obtain ⟨name, hn, _⟩ := load_targets hs.2.2 t' ht'
    show Path.normal t'.name = t'.name
    rw [hn]
    exact makeTargetName_normal _ _

theorem loadable_of_ok {j : Job} (hw : (j.world d).Ok) {files : List (Path × FileInfo)} {tree : Db.SourceTree Path} (hl : Loads j d files tree) :
    Build.Loadable (srcList files) fun _ => true := loadable_of_finds hw hl.1

/-- Files that something is made from exist. -/
theorem source_exists {j : Job} (hd : d.Ok) (hw : (j.world d).Ok) (hroot : (d.fs j.sourceDir.normal).isSome) {files : List (Path × FileInfo)}
    {tree : Db.SourceTree Path} (hl : Loads j d files tree) {u : Nat} (hb : tree.graph.Builds u) :
    Build.Exists d.fs (Build.makeTask tree.graph u).src := by
  obtain ⟨p, info, hp, hne⟩ := hb
  rcases Build.record_origin (loadable_of_ok hw hl) hl.2 hp with ⟨i0, hi0, _⟩ | ⟨h, _⟩
  · obtain ⟨⟨k, i⟩, hy, e⟩ := List.mem_map.mp hi0
    obtain ⟨a, hs, rfl⟩ := (mem_files_of_ok hw hl _ _).mp hy
    injection e with e1 e2
    subst e1
    have : (Build.makeTask tree.graph u).src = a.normal := by simp [Build.makeTask, hp]
    rw [this]
    cases hs.1 with
    | root => exact Option.isSome_iff_exists.mp hroot
    | entry _ _ hn => exact Option.isSome_iff_exists.mp (hd.listed _ _ hn)
  · exact absurd h hne

section

variable {s : Settings} {files : List (Path × FileInfo)} {tree : Db.SourceTree Path}

theorem all_facts (hd : d.Ok) (hplan : plan m d args = .run s) (hroot : (d.fs s.job.sourceDir.normal).isSome) (hl : Loads s.job d files tree)
    (hok : (Db.taskListAll tree.graph).1 = .ok) :
    (s.build tree kind).job.Topological ∧ 1 ≤ (s.build tree kind).job.workers ∧
    ∀ t ∈ (s.build tree kind).job.tasks, Build.Exists d.fs ((s.build tree kind).task t).src := by
  have hw := world_ok_of hd hplan
  obtain ⟨_, files3, _, _, _, hg, s3⟩ := Build.load_ok (loadable_of_ok hw hl).sorted hl.2
  obtain ⟨h1, h2⟩ := (Db.C21_all_tasks files3 s3 hg).2 hok
  exact ⟨h2 s.job.workers, plan_workers hplan, fun t ht => source_exists hd hw hroot hl ((h1 t).mp ht)⟩

theorem one_facts (hd : d.Ok) (hplan : plan m d args = .run s) (hroot : (d.fs s.job.sourceDir.normal).isSome) (hl : Loads s.job d files tree)
    {t : Db.Target Path} (hok : (Db.taskListFor tree.graph t.sourceFilename).1 = .ok) :
    ((s.setup tree kind).build t).job.Topological ∧ 1 ≤ ((s.setup tree kind).build t).job.workers ∧
    ∀ u ∈ ((s.setup tree kind).build t).job.tasks, Build.Exists d.fs (((s.setup tree kind).build t).task u).src := by
  have hw := world_ok_of hd hplan
  obtain ⟨_, files3, _, _, _, hg, s3⟩ := Build.load_ok (loadable_of_ok hw hl).sorted hl.2
  obtain ⟨root, hr⟩ : ∃ root, tree.graph.PathOf root t.sourceFilename := by
    cases hn : Db.getNode tree.graph t.sourceFilename with
    | none => simp [Db.taskListFor, hn] at hok
    | some node => exact ⟨node, ((Db.C07_getNode files3 s3 hg _).1 node).mp hn⟩
  obtain ⟨h1, h2⟩ := (Db.C21_single_target files3 s3 hg hr).2 hok
  exact ⟨h2 s.job.workers, plan_workers hplan, fun u hu => source_exists hd hw hroot hl ((h1 u).mp hu).2⟩

/-- **C87.** When everything is built, there is a bound on the number of useful actions, whatever the schedule; and as long as there is no exception, the program can end,
from wherever it is. -/
theorem C87_all (hd : d.Ok) (hplan : plan m d args = .run s) (hroot : (d.fs s.job.sourceDir.normal).isSome) (hl : Loads s.job d files tree)
    (hwhat : s.what = .all) (hok : (Db.taskListAll tree.graph).1 = .ok) :
    (∃ bound, ∀ n st, Build.Works (s.build tree kind) n (Build.init (s.build tree kind) d.fs now) st → n ≤ bound) ∧
    ∀ as st, Build.exec (s.build tree kind) as (Build.init (s.build tree kind) d.fs now) = some st → NoException st →
      (¬ st.sched.Ended → ∃ a st', Build.Useful st a ∧ Build.step (s.build tree kind) a st = some st') ∧
      ∃ as' st' status, Build.exec (s.build tree kind) as' st = some st' ∧ st'.sched.Ended ∧ Ends m kind d now args status .nothing st'.fs ∧
        ((∀ t, .finish t .failure ∉ st.sched.hist) → status = 0) := by
  obtain ⟨h1, h2, h3⟩ := all_facts (kind := kind) hd hplan hroot hl hok
  constructor
  · obtain ⟨bound, hb⟩ := Build.C87_bounded (s.build tree kind) h1
    exact ⟨bound, fun n st h => hb _ _ _ _ h⟩
  · intro as st hx hnt
    constructor
    · intro hne
      rcases Build.C87_progress _ h1 h2 h3 hx hnt with h | h
      · exact absurd h hne
      · exact h
    · obtain ⟨as', st', g1, g2, g3⟩ := Build.C87_can_end _ h1 h2 h3 hx hnt
      have hx' := Build.exec_append hx g1
      rcases g2 with ⟨n, hn⟩ | ⟨n, hn⟩
      · exact ⟨as', st', 0, g1, .inl ⟨n, hn⟩, .built hplan hl hwhat hok hx' hn, fun _ => rfl⟩
      · refine ⟨as', st', -1, g1, .inr ⟨n, hn⟩, .failed hplan hl hwhat hok hx' hn, fun hf => ?_⟩
        obtain ⟨k, hk⟩ := g3 hf
        rw [hk] at hn; cases hn

/-- Targets are built one after the other. -/
theorem several_append {c : Build.Setup Path} {before after : List Path} {schedules schedules' : List (List (Build.Act Path))} {s s' : Build.Progress Path} {n : Nat}
    (hlen : schedules.length = before.length) (h : Build.compileSeveral c before schedules s = some (.completed n, s')) :
    Build.compileSeveral c (before ++ after) (schedules ++ schedules') s = Build.compileSeveral c after schedules' s' := by
  induction before generalizing schedules s with
  | nil =>
    cases schedules with
    | cons _ _ => simp at hlen
    | nil =>
      simp only [Build.compileSeveral, Option.some.injEq, Prod.mk.injEq] at h
      rw [← h.2]; rfl
  | cons name names ih =>
    cases schedules with
    | nil => simp at hlen
    | cons as schedules =>
      simp only [Build.compileSeveral, List.cons_append] at h ⊢
      split at h
      · cases h
      · rename_i t ht
        split at h
        · rename_i hok
          simp only [hok, if_true]
          split at h
          · cases h
          · rename_i r hr
            split at h
            · rename_i k hk
              exact ih (by simpa using hlen) h
            · cases h
            · cases h
        · cases h

/-- Targets that are built one after the other: nothing is removed. -/
theorem several_exists {c : Build.Setup Path} {names : List Path} {schedules : List (List (Build.Act Path))} {s s' : Build.Progress Path} {v : Build.Verdict Path}
    (h : Build.compileSeveral c names schedules s = some (v, s')) {p : Path} (hp : Build.Exists s.fs p) : Build.Exists s'.fs p := by
  induction names generalizing schedules s with
  | nil =>
    simp only [Build.compileSeveral, Option.some.injEq, Prod.mk.injEq] at h
    rw [← h.2]; exact hp
  | cons name names ih =>
    simp only [Build.compileSeveral] at h
    split at h
    · cases h; exact hp
    · split at h
      · split at h
        · cases h
        · split at h
          · cases h
          · rename_i r hr
            have hr' : Build.Exists r.fs p := Build.exists_exec hr hp
            split at h
            · exact ih h hr'
            · cases h; exact hr'
            · cases h
      · cases h; exact hp

/-- The rest of the targets can be built, or something is found to be wrong. -/
theorem several_ends (hd : d.Ok) (hplan : plan m d args = .run s) (hroot : (d.fs s.job.sourceDir.normal).isSome) (hl : Loads s.job d files tree)
    (names : List Path) (st : Build.Progress Path) (hex : ∀ p, Build.Exists d.fs p → Build.Exists st.fs p) :
    ∃ schedules v st', Build.compileSeveral (s.setup tree kind) names schedules st = some (v, st') ∧ ∀ name, v ≠ .failed name := by
  induction names generalizing st with
  | nil => exact ⟨[], _, _, rfl, by simp⟩
  | cons name names ih =>
    cases ht : Build.getTarget (s.setup tree kind) name with
    | none => exact ⟨[], .unknown name, st, by simp only [Build.compileSeveral, ht], by simp⟩
    | some t =>
      by_cases hok : (Db.taskListFor tree.graph t.sourceFilename).1 = .ok
      · obtain ⟨h1, h2, h3⟩ := one_facts (kind := kind) hd hplan hroot hl hok
        obtain ⟨as, r, g1, g2, g3⟩ := Build.C87_can_end _ h1 h2 (fun u hu => hex _ (h3 u hu)) (as := [])
          (s := Build.init ((s.setup tree kind).build t) st.fs st.clock) rfl (by simp [Build.init, TaskList.init])
        obtain ⟨n, hn⟩ := g3 (by simp [Build.init, TaskList.init])
        obtain ⟨schedules, v, st', e1, e2⟩ := ih ⟨r.fs, r.clock, st.builds ++ [(name, r)], st.total + n⟩ fun p hp => Build.exists_exec g1 (hex p hp)
        refine ⟨as :: schedules, v, st', ?_, e2⟩
        have hok' : (Db.taskListFor (s.setup tree kind).tree.graph t.sourceFilename).1 = .ok := hok
        simp only [Build.compileSeveral, ht, hok', if_true, g1, hn]
        exact e1
      · have hok' : ¬ (Db.taskListFor (s.setup tree kind).tree.graph t.sourceFilename).1 = .ok := hok
        exact ⟨[], .cyclic name, st, by simp only [Build.compileSeveral, ht, hok', if_false], by simp⟩

/-- **C87.** When targets are built one after the other, there is a bound on the number of useful actions in each of the builds, whatever the schedule; and as long as there is no
exception, the program can end, from wherever it is. -/
theorem C87_named (hd : d.Ok) (hplan : plan m d args = .run s) (hroot : (d.fs s.job.sourceDir.normal).isSome) (hl : Loads s.job d files tree)
    {before after : List Str} {name : Str} (hwhat : s.what = .targets (before ++ name :: after)) {schedules : List (List (Build.Act Path))}
    (hlen : schedules.length = before.length) {k : Nat} {r : Build.Progress Path}
    (hbefore : Build.compileSeveral (s.setup tree kind) (before.map parse) schedules (.start d.fs now) = some (.completed k, r))
    {t : Db.Target Path} (ht : Build.getTarget (s.setup tree kind) (parse name) = some t)
    (hok : (Db.taskListFor tree.graph t.sourceFilename).1 = .ok) :
    (∃ bound, ∀ n st, Build.Works ((s.setup tree kind).build t) n (Build.init ((s.setup tree kind).build t) r.fs r.clock) st → n ≤ bound) ∧
    ∀ as st, Build.exec ((s.setup tree kind).build t) as (Build.init ((s.setup tree kind).build t) r.fs r.clock) = some st → NoException st →
      (¬ st.sched.Ended → ∃ a st', Build.Useful st a ∧ Build.step ((s.setup tree kind).build t) a st = some st') ∧
      ∃ as' st' schedules' v r', Build.exec ((s.setup tree kind).build t) as' st = some st' ∧ st'.sched.Ended ∧
        Build.compileSeveral (s.setup tree kind) ((before ++ name :: after).map parse) (schedules ++ (as ++ as') :: schedules') (.start d.fs now) =
          some (v, r') ∧
        Ends m kind d now args (match v with | .completed _ => 0 | _ => -1) .nothing r'.fs := by
  obtain ⟨h1, h2, h3⟩ := one_facts (kind := kind) hd hplan hroot hl hok
  have hex : ∀ p, Build.Exists d.fs p → Build.Exists r.fs p := fun p hp => several_exists hbefore hp
  constructor
  · obtain ⟨bound, hb⟩ := Build.C87_bounded ((s.setup tree kind).build t) h1
    exact ⟨bound, fun n st h => hb _ _ _ _ h⟩
  · intro as st hx hnt
    constructor
    · intro hne
      rcases Build.C87_progress _ h1 h2 (fun u hu => hex _ (h3 u hu)) hx hnt with h | h
      · exact absurd h hne
      · exact h
    · obtain ⟨as', st', g1, g2, g3⟩ := Build.C87_can_end _ h1 h2 (fun u hu => hex _ (h3 u hu)) hx hnt
      have hx' := Build.exec_append hx g1
      have hok' : (Db.taskListFor (s.setup tree kind).tree.graph t.sourceFilename).1 = .ok := hok
      have hfin : ∃ schedules' v r', Build.compileSeveral (s.setup tree kind) (parse name :: after.map parse) ((as ++ as') :: schedules') r = some (v, r') := by
        rcases g2 with ⟨n, hn⟩ | ⟨n, hn⟩
        · obtain ⟨schedules', v, r', e, _⟩ := several_ends (kind := kind) hd hplan hroot hl (after.map parse)
            ⟨st'.fs, st'.clock, r.builds ++ [(parse name, st')], r.total + n⟩ fun p hp => Build.exists_exec hx' (hex p hp)
          refine ⟨schedules', v, r', ?_⟩
          simp only [Build.compileSeveral, ht, hok', if_true, hx', hn]
          exact e
        · refine ⟨[], .failed (parse name), ⟨st'.fs, st'.clock, r.builds ++ [(parse name, st')], r.total⟩, ?_⟩
          simp only [Build.compileSeveral, ht, hok', if_true, hx', hn]
      obtain ⟨schedules', v, r', e⟩ := hfin
      have hall : Build.compileSeveral (s.setup tree kind) ((before ++ name :: after).map parse) (schedules ++ (as ++ as') :: schedules') (.start d.fs now) =
          some (v, r') := by
        rw [List.map_append, several_append (by simpa using hlen) hbefore]
        exact e
      refine ⟨as', st', schedules', v, r', g1, g2, hall, ?_⟩
      cases v with
      | completed n => exact .named hplan hl hwhat hall
      | unknown _ => exact .namedFails hplan hl hwhat hall (by simp)
      | cyclic _ => exact .namedFails hplan hl hwhat hall (by simp)
      | failed _ => exact .namedFails hplan hl hwhat hall (by simp)

end

/-- **C87.** For every command line and every file system with finitely many files there is a run of the program that ends. -/
theorem C87_ends (hd : d.Ok) (hfin : d.Finite) (hroot : ∀ s, plan m d args = .run s → (d.fs s.job.sourceDir.normal).isSome) :
    ∃ status out fs, Ends m kind d now args status out fs := by
  cases hplan : plan m d args with
  | print i => exact ⟨_, _, _, .printed hplan⟩
  | abort => exact ⟨_, _, _, .aborted hplan⟩
  | run s =>
    obtain ⟨n, t, hs, hr⟩ := (C87_scan hd hfin hplan).2 0 _ .refl
    cases hres : takeResult t with
    | none => exact absurd hres hr
    | some x =>
      cases x with
      | error e => exact ⟨_, _, _, .scanFails hplan hs hres⟩
      | ok files =>
        cases htree : Db.load (srcList files) with
        | error e => exact ⟨_, _, _, .treeFails hplan hs hres htree⟩
        | ok tree =>
          have hl : Loads s.job d files tree := ⟨⟨n, t, hs, hres⟩, htree⟩
          cases hwhat : s.what with
          | list => exact ⟨_, _, _, .listed hplan hl hwhat⟩
          | graph => exact ⟨_, _, _, .graph hplan hl hwhat⟩
          | all =>
            by_cases hok : (Db.taskListAll tree.graph).1 = .ok
            · obtain ⟨_, _, status, _, _, h, _⟩ := ((C87_all (kind := kind) (now := now) hd hplan (hroot s hplan) hl hwhat hok).2 [] _ rfl
                (by simp [NoException, Build.init, TaskList.init])).2
              exact ⟨_, _, _, h⟩
            · exact ⟨_, _, _, .cyclic hplan hl hwhat hok⟩
          | targets names =>
            obtain ⟨schedules, v, st', e, _⟩ := several_ends (kind := kind) hd hplan (hroot s hplan) hl (names.map parse) (.start d.fs now) fun _ h => h
            cases v with
            | completed n => exact ⟨_, _, _, .named hplan hl hwhat e⟩
            | unknown _ => exact ⟨_, _, _, .namedFails hplan hl hwhat e (by simp)⟩
            | cyclic _ => exact ⟨_, _, _, .namedFails hplan hl hwhat e (by simp)⟩
            | failed _ => exact ⟨_, _, _, .namedFails hplan hl hwhat e (by simp)⟩

end Maike.Main
