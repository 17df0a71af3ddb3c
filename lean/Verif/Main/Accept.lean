import Verif.Build.Accept
import Verif.Main.Request
import Verif.Main.Ends

/-!
# Which projects are built (C102)

Before anything is executed, it is found out whether the project can be built: files that cannot be read, targets with two sources, missing files and circles of
dependencies lead to the status -1, and no file is changed. If there is nothing of that kind, only a command that fails can make the program fail.
-/

namespace Maike.Main

open Fs Tree Paths

/-! ## Specification -/

/-- All files can be loaded, and all directories can be listed. -/
structure Readable (j : Job) (d : Disk) : Prop where
  files : ∀ p, (j.world d).Reached p → (j.world d).Passes p → ∃ i, Scanned j d p i
  dirs : ∀ p, (j.world d).Reached p → (j.world d).Enters p → (d.names p.normal).2 = none

/-- There is something of that name: a file of the project, a target of such a file, or something from outside of the project that is declared as a dependency under that name. -/
inductive Available (j : Job) (d : Disk) : Path → Prop
  | file {p : Path} {i : FileInfo} : Scanned j d p i → Available j d p.normal
  | target {p : Path} {i : FileInfo} {t : TTarget} : Scanned j d p i → t ∈ i.targets → Available j d t.name
  | outside {a : Path} {x : TDep} : DependsOn j d a x → x.origin = .system ∨ x.origin = .pkgConfig → Available j d x.name
  | outsideTarget {p : Path} {i : FileInfo} {t : TTarget} {x : TDep} : Scanned j d p i → t ∈ i.targets → x ∈ t.useDeps →
      x.origin = .system ∨ x.origin = .pkgConfig → Available j d x.name

/-- No name is the name of two targets. A target with the name of its source, such as the target of a directory when the source directory is also the target directory, is not
taken into account. -/
structure SingleSources (j : Job) (d : Disk) : Prop where
  within : ∀ p i, Scanned j d p i → ((i.targets.map TTarget.name).filter fun n => p.normal ≠ n).Nodup
  between : ∀ p i q k t t', Scanned j d p i → Scanned j d q k → t ∈ i.targets → t' ∈ k.targets → t.name = t'.name → t.name ≠ p.normal → t'.name ≠ q.normal →
    p.normal = q.normal

/-- The file uses itself, through other files of the project. -/
def Circular (j : Job) (d : Disk) (a : Path) : Prop :=
  ∃ p i x, UsesFound j d a p.normal ∧ Scanned j d p i ∧ x ∈ i.useDeps ∧ x.name = a

/-- What is needed for information about the project, and for the construction of a part of it. -/
structure Sound (j : Job) (d : Disk) : Prop where
  readable : Readable j d
  sources : SingleSources j d
  available : ∀ a x, DependsOn j d a x → Available j d x.name
  noCircle : ∀ p i t, Scanned j d p i → t ∈ i.targets → t.name ≠ p.normal → ∀ a, UsesFound j d p.normal a → ¬ Circular j d a

/-- What is needed for the construction of everything. -/
structure Buildable (j : Job) (d : Disk) : Prop where
  readable : Readable j d
  sources : SingleSources j d
  available : ∀ a x, DependsOn j d a x → Available j d x.name
  acyclic : ∀ a, ¬ Requires j d a a

/-! ## Proof -/

variable {j : Job} {d : Disk}

theorem covers_of_finds (hw : (j.world d).Ok) {files : List (Path × FileInfo)} (hl : Finds j d files) : Covers j d files := by
  intro x
  constructor
  · intro hx
    obtain ⟨⟨k, i⟩, hy, rfl⟩ := List.mem_map.mp hx
    obtain ⟨p, h1, rfl⟩ := (mem_of_finds hw hl _ _).mp hy
    exact ⟨p, i, h1, rfl⟩
  · rintro ⟨p, i, h, rfl⟩
    exact List.mem_map.mpr ⟨_, (mem_of_finds hw hl _ _).mpr ⟨p, h, rfl⟩, rfl⟩

/-- The scan succeeds if everything can be read. -/
theorem readable_iff (hw : (j.world d).Ok) {n : Nat} {s : Scan FileInfo} (h : Steps (j.world d) n (Scan.init (j.world d)) s)
    {r : Except Str (List (Path × FileInfo))} (hr : takeResult s = some r) : (∃ files, r = .ok files) ↔ Readable j d := by
  have h1 := C50_throws hw h hr
  have h2 : (∃ files, r = .ok files) ↔ ¬ ∃ text, r = .error text := by cases r <;> simp
  rw [h2, h1]
  constructor
  · intro hno
    constructor
    · intro p hp hps
      cases he : Tree.load (j.env d) p j.sourceDir j.targetDir with
      | some i => exact ⟨i, hp, hps, he⟩
      | none => exact absurd ⟨p, j.message p, hp, .load hps (by simp [Job.world, he])⟩ hno
    · intro p hp hen
      cases he : (d.names p.normal).2 with
      | none => rfl
      | some m => exact absurd ⟨p, m, hp, .names hen he⟩ hno
  · rintro hre ⟨p, m, hp, hs⟩
    cases hs with
    | filter _ _ h => simp [Job.world] at h
    | load hps h =>
      obtain ⟨i, hi⟩ := hre.files p hp hps
      rw [(world_load).mpr hi.2.2] at h
      cases h
    | isDir _ _ h => simp [Job.world] at h
    | names hen h =>
      have := hre.dirs p hp hen
      simp only [Job.world] at h
      rw [this] at h
      cases h

section
variable {files : List (Path × FileInfo)} (hm : Covers j d files)
include hm

omit hm in
theorem external_iff {o : Db.Origin} : o = .system ∨ o = .pkgConfig ↔ Db.isExternal o = true := by cases o <;> simp [Db.isExternal]

theorem known_iff {b : Path} : Available j d b ↔ Build.Available (srcList files) b := by
  constructor
  · intro h
    cases h with
    | file h => exact .file ⟨_, (hm _).mpr ⟨_, _, h, rfl⟩⟩
    | @target p i t h1 h2 => exact .target (t := ⟨t.name, t.useDeps.map toDep⟩) ((hm _).mpr ⟨p, i, h1, rfl⟩) (List.mem_map.mpr ⟨t, h2, rfl⟩)
    | @outside a x h1 h2 => exact .outside (e := toDep x) ((covers_refers_iff hm).mp ⟨x, h1, rfl⟩) (external_iff.mp h2)
    | @outsideTarget p i t x h1 h2 h3 h4 =>
      exact .outsideTarget (t := ⟨t.name, t.useDeps.map toDep⟩) (e := toDep x) ((hm _).mpr ⟨p, i, h1, rfl⟩) (List.mem_map.mpr ⟨t, h2, rfl⟩)
        (List.mem_map.mpr ⟨x, h3, rfl⟩) (external_iff.mp h4)
  · intro h
    cases h with
    | file h =>
      obtain ⟨q, k, hq, rfl⟩ := (covers_hasFile_iff hm).mp h
      exact .file hq
    | target h1 h2 =>
      obtain ⟨p, i, hs, rfl⟩ := (hm _).mp h1
      obtain ⟨t, ht, rfl⟩ := List.mem_map.mp h2
      exact .target hs ht
    | outside h1 h2 =>
      obtain ⟨x, hx, rfl⟩ := (covers_refers_iff hm).mpr h1
      exact .outside hx (external_iff.mpr h2)
    | outsideTarget h1 h2 h3 h4 =>
      obtain ⟨p, i, hs, rfl⟩ := (hm _).mp h1
      obtain ⟨t, ht, rfl⟩ := List.mem_map.mp h2
      obtain ⟨x, hx, rfl⟩ := List.mem_map.mp h3
      exact .outsideTarget hs ht hx (external_iff.mpr h4)

theorem sources_iff : SingleSources j d ↔ Build.OneSource (srcList files) := by
  have hn : ∀ i : FileInfo, i.toSrcInfo.targets.map Db.TargetInfo.name = i.targets.map TTarget.name := by
    intro i; simp [FileInfo.toSrcInfo, List.map_map, Function.comp_def]
  constructor
  · rintro ⟨h1, h2⟩
    constructor
    · intro x hx
      obtain ⟨p, i, hs, rfl⟩ := (hm _).mp hx
      simp only [hn]
      exact h1 p i hs
    · intro x hx y hy t ht t' ht'
      obtain ⟨p, i, hs, rfl⟩ := (hm _).mp hx
      obtain ⟨q, k, hq, rfl⟩ := (hm _).mp hy
      obtain ⟨u, hu, rfl⟩ := List.mem_map.mp ht
      obtain ⟨u', hu', rfl⟩ := List.mem_map.mp ht'
      exact h2 p i q k u u' hs hq hu hu'
  · rintro ⟨h1, h2⟩
    constructor
    · intro p i hs
      have := h1 _ ((hm _).mpr ⟨p, i, hs, rfl⟩)
      simpa only [hn] using this
    · intro p i q k t t' hs hq ht ht'
      exact h2 _ ((hm _).mpr ⟨p, i, hs, rfl⟩) _ ((hm _).mpr ⟨q, k, hq, rfl⟩) ⟨t.name, t.useDeps.map toDep⟩ (List.mem_map.mpr ⟨t, ht, rfl⟩)
        ⟨t'.name, t'.useDeps.map toDep⟩ (List.mem_map.mpr ⟨t', ht', rfl⟩)

theorem circular_iff {a : Path} : Circular j d a ↔ Build.InCircle (srcList files) a := by
  constructor
  · rintro ⟨p, i, x, h1, h2, h3, rfl⟩
    exact ⟨p.normal, i.toSrcInfo, toDep x, (covers_usesFound_iff hm).mp h1, (hm _).mpr ⟨p, i, h2, rfl⟩, List.mem_map.mpr ⟨x, h3, rfl⟩, rfl⟩
  · rintro ⟨r, i, e, h1, h2, h3, rfl⟩
    obtain ⟨p, i', hs, e⟩ := (hm _).mp h2
    injection e with e1 e2
    subst e1 e2
    obtain ⟨x, hx, rfl⟩ := List.mem_map.mp h3
    exact ⟨p, i', x, (covers_usesFound_iff hm).mpr h1, hs, hx, rfl⟩

theorem available_iff : (∀ a x, DependsOn j d a x → Available j d x.name) ↔ ∀ a e, Build.Refers (srcList files) a e → Build.Available (srcList files) e.name := by
  constructor
  · intro h a e he
    obtain ⟨x, hx, rfl⟩ := (covers_refers_iff hm).mpr he
    exact (known_iff hm).mp (h a x hx)
  · intro h a x hx
    exact (known_iff hm).mpr (h a (toDep x) ((covers_refers_iff hm).mp ⟨x, hx, rfl⟩))

theorem sound_iff (hre : Readable j d) : Sound j d ↔ Build.Loadworthy (srcList files) := by
  have hcirc : (∀ p i t, Scanned j d p i → t ∈ i.targets → t.name ≠ p.normal → ∀ a, UsesFound j d p.normal a → ¬ Circular j d a) ↔
      ∀ x ∈ srcList files, ∀ t ∈ x.2.targets, t.name ≠ x.1 → ∀ q, Build.Uses (srcList files) x.1 q → ¬ Build.InCircle (srcList files) q := by
    constructor
    · intro h x hx t ht hne q hq hc
      obtain ⟨p, i, hs, rfl⟩ := (hm _).mp hx
      obtain ⟨u, hu, rfl⟩ := List.mem_map.mp ht
      exact h p i u hs hu hne q ((covers_usesFound_iff hm).mpr hq) ((circular_iff hm).mpr hc)
    · intro h p i t hs ht hne a ha hc
      exact h _ ((hm _).mpr ⟨p, i, hs, rfl⟩) ⟨t.name, t.useDeps.map toDep⟩ (List.mem_map.mpr ⟨t, ht, rfl⟩) hne a ((covers_usesFound_iff hm).mp ha) ((circular_iff hm).mp hc)
  constructor
  · rintro ⟨_, h1, h2, h3⟩
    exact ⟨(sources_iff hm).mp h1, (available_iff hm).mp h2, hcirc.mp h3⟩
  · rintro ⟨h1, h2, h3⟩
    exact ⟨hre, (sources_iff hm).mpr h1, (available_iff hm).mpr h2, hcirc.mpr h3⟩

end

/-- What has been loaded is sound. -/
theorem sound_of_loads (hw : (j.world d).Ok) (hap : Apart j d) {files : List (Path × FileInfo)} {tree : Db.SourceTree Path} (hl : Loads j d files tree) : Sound j d := by
  have hm := covers_of_finds hw hl.1
  have hre : Readable j d := by
    obtain ⟨n, s, hs, hr⟩ := hl.1
    exact (readable_iff hw hs hr).mp ⟨_, rfl⟩
  exact (sound_iff hm hre).mpr ((Build.loads_iff (loadable_of_finds hw hl.1) (covers_apart hm hap)).mp ⟨tree, hl.2⟩)

/-- What is sound is loaded. -/
theorem loads_of_sound (hw : (j.world d).Ok) (hap : Apart j d) (h : Sound j d) {n : Nat} {s : Scan FileInfo} (hs : Steps (j.world d) n (Scan.init (j.world d)) s)
    {r : Except Str (List (Path × FileInfo))} (hr : takeResult s = some r) : ∃ files tree, r = .ok files ∧ Db.load (srcList files) = .ok tree := by
  obtain ⟨files, rfl⟩ := (readable_iff hw hs hr).mpr h.readable
  have hf : Finds j d files := ⟨n, s, hs, hr⟩
  have hm := covers_of_finds hw hf
  obtain ⟨tree, ht⟩ := (Build.loads_iff (loadable_of_finds hw hf) (covers_apart hm hap)).mpr ((sound_iff hm h.readable).mp h)
  exact ⟨files, tree, rfl, ht⟩

theorem acyclic_iff (hw : (j.world d).Ok) (hap : Apart j d) {files : List (Path × FileInfo)} {tree : Db.SourceTree Path} (hl : Loads j d files tree) :
    (Db.taskListAll tree.graph).1 = .ok ↔ ∀ a, ¬ Requires j d a a := by
  have hm := covers_of_finds hw hl.1
  rw [Build.tasks_iff (loadable_of_finds hw hl.1) (covers_apart hm hap) hl.2]
  simp only [covers_requires_iff hm]

theorem buildable_sound (h : Buildable j d) : Sound j d := by
  refine ⟨h.readable, h.sources, h.available, fun p i t hs ht hne a ha hc => ?_⟩
  have huse : ∀ {a b}, UsesFound j d a b → b = a ∨ Requires j d a b := by
    intro a b h
    induction h with
    | refl => exact .inl rfl
    | step _ h1 h2 h3 h4 ih =>
      rcases ih with e | ih
      · rw [← e]; exact .inr (.single (.use h1 h2))
      · exact .inr (.tail ih (.use h1 h2))
  obtain ⟨q, k, x, h1, h2, h3, rfl⟩ := hc
  rcases huse h1 with e | h1
  · have := Requires.single (DependsOn.use h2 h3)
    rw [e] at this
    exact h.acyclic _ this
  · exact h.acyclic _ (.tail h1 (.use h2 h3))

variable {m : Machine} {args : List Str} {kind : Path → Bool} {now : Nat}

/-! ## C102 -/

/-- **C102.** A project in which some file cannot be read, a target has two sources, something is missing, or something that leads to a target leads to a circle of files, is rejected: whatever
the program has been asked to do with it, and whatever the schedule is, it returns -1, prints nothing, and changes no file. -/
theorem C102_rejected {s : Settings} (hd : d.Ok) (hplan : plan m d args = .run s) (hap : Apart s.job d) (hbad : ¬ Sound s.job d) {status : Int} {out : Output}
    {fs : Build.FileSys Path} (h : Ends m kind d now args status out fs) : status = -1 ∧ out = .nothing ∧ fs = d.fs := by
  have hw := world_ok_of hd hplan
  cases h with
  | printed e => rw [hplan] at e; cases e
  | aborted e => rw [hplan] at e; cases e
  | scanFails _ _ _ => exact ⟨rfl, rfl, rfl⟩
  | treeFails _ _ _ _ => exact ⟨rfl, rfl, rfl⟩
  | listed e hl _ => rw [hplan] at e; injection e with e; subst e; exact absurd (sound_of_loads hw hap hl) hbad
  | graph e hl _ => rw [hplan] at e; injection e with e; subst e; exact absurd (sound_of_loads hw hap hl) hbad
  | cyclic e hl _ _ => rw [hplan] at e; injection e with e; subst e; exact absurd (sound_of_loads hw hap hl) hbad
  | built e hl _ _ _ _ => rw [hplan] at e; injection e with e; subst e; exact absurd (sound_of_loads hw hap hl) hbad
  | failed e hl _ _ _ _ => rw [hplan] at e; injection e with e; subst e; exact absurd (sound_of_loads hw hap hl) hbad
  | named e hl _ _ => rw [hplan] at e; injection e with e; subst e; exact absurd (sound_of_loads hw hap hl) hbad
  | namedFails e hl _ _ _ => rw [hplan] at e; injection e with e; subst e; exact absurd (sound_of_loads hw hap hl) hbad

/-- **C102.** If everything is to be built, then a project that cannot be built is rejected before anything is executed. In particular, this happens if there
is a file that depends on itself, anywhere in the project. -/
theorem C102_all {s : Settings} (hd : d.Ok) (hplan : plan m d args = .run s) (hap : Apart s.job d) (h1 : ¬ Given args "--list-targets") (h2 : ¬ Given args "--print-dep-graph")
    (h3 : ¬ Given args "--targets") (hbad : ¬ Buildable s.job d) {status : Int} {out : Output} {fs : Build.FileSys Path}
    (h : Ends m kind d now args status out fs) : status = -1 ∧ out = .nothing ∧ fs = d.fs := by
  by_cases hs : Sound s.job d
  · have hw := world_ok_of hd hplan
    have hall := (what_of hplan).2.2.1.mpr ⟨h1, h2, h3⟩
    have hno : ∀ files tree, Loads s.job d files tree → (Db.taskListAll tree.graph).1 ≠ .ok := by
      intro files tree hl hok
      exact hbad ⟨hs.readable, hs.sources, hs.available, (acyclic_iff hw hap hl).mp hok⟩
    cases h with
    | printed e => rw [hplan] at e; cases e
    | aborted e => rw [hplan] at e; cases e
    | scanFails _ _ _ => exact ⟨rfl, rfl, rfl⟩
    | treeFails _ _ _ _ => exact ⟨rfl, rfl, rfl⟩
    | listed e hl ew => rw [hplan] at e; injection e with e; subst e; rw [hall] at ew; cases ew
    | graph e hl ew => rw [hplan] at e; injection e with e; subst e; rw [hall] at ew; cases ew
    | cyclic e hl _ _ => exact ⟨rfl, rfl, rfl⟩
    | built e hl _ hok _ _ => rw [hplan] at e; injection e with e; subst e; exact absurd hok (hno _ _ hl)
    | failed e hl _ hok _ _ => rw [hplan] at e; injection e with e; subst e; exact absurd hok (hno _ _ hl)
    | named e hl ew _ => rw [hplan] at e; injection e with e; subst e; rw [hall] at ew; cases ew
    | namedFails e hl ew _ _ => rw [hplan] at e; injection e with e; subst e; rw [hall] at ew; cases ew
  · exact C102_rejected hd hplan hap hs h

/-- **C102.** Information about a sound project can always be had. -/
theorem C102_info {s : Settings} (hd : d.Ok) (hplan : plan m d args = .run s) (hap : Apart s.job d) (hq : Given args "--list-targets" ∨ Given args "--print-dep-graph")
    (hgood : Sound s.job d) {status : Int} {out : Output} {fs : Build.FileSys Path} (h : Ends m kind d now args status out fs) :
    status = 0 ∧ ∃ lines, out = .lines lines := by
  have hw := world_ok_of hd hplan
  obtain ⟨w1, w2, w3, _, _, _⟩ := what_of hplan
  have hwhat : s.what = .list ∨ s.what = .graph := by
    rcases hq with hq | hq
    · exact .inl (w1.mpr hq)
    · by_cases hl : Given args "--list-targets"
      · exact .inl (w1.mpr hl)
      · exact .inr (w2.mpr ⟨hl, hq⟩)
  cases h with
  | printed e => rw [hplan] at e; cases e
  | aborted e => rw [hplan] at e; cases e
  | scanFails e hs hr =>
    rw [hplan] at e; injection e with e; subst e
    obtain ⟨files, tree, he, _⟩ := loads_of_sound hw hap hgood hs hr
    cases he
  | treeFails e hs hr ht =>
    rw [hplan] at e; injection e with e; subst e
    obtain ⟨files, tree, he, ht'⟩ := loads_of_sound hw hap hgood hs hr
    injection he with he
    subst he
    rw [ht'] at ht
    cases ht
  | listed _ _ _ => exact ⟨rfl, _, rfl⟩
  | graph _ _ _ => exact ⟨rfl, _, rfl⟩
  | cyclic e hl ew _ => rw [hplan] at e; injection e with e; subst e; rw [ew] at hwhat; simp at hwhat
  | built e hl ew _ _ _ => rw [hplan] at e; injection e with e; subst e; rw [ew] at hwhat; simp at hwhat
  | failed e hl ew _ _ _ => rw [hplan] at e; injection e with e; subst e; rw [ew] at hwhat; simp at hwhat
  | named e hl ew _ => rw [hplan] at e; injection e with e; subst e; rw [ew] at hwhat; simp at hwhat
  | namedFails e hl ew _ _ => rw [hplan] at e; injection e with e; subst e; rw [ew] at hwhat; simp at hwhat

/-- **C102.** A project that can be built is not rejected: the program returns 0 after a task has succeeded for each file that something is made from, unless a command
fails or there is an exception while a task is performed. -/
theorem C102_accepted {s : Settings} (hd : d.Ok) (hplan : plan m d args = .run s) (hap : Apart s.job d) (h1 : ¬ Given args "--list-targets") (h2 : ¬ Given args "--print-dep-graph")
    (h3 : ¬ Given args "--targets") (hgood : Buildable s.job d) {status : Int} {out : Output} {fs : Build.FileSys Path}
    (h : Ends m kind d now args status out fs) :
    out = .nothing ∧ ∃ files tree as st, Loads s.job d files tree ∧ Build.exec (s.build tree kind) as (Build.init (s.build tree kind) d.fs now) = some st ∧ st.fs = fs ∧
      ((status = 0 ∧ ∀ p i, Scanned s.job d p i → i.targets ≠ [] → ∃ t, ((s.build tree kind).task t).src = p.normal ∧ .finish t .success ∈ st.sched.hist) ∨
       (status = -1 ∧ ∃ t, .finish t .failure ∈ st.sched.hist ∨ .finish t .threw ∈ st.sched.hist)) := by
  have hw := world_ok_of hd hplan
  have hall := (what_of hplan).2.2.1.mpr ⟨h1, h2, h3⟩
  have hsound := buildable_sound hgood
  have hreach : ∀ {tree as st}, Build.exec (s.build tree kind) as (Build.init (s.build tree kind) d.fs now) = some st →
      TaskList.Reachable (s.build tree kind).job st.sched := by
    intro tree as st hx
    exact Build.exec_induction (Q := fun st => TaskList.Reachable (s.build tree kind).job st.sched) (fun _ _ _ h1 h2 => Build.reachable_step h1 h2) ⟨[], rfl⟩ hx
  have htopo : ∀ {files tree}, Loads s.job d files tree → (Db.taskListAll tree.graph).1 = .ok →
      (∀ u, u ∈ (Db.taskListAll tree.graph).2 ↔ tree.graph.Builds u) ∧ (s.build tree kind).job.Topological := by
    intro files tree hl hok
    obtain ⟨_, files3, _, _, _, hg, s3⟩ := Build.load_ok (loadable_of_ok hw hl).sorted hl.2
    obtain ⟨g1, g2⟩ := (Db.C21_all_tasks files3 s3 hg).2 hok
    exact ⟨g1, g2 s.job.workers⟩
  cases h with
  | printed e => rw [hplan] at e; cases e
  | aborted e => rw [hplan] at e; cases e
  | scanFails e hs hr =>
    rw [hplan] at e; injection e with e; subst e
    obtain ⟨files, tree, he, _⟩ := loads_of_sound hw hap hsound hs hr
    cases he
  | treeFails e hs hr ht =>
    rw [hplan] at e; injection e with e; subst e
    obtain ⟨files, tree, he, ht'⟩ := loads_of_sound hw hap hsound hs hr
    injection he with he
    subst he
    rw [ht'] at ht
    cases ht
  | listed e hl ew => rw [hplan] at e; injection e with e; subst e; rw [hall] at ew; cases ew
  | graph e hl ew => rw [hplan] at e; injection e with e; subst e; rw [hall] at ew; cases ew
  | cyclic e hl _ hno => rw [hplan] at e; injection e with e; subst e; exact absurd ((acyclic_iff hw hap hl).mpr hgood.acyclic) hno
  | @built s' files tree as st n e hl _ hok hx hn =>
    rw [hplan] at e; injection e with e; subst e
    refine ⟨rfl, files, tree, as, st, hl, hx, rfl, .inl ⟨rfl, fun p i hs hi => ?_⟩⟩
    obtain ⟨g1, g2⟩ := htopo hl hok
    obtain ⟨u, info, hu, htg, _⟩ := Build.file_kept (loadable_of_ok hw hl) hl.2 ((covers_of_finds hw hl.1 _).mpr ⟨p, i, hs, rfl⟩)
    have hne : info.targets ≠ [] := by
      rw [htg]
      simpa [FileInfo.toSrcInfo] using hi
    have hmem := (g1 u).mpr ⟨_, info, hu, hne⟩
    refine ⟨u, ?_, ((TaskList.C20_returns_complete g2 (hreach hx) hn).2 u hmem).2⟩
    show (Build.makeTask tree.graph u).src = p.normal
    simp [Build.makeTask, hu]
  | @failed s' files tree as st n e hl _ hok hx hn =>
    rw [hplan] at e; injection e with e; subst e
    obtain ⟨_, g2⟩ := htopo hl hok
    exact ⟨rfl, files, tree, as, st, hl, hx, rfl, .inr ⟨rfl, n, (TaskList.inv g2 (hreach hx)).c.ended_thr n hn⟩⟩
  | named e hl ew _ => rw [hplan] at e; injection e with e; subst e; rw [hall] at ew; cases ew
  | namedFails e hl ew _ _ => rw [hplan] at e; injection e with e; subst e; rw [hall] at ew; cases ew

/-- The target of that name can be built: it is made from some file, and this file does not lead to a circle. -/
def Feasible (j : Job) (d : Disk) (b : Path) : Prop :=
  ∃ p i t, Scanned j d p i ∧ t ∈ i.targets ∧ t.name = b ∧ t.name ≠ p.normal ∧ ∀ a, a = p.normal ∨ Requires j d p.normal a → ¬ Requires j d a a

/-- Whether a target is found, and tasks can be made for it. -/
theorem feasible_iff {s : Settings} (hd : d.Ok) (hplan : plan m d args = .run s) (hap : Apart s.job d) {files : List (Path × FileInfo)} {tree : Db.SourceTree Path}
    (hl : Loads s.job d files tree) (name : Str) :
    (∃ t, Build.getTarget (s.setup tree kind) (parse name) = some t ∧ (Db.taskListFor tree.graph t.sourceFilename).1 = .ok) ↔
      Feasible s.job d (s.job.targetDir / parse name) := by
  have hw := world_ok_of hd hplan
  have hm := covers_of_finds hw hl.1
  have hL := loadable_of_ok hw hl
  obtain ⟨_, _, hc, _, _, _, _⟩ := Build.load_ok hL.sorted hl.2
  obtain ⟨hsorted, hmem⟩ := (Db.C08_one_owner (srcList files)).2 _ hc
  have hloc : (s.setup tree kind).locate (parse name) = s.job.targetDir / parse name := rfl
  have hget : ∀ t, Build.getTarget (s.setup tree kind) (parse name) = some t ↔ (s.job.targetDir / parse name, t) ∈ tree.targets := by
    intro t
    unfold Build.getTarget
    rw [hloc]
    exact ⟨Db.Map.lookup_mem, Db.Map.lookup_of_mem hsorted⟩
  have hfor : ∀ p i, Scanned s.job d p i → ((Db.taskListFor tree.graph p.normal).1 = .ok ↔ ∀ a, a = p.normal ∨ Requires s.job d p.normal a → ¬ Requires s.job d a a) := by
    intro p i hs
    rw [Build.tasksFor_iff hL (covers_apart hm hap) hl.2 ⟨_, (hm _).mpr ⟨p, i, hs, rfl⟩⟩]
    simp only [covers_requires_iff hm]
  constructor
  · rintro ⟨t, ht, hok⟩
    obtain ⟨info, h1, h2, h3, h4⟩ := (hmem _ _).mp ((hget t).mp ht)
    obtain ⟨p, i, hs, e⟩ := (hm _).mp h1
    injection e with e1 e2
    subst e2
    obtain ⟨u, hu, e3⟩ := List.mem_map.mp h2
    rw [e1] at hok h3
    have hn := hL.normal _ h1 _ h2
    rw [hn, ← e3] at h4
    rw [← e3] at h3
    exact ⟨p, i, u, hs, hu, h4.symm, h3, (hfor p i hs).mp hok⟩
  · rintro ⟨p, i, t, hs, ht, hb, hne, hac⟩
    have h1 := (hm _).mpr ⟨p, i, hs, rfl⟩
    have h2 : (⟨t.name, t.useDeps.map toDep⟩ : Db.TargetInfo Path) ∈ i.toSrcInfo.targets := List.mem_map.mpr ⟨t, ht, rfl⟩
    refine ⟨⟨p.normal, ⟨t.name, t.useDeps.map toDep⟩⟩, (hget _).mpr ((hmem _ _).mpr ⟨_, h1, h2, hne, ?_⟩), (hfor p i hs).mpr hac⟩
    rw [hL.normal _ h1 _ h2, ← hb]

/-- **C102.** If targets have been named, and one of them is not made from any file, or the file that it is made from leads to a circle of dependencies, then the program fails. If this is the
first one, then nothing is executed. -/
theorem C102_named {s : Settings} (hd : d.Ok) (hplan : plan m d args = .run s) (hap : Apart s.job d) (h1 : ¬ Given args "--list-targets") (h2 : ¬ Given args "--print-dep-graph")
    {value : Str} (h3 : LastValue args "--targets" value) {status : Int} {out : Output} {fs : Build.FileSys Path} (h : Ends m kind d now args status out fs) :
    (status = 0 → Sound s.job d ∧ ∀ name ∈ Cli.parseList value, Feasible s.job d (s.job.targetDir / parse name)) ∧
    ∀ name names, Cli.parseList value = name :: names → ¬ Feasible s.job d (s.job.targetDir / parse name) → fs = d.fs := by
  have hw := world_ok_of hd hplan
  have hall := (what_of hplan).2.2.2.2.2 value h1 h2 h3
  cases h with
  | printed e => rw [hplan] at e; cases e
  | aborted e => rw [hplan] at e; cases e
  | scanFails _ _ _ => exact ⟨by simp, fun _ _ _ _ => rfl⟩
  | treeFails _ _ _ _ => exact ⟨by simp, fun _ _ _ _ => rfl⟩
  | listed e hl ew => rw [hplan] at e; injection e with e; subst e; rw [hall] at ew; cases ew
  | graph e hl ew => rw [hplan] at e; injection e with e; subst e; rw [hall] at ew; cases ew
  | cyclic e hl ew _ => rw [hplan] at e; injection e with e; subst e; rw [hall] at ew; cases ew
  | built e hl ew _ _ _ => rw [hplan] at e; injection e with e; subst e; rw [hall] at ew; cases ew
  | failed e hl ew _ _ _ => rw [hplan] at e; injection e with e; subst e; rw [hall] at ew; cases ew
  | @named s' files tree names schedules n st e hl ew hx =>
    rw [hplan] at e; injection e with e; subst e
    rw [hall] at ew; injection ew with ew
    rw [ew]
    have hfeas := fun name => feasible_iff (kind := kind) hd hplan hap hl name
    have key : ∀ (names : List Str) (schedules : List (List (Build.Act Path))) (pr pr' : Build.Progress Path),
        Build.compileSeveral (s.setup tree kind) (names.map parse) schedules pr = some (.completed n, pr') →
        ∀ name ∈ names, Feasible s.job d (s.job.targetDir / parse name) := by
      intro names
      induction names with
      | nil => intro _ _ _ _ _ hn; cases hn
      | cons a names ih =>
        intro schedules pr pr' hc name hn
        simp only [List.map_cons, Build.compileSeveral] at hc
        split at hc
        · cases hc
        · rename_i t ht
          split at hc
          · rename_i hok
            split at hc
            · cases hc
            · split at hc
              · cases hc
              · split at hc
                · rcases List.mem_cons.mp hn with rfl | hn
                  · exact (hfeas _).mp ⟨t, ht, hok⟩
                  · exact ih _ _ _ hc name hn
                · cases hc
                · cases hc
          · cases hc
    refine ⟨fun _ => ⟨sound_of_loads hw hap hl, key names schedules _ _ hx⟩, fun name rest he hno => ?_⟩
    exact absurd (key names schedules _ _ hx name (by rw [he]; simp)) hno
  | @namedFails s' files tree names schedules v st e hl ew hx hv =>
    rw [hplan] at e; injection e with e; subst e
    rw [hall] at ew; injection ew with ew
    rw [ew]
    refine ⟨by simp, fun name rest he hno => ?_⟩
    rw [he, List.map_cons, Build.compileSeveral] at hx
    split at hx
    · simp only [Option.some.injEq, Prod.mk.injEq] at hx
      rw [← hx.2]; rfl
    · rename_i t ht
      split at hx
      · rename_i hok
        exact absurd ((feasible_iff (kind := kind) hd hplan hap hl name).mp ⟨t, ht, hok⟩) hno
      · simp only [Option.some.injEq, Prod.mk.injEq] at hx
        rw [← hx.2]; rfl

end Maike.Main
