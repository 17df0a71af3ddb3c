import Verif.Main.Program
import Verif.Main.RunExamples
import Verif.Tree.Regex

/-!
# What the filters leave out (C109)

The filters of a run are regular expressions (core/source_tree_loader/input_filter.cpp:7-44). With the ones that are used by default, a name is
left out if it begins with a dot or with two underscores. This is how a run sees the project, unless the source directory is given
in a way that is not in normal form, such as `./src`: all paths are compared with the source directory as it is written
(core/source_tree_loader/directory_scanner.cpp:50), though the directory is entered by its normal form (l. 69-80), so that the path relative
to it begins with `..`, and this is left out too.
-/

namespace Maike.Main

open Fs Tree Paths Kvs

/-! ## Specification -/

/-- The name begins with a dot or with two underscores. -/
def HiddenName (n : Str) : Prop := ['.'] <+: n ∨ ['_', '_'] <+: n

/-- `std::regex` is as in `Tree/Regex.lean`. -/
def RegularSearch (o : Outside) : Prop :=
  ∀ r items, Regex.compile r.toList = .ok items → ∀ s, o.search r s = Regex.search items s

/-- Both filters leave out what begins with a dot or with two underscores. -/
structure DefaultFilters (j : Job) : Prop where
  name : ∀ s, j.nameFilter s = true ↔ HiddenName s
  dir : ∀ s, j.dirFilter s = true ↔ HiddenName s

/-- The source directory, and everything in it that can be reached without hidden names. -/
inductive Visible (j : Job) (d : Disk) : Path → Prop
  | root : Visible j d j.sourceDir
  | entry {p n} : Visible j d p → Build.isDir d.fs p.normal = true → n ∈ (d.names p.normal).1 → ¬ HiddenName n →
      Visible j d (p.normal / ⟨false, [n], false⟩)

/-! ## Lemmas -/

variable {j : Job} {d : Disk}

theorem search_hidden {o : Outside} (h : RegularSearch o) (s : Str) :
    (["^\\.", "^__"].any fun r => o.search r s) = true ↔ HiddenName s := by
  have e1 : "^\\.".toList = '^' :: Regex.quote ['.'] := by decide +kernel
  have e2 : "^__".toList = '^' :: Regex.quote ['_', '_'] := by decide +kernel
  obtain ⟨i1, c1, h1⟩ := (Regex.C109_quoted ['.']).2.1
  obtain ⟨i2, c2, h2⟩ := (Regex.C109_quoted ['_', '_']).2.1
  simp only [List.any_cons, List.any_nil, Bool.or_false, Bool.or_eq_true]
  rw [h "^\\." i1 (by rw [e1]; exact c1), h "^__" i2 (by rw [e2]; exact c2), h1, h2]
  exact Iff.rfl

/-- A directory can always be loaded. -/
theorem load_dir {p : Path} (h : Build.isDir d.fs p.normal = true) : ∃ i, (j.world d).load p = .ok i := by
  have : ∃ i, Tree.load (j.env d) p j.sourceDir j.targetDir = some i := by
    unfold Tree.load
    simp only [Job.env, h, if_true]
    exact ⟨_, rfl⟩
  obtain ⟨i, hi⟩ := this
  exact ⟨i, world_load.mpr hi⟩

theorem enters_iff {p : Path} : (j.world d).Enters p ↔ (j.world d).Passes p ∧ Build.isDir d.fs p.normal = true := by
  have e : (j.world d).isDir p.normal = .ok (Build.isDir d.fs p.normal) := by
    show Except.ok (Build.isDir d.fs p.normal.normal) = _
    rw [normal_normal]
  constructor
  · rintro ⟨h1, _, h3⟩
    rw [e] at h3
    exact ⟨h1, by injection h3⟩
  · rintro ⟨h1, h2⟩
    exact ⟨h1, load_dir h2, by rw [e, h2]⟩

theorem joinNames_first (n : Str) (l : List Str) : ∃ s, joinNames (n :: l) = n ++ s ∧ (s = [] ∨ s.head? = some '/') := by
  cases l with
  | nil => exact ⟨[], by simp [joinNames], .inl rfl⟩
  | cons m l => exact ⟨'/' :: joinNames (m :: l), rfl, .inr rfl⟩

/-- Whether a path is hidden depends on its first name only. -/
theorem hidden_str (n : Str) (hn : n ≠ []) (l : List Str) (t : Bool) : HiddenName (Path.str ⟨false, n :: l, t⟩) ↔ HiddenName n := by
  obtain ⟨s, e, hs⟩ := joinNames_first n l
  have : ∃ s', Path.str ⟨false, n :: l, t⟩ = n ++ s' ∧ (s' = [] ∨ s'.head? = some '/') := by
    refine ⟨s ++ (if t then ['/'] else []), by simp [Path.str, e], ?_⟩
    rcases hs with rfl | hs
    · cases t <;> simp
    · right
      cases s with
      | nil => simp at hs
      | cons c s => simpa using hs
  obtain ⟨s', e', hs'⟩ := this
  rw [e']
  unfold HiddenName
  cases n with
  | nil => exact absurd rfl hn
  | cons c n =>
    cases n with
    | nil =>
      rcases hs' with rfl | hs'
      · simp
      · cases s' with
        | nil => simp at hs'
        | cons c' s' =>
          have : c' = '/' := by simpa using hs'
          subst this
          simp [List.cons_prefix_cons]
    | cons c' n => simp [List.cons_prefix_cons]

/-- The path relative to the source directory, if that is written without detours. -/
theorem relative_located {w : World FileInfo} (hplain : w.root.normal.names = w.root.names) {p : Path} {sub : List Str} (hl : Located w p sub)
    (hne : sub ≠ []) : ∃ t, p.relativeTo w.root = ⟨false, sub, t⟩ := by
  rcases List.eq_nil_or_concat sub with rfl | ⟨sub', n, rfl⟩
  · exact absurd rfl hne
  · have hnn : ∀ x ∈ sub' ++ [n], x ≠ [] := fun x hx => (hl.names x (by simpa using hx)).2.2
    have he := hl.isEntry sub' n (by simp)
    rw [he]
    refine ⟨false, ?_⟩
    simp only [List.concat_eq_append]
    by_cases hd : w.root.normal.names = [dot] ∧ sub' ≠ []
    · have hdot : w.root.names = [dot] := by rw [← hplain]; exact hd.1
      have hroot : w.root.root = false := by
        cases hr : w.root.root with
        | false => rfl
        | true =>
          have hn := normal_isNormal w.root
          have h2 : w.root.normal.root = true := by rw [normal_root, hr]
          generalize w.root.normal = q at hn h2 hd
          cases hn with
          | empty => cases h2
          | dot => cases h2
          | rel => cases h2
          | abs ns t h =>
            obtain ⟨h3, _⟩ := hd
            simp only at h3
            exact absurd rfl (h dot (by rw [h3]; simp)).2.1
      have : (inside w.root.normal sub').names = sub' := by unfold inside; simp [hd]
      rw [this, hroot]
      refine relativeTo_dot _ hdot hroot _ _ (by simp) hnn ?_
      intro h
      have : dot ∈ sub' ++ [n] := List.mem_of_mem_head? h
      exact (hl.names dot (by simpa using this)).2.1 rfl
    · have : (inside w.root.normal sub').names = w.root.names ++ sub' := by
        unfold inside
        rw [hplain] at hd ⊢
        simp only [if_neg hd]
      rw [this, List.append_assoc]
      exact relativeTo_inside w.root (sub' ++ [n]) false (by simp) hnn

/-- Where a path is located that is visible. -/
theorem visible_located (hw : (j.world d).Ok) {p : Path} (h : Visible j d p) :
    ∃ sub, Located (j.world d) p sub ∧ ∀ n ∈ sub, ¬ HiddenName n := by
  induction h with
  | root =>
    refine ⟨[], ⟨by simp, ?_, normal_root _, fun _ => rfl, by simp⟩, by simp⟩
    unfold inside
    simp [Job.world]
  | @entry p n _ _ hn hh ih =>
    obtain ⟨sub, h1, h2⟩ := ih
    refine ⟨_, located_entry hw h1 (hw.isName _ _ hn), fun m hm => ?_⟩
    rcases List.mem_append.mp hm with hm | hm
    · exact h2 m hm
    · simp only [List.mem_singleton] at hm
      subst hm; exact hh

theorem entryName (p : Path) {n : Str} (hn : IsName n) : (p.normal / ⟨false, [n], false⟩ : Path).filename = n := by
  rw [entry_eq _ _ hn]; simp [Path.filename]

/-- What passes the filters that are used by default. -/
theorem passes_default (hw : (j.world d).Ok) (hf : DefaultFilters j) (hplain : j.sourceDir.normal.names = j.sourceDir.names) {p : Path}
    {sub : List Str} {n : Str} (hl : Located (j.world d) p sub) (hsub : ∀ x ∈ sub, ¬ HiddenName x) (hn : IsName n)
    (hne : p.normal / ⟨false, [n], false⟩ ≠ j.sourceDir) :
    (j.world d).Passes (p.normal / ⟨false, [n], false⟩) ↔
      (j.recursive = true ∨ Build.isDir d.fs (p.normal / ⟨false, [n], false⟩ : Path).normal = false) ∧ ¬ HiddenName n := by
  have hloc := located_entry hw hl hn
  obtain ⟨t, hrel⟩ := relative_located (w := j.world d) hplain hloc (by simp)
  have hd : j.dirFilter ((p.normal / ⟨false, [n], false⟩ : Path).relativeTo j.sourceDir).str = true ↔
      HiddenName ((sub ++ [n]).headD []) := by
    have e : (p.normal / ⟨false, [n], false⟩ : Path).relativeTo j.sourceDir = ⟨false, sub ++ [n], t⟩ := hrel
    rw [e, hf.dir]
    cases sub with
    | nil => exact hidden_str n hn.2.2 [] t
    | cons x sub => exact hidden_str x (hl.names x (by simp)).2.2 _ t
  have hi : ∀ b : Bool, (j.world d).isDir (p.normal / ⟨false, [n], false⟩) = .ok b ↔
      Build.isDir d.fs (p.normal / ⟨false, [n], false⟩ : Path).normal = b := by
    intro b
    show Except.ok _ = _ ↔ _
    simp
  unfold World.Passes
  show _ ∨ ((j.recursive = true ∨ _) ∧ j.nameFilter _ = false ∧ j.dirFilter _ = false) ↔ _
  rw [hi, entryName _ hn]
  have h1 : j.nameFilter n = false ↔ ¬ HiddenName n := by rw [← hf.name]; simp
  have h2 : j.dirFilter ((p.normal / ⟨false, [n], false⟩ : Path).relativeTo j.sourceDir).str = false ↔ ¬ HiddenName ((sub ++ [n]).headD []) := by
    rw [← hd]; simp
  rw [h1]
  show _ ∨ _ ∧ _ ∧ j.dirFilter ((p.normal / ⟨false, [n], false⟩ : Path).relativeTo j.sourceDir).str = false ↔ _
  rw [h2]
  constructor
  · rintro (h | ⟨h, h', _⟩)
    · exact absurd h hne
    · exact ⟨h, h'⟩
  · rintro ⟨h, h'⟩
    refine .inr ⟨h, h', ?_⟩
    cases sub with
    | nil => exact h'
    | cons x sub => exact hsub x (by simp)

/-! ## Properties -/

/-- **C109 (default filters).** With the configuration that is used by default, each filter leaves out exactly what begins with a dot or with
two underscores. -/
theorem C109_default {m : Machine} (hm : RegularSearch m.outside) {args : List Str} {s : Settings} (hp : plan m d args = .run s)
    (hg : Given args "--config-default") : DefaultFilters s.job := by
  obtain ⟨c, cfg', loaders, hc, _, _, _, _, hcfg, _, rfl⟩ := plan_run hp
  have hdef := (configFor_of (m := m) hc).default hg
  rw [hdef] at hcfg
  obtain ⟨k, hk, hcfg⟩ := Option.bind_eq_some_iff.mp hcfg
  obtain ⟨ls, _, rfl⟩ := Option.map_eq_some_iff.mp hcfg
  exact ⟨fun s => search_hidden hm s, fun s => search_hidden hm s⟩

/-- **C109 (files of the project, partial).** With these filters, a scan with recursion finds exactly what can be reached from the source directory without
hidden names, and a scan without recursion the source directory and its files among them. Full property: for each way to write the
name of the source directory; here it is a name without `.` and `..` after another name, or `.` itself, see `C109_false`. -/
theorem C109_visible_partial (hw : (j.world d).Ok) (hf : DefaultFilters j) (hplain : j.sourceDir.normal.names = j.sourceDir.names) (p : Path) :
    (j.world d).Reached p ∧ (j.world d).Passes p ↔
      Visible j d p ∧ (j.recursive = true ∨ p = j.sourceDir ∨
        ((∃ n, p = j.sourceDir.normal / ⟨false, [n], false⟩) ∧ Build.isDir d.fs p.normal = false)) := by
  constructor
  · rintro ⟨hr, hp⟩
    have key : Visible j d p ∧ (j.recursive = false → p = j.sourceDir ∨
        ((∃ n, p = j.sourceDir.normal / ⟨false, [n], false⟩) ∧ Build.isDir d.fs p.normal = false)) := by
      induction hr with
      | root => exact ⟨.root, fun _ => .inl rfl⟩
      | @entry q n hq he hn ih =>
        obtain ⟨hv, hflat⟩ := ih he.1
        obtain ⟨sub, hl, hsub⟩ := visible_located hw hv
        have hname := hw.isName _ _ hn
        have hdir := (enters_iff.mp he).2
        obtain ⟨h1, h2⟩ := (passes_default hw hf hplain hl hsub hname (entry_ne_root hw hq hname)).mp hp
        refine ⟨.entry hv hdir hn h2, fun hrec => .inr ?_⟩
        rcases hflat hrec with e | ⟨_, h3⟩
        · rw [hrec] at h1
          refine ⟨⟨n, by rw [e]⟩, by simpa using h1⟩
        · rw [hdir] at h3; cases h3
    refine ⟨key.1, ?_⟩
    cases hrec : j.recursive with
    | true => exact .inl rfl
    | false => exact .inr (key.2 hrec)
  · rintro ⟨hv, hflat⟩
    have main : ∀ p, Visible j d p → (j.recursive = true ∨ p = j.sourceDir ∨
        ((∃ n, p = j.sourceDir.normal / ⟨false, [n], false⟩) ∧ Build.isDir d.fs p.normal = false)) →
        (j.world d).Reached p ∧ (j.world d).Passes p := by
      intro p hv
      induction hv with
      | root => exact fun _ => ⟨.root, .inl rfl⟩
      | @entry q n hv hdir hn hh ih =>
        intro hflat
        obtain ⟨sub, hl, hsub⟩ := visible_located hw hv
        have hname := hw.isName _ _ hn
        have hloc := located_entry hw hl hname
        have hq : (j.world d).Reached q ∧ (j.world d).Passes q := by
          rcases hflat with h | h | ⟨⟨n', e⟩, _⟩
          · exact ih (.inl h)
          · -- an entry is not the source directory
            exfalso
            have h3 : Located (j.world d) j.sourceDir [] := ⟨by simp, by unfold inside; simp [Job.world], normal_root _, fun _ => rfl, by simp⟩
            rw [h] at hloc
            have := inside_injective _ _ _ hloc.names h3.names (by rw [← hloc.normalNames, ← h3.normalNames])
            simp at this
          · -- the entry of the source directory is one of no other directory
            apply ih
            right; left
            by_cases hs : sub = []
            · exact hl.isRoot hs
            · exfalso
              have h3 : Located (j.world d) j.sourceDir [] := ⟨by simp, by unfold inside; simp [Job.world], normal_root _, fun _ => rfl, by simp⟩
              by_cases hn' : IsName n'
              · have h4 := located_entry hw h3 hn'
                rw [e] at hloc
                have := inside_injective _ _ _ hloc.names h4.names (by rw [← hloc.normalNames]; exact h4.normalNames)
                have := congrArg List.length this
                simp only [List.length_append, List.length_cons, List.length_nil] at this
                exact hs (List.length_eq_zero_iff.mp (by omega))
              · -- the last name of the path
                have h5 := entryName q hname
                rw [e] at h5
                have h6 : (j.sourceDir.normal / ⟨false, [n'], false⟩ : Path).filename = n' := by
                  show Path.filename (Path.append _ _) = _
                  simp [Path.append, Path.filename]
                rw [h6] at h5
                exact hn' (h5 ▸ hname)
        have hent : (j.world d).Enters q := enters_iff.mpr ⟨hq.2, hdir⟩
        refine ⟨.entry hq.1 hent hn, (passes_default hw hf hplain hl hsub hname (entry_ne_root hw hq.1 hname)).mpr ⟨?_, hh⟩⟩
        rcases hflat with h | h | ⟨_, h⟩
        · exact .inl h
        · exact absurd h (entry_ne_root hw hq.1 hname)
        · exact .inr h
    exact main p hv hflat

/-- **C109 (`./src`).** If the name of the source directory is written with `./` before it, nothing in this directory is seen by a run with the filters
that are used by default: no file and no directory other than the source directory itself is part of the project. -/
theorem C109_dot_slash (hw : (j.world d).Ok) (hf : DefaultFilters j) {ns : List Str} (hroot : j.sourceDir.root = false)
    (hdot : j.sourceDir.names = dot :: ns) (hns : ns ≠ []) (hnames : ∀ n ∈ ns, IsName n) {p : Path} {i : FileInfo} (hs : Scanned j d p i) :
    p = j.sourceDir := by
  obtain ⟨hr, hp, _⟩ := hs
  have hnormal : j.sourceDir.normal.names = ns := by
    have h1 : j.sourceDir.normal.root = false := by rw [normal_root, hroot]
    have h2 : (⟨false, ns, false⟩ : Path).normal = ⟨false, ns, false⟩ := normal_eq_self (by
      have := IsNormal.rel 0 ns false hnames (fun e => absurd e hns)
      simpa using this)
    have h3 := normal_unique j.sourceDir ⟨false, ns, false⟩ (by intro e; rw [e] at hdot; cases hdot)
      (by intro e; exact hns (congrArg Path.names e)) hroot (by
        intro cwd
        simp [walk, hroot, hdot, walkStep, dot, dotdot])
    rw [h2] at h3
    exact h3
  rcases hp with h | ⟨_, _, hd⟩
  · exact h
  · exfalso
    obtain ⟨sub, hl⟩ := located hw hr
    by_cases hsub : sub = []
    · -- the source directory itself: the relative path is `.`
      have hp := hl.isRoot hsub
      have e : p.relativeTo (j.world d).root = ⟨false, [dot], false⟩ := by
        rw [hp]
        unfold Path.relativeTo
        have hm : ∀ l : List Str, mismatch l l = ([], []) := by
          intro l
          have := mismatch_append l [] []
          simpa [mismatch] using this
        simp [hm]
      rw [e] at hd
      have : j.dirFilter (Path.str ⟨false, [dot], false⟩) = true := (hf.dir _).mpr (.inl (by decide +kernel))
      rw [show (j.world d).dirFilter = j.dirFilter from rfl, this] at hd
      cases hd
    · rcases List.eq_nil_or_concat sub with rfl | ⟨sub', n, rfl⟩
      · exact absurd rfl hsub
      · have he := hl.isEntry sub' n (by simp)
        obtain ⟨x, ns', rfl⟩ := List.exists_cons_of_ne_nil hns
        have hx := hnames x (by simp)
        have hne : ¬ (j.sourceDir.normal.names = [dot] ∧ sub' ≠ []) := by
          rintro ⟨h, _⟩
          rw [hnormal] at h
          exact hx.2.1 (by simpa using (List.cons.inj h).1)
        have hin : (inside (j.world d).root.normal sub').names = x :: (ns' ++ sub') := by
          show (inside j.sourceDir.normal sub').names = _
          unfold inside
          rw [hnormal] at hne ⊢
          simp only [if_neg hne, List.cons_append]
        rw [hin] at he
        have hcount : ∀ (l : List Str) (t : Bool), (∀ n ∈ l, IsName n) → countUp (l ++ if t then [[]] else []) = (l.length : Int) := by
          intro l t hl
          induction l with
          | nil => cases t <;> simp [countUp, dotdot]
          | cons y l ih =>
            have hy := hl y (by simp)
            rw [List.cons_append, countUp, if_neg hy.1, if_neg (by simp [hy.2.1, hy.2.2]), ih fun z hz => hl z (by simp [hz])]
            simp
        have hrel : (p.relativeTo (j.world d).root).names.head? = some dotdot := by
          rw [relativeTo_names]
          have hr' : p.root = (j.world d).root.root := by rw [he]
          rw [if_neg (by simp [hr'])]
          have hel : p.elems = x :: (ns' ++ sub' ++ [n]) := by rw [he]; simp [Path.elems]
          have hb : (j.world d).root.elems = dot :: (x :: ns' ++ if j.sourceDir.trailing then [[]] else []) := by
            show j.sourceDir.elems = _
            simp [Path.elems, hdot]
          have hmis : mismatch p.elems (j.world d).root.elems = (p.elems, (j.world d).root.elems) := by
            rw [hel, hb]
            simp [mismatch, hx.2.1]
          rw [hmis]
          have hc : countUp (j.world d).root.elems = ((x :: ns').length : Int) := by
            rw [hb, countUp, if_neg (by decide), if_pos (by simp)]
            exact hcount _ _ hnames
          unfold relNames
          simp only [hc]
          rw [if_neg (by rw [hel]; simp), if_neg (by simp only [List.length_cons]; omega), if_pos (by simp only [List.length_cons]; omega)]
          simp [List.replicate_succ]
        have hpath : ∃ l t, p.relativeTo (j.world d).root = ⟨false, dotdot :: l, t⟩ := by
          have hrr : (p.relativeTo (j.world d).root).root = false := by
            unfold Path.relativeTo
            split
            · rfl
            · dsimp only
              split
              · rfl
              · split
                · rfl
                · split <;> rfl
          generalize p.relativeTo (j.world d).root = q at hrel hrr
          obtain ⟨r, ns, t⟩ := q
          simp only at hrel hrr
          subst hrr
          cases ns with
          | nil => cases hrel
          | cons y l => simp only [List.head?_cons, Option.some.injEq] at hrel; subst hrel; exact ⟨l, t, rfl⟩
        obtain ⟨l, t, e⟩ := hpath
        rw [e] at hd
        have : j.dirFilter (Path.str ⟨false, dotdot :: l, t⟩) = true :=
          (hf.dir _).mpr ((hidden_str dotdot (by decide) l t).mpr (.inl (by decide)))
        rw [show (j.world d).dirFilter = j.dirFilter from rfl, this] at hd
        cases hd

/-- **C109 (`--source-dir=./src`).** The same for the command line. -/
theorem C109_dot_slash_command {m : Machine} (hm : RegularSearch m.outside) {args : List Str} {s : Settings} (hp : plan m d args = .run s)
    (hg : Given args "--config-default") {v : Str} (hv : LastValue args "--source-dir" v) (hd : d.Ok) {ns : List Str}
    (hns : ns ≠ []) (hnames : ∀ n ∈ ns, IsName n) (hparse : parse v = ⟨false, dot :: ns, (parse v).trailing⟩) {p : Path} {i : FileInfo}
    (hs : Scanned s.job d p i) : p = parse v := by
  have hf := C109_default hm hp hg
  obtain ⟨c, cfg', loaders, hc, _, _, _, _, _, _, rfl⟩ := plan_run hp
  have e : (settingsOf m d c cfg' loaders).job.sourceDir = parse v := (sourceDir_value hc hv).1
  have h1 : (parse v).root = false := by rw [hparse]
  have h2 : (parse v).names = dot :: ns := by rw [hparse]
  rw [← e]
  refine C109_dot_slash ⟨?_, hd.nodup, hd.isName⟩ hf (by rw [e, h1]) (by rw [e, h2]) hns hnames hs
  show (settingsOf m d c cfg' loaders).job.sourceDir ≠ _
  rw [e, hparse]
  simp [Path.empty]

/-- **C109 (generated headers).** With the pattern that is used by default, an included file is supposed to be generated if and only if its name ends with
`.gen.hpp`. -/
theorem C109_generated_default {o : Outside} (ho : RegularSearch o) (path : Str) :
    isGenerated o [".*\\.gen\\.hpp$"] path = true ↔ Regex.genHpp <:+ path := by
  obtain ⟨items, hc, h⟩ := Regex.C109_generated
  simp only [isGenerated, List.any_cons, List.any_nil, Bool.or_false]
  rw [ho _ items hc, h]

/-! ## Examples -/

namespace FiltersExample

/-- The regular expressions of `Tree/Regex.lean`. -/
def searchFor (r : String) (s : Str) : Bool :=
  match Regex.compile r.toList with
  | .ok items => Regex.search items s
  | _ => false

example (o : Outside) : RegularSearch { o with search := searchFor } := by
  intro r items h s
  simp only [searchFor, h]

def hidden (s : Str) : Bool := ['.'].isPrefixOf s || ['_', '_'].isPrefixOf s

theorem hidden_iff (s : Str) : hidden s = true ↔ HiddenName s := by
  simp [hidden, HiddenName]

/-- A directory `src` with a source file, a directory with a hidden file in it, and a hidden directory. -/
def disk : Disk where
  fs p := if p ∈ [parse ['s', 'r', 'c'], parse ['s', 'r', 'c', '/', 'l'], parse ['s', 'r', 'c', '/', '_', '_', 'x']] then some ⟨1, true⟩
    else if p ∈ [parse ['s', 'r', 'c', '/', 'a'], parse ['s', 'r', 'c', '/', 'l', '/', '.', 'h']] then some ⟨1, false⟩ else none
  names p := if p = parse ['s', 'r', 'c'] then ([['a'], ['l'], ['_', '_', 'x']], none)
    else if p = parse ['s', 'r', 'c', '/', 'l'] then ([['.', 'h']], none) else ([], none)

def job (src : Path) : Job :=
  { exampleJob with sourceDir := src, recursive := true, nameFilter := hidden, dirFilter := hidden }

theorem job_filters (src : Path) : DefaultFilters (job src) := ⟨hidden_iff, hidden_iff⟩

theorem world_ok {src : Path} (h : src ≠ Path.empty) : ((job src).world disk).Ok := by
  refine ⟨h, fun p => ?_, fun p n hn => ?_⟩
  · show (disk.names p).1.Nodup
    unfold disk
    dsimp only
    split
    · decide
    · split <;> decide
  · replace hn : n ∈ (disk.names p).1 := hn
    unfold disk at hn
    dsimp only at hn
    split at hn
    · simp only [List.mem_cons, List.not_mem_nil, or_false] at hn
      rcases hn with e | e | e <;> rw [e] <;> unfold IsName <;> decide
    · split at hn
      · simp only [List.mem_cons, List.not_mem_nil, or_false] at hn
        rw [hn]; unfold IsName; decide
      · simp at hn

/-- The file in `src` can be seen, whether the directory is given as `src` or `./src`. -/
theorem visible (src : Path) (h : src.normal = parse ['s', 'r', 'c']) :
    Visible (job src) disk (parse ['s', 'r', 'c', '/', 'a']) := by
  have := Visible.entry (j := job src) (d := disk) .root (n := ['a']) (by
    show Build.isDir disk.fs src.normal = true
    rw [h]; decide +kernel) (by
    show _ ∈ (disk.names src.normal).1
    rw [h]; decide +kernel) (by rw [← hidden_iff]; decide)
  have e : ((job src).sourceDir.normal / ⟨false, [['a']], false⟩ : Path) = parse ['s', 'r', 'c', '/', 'a'] := by
    show (src.normal / ⟨false, [['a']], false⟩ : Path) = _
    rw [h]; decide +kernel
  rw [e] at this
  exact this

/-- With `src`, it is found; the hypotheses of `C109_visible_partial` can be met. -/
example : ((job (parse ['s', 'r', 'c'])).world disk).Reached (parse ['s', 'r', 'c', '/', 'a']) ∧
    ((job (parse ['s', 'r', 'c'])).world disk).Passes (parse ['s', 'r', 'c', '/', 'a']) :=
  (C109_visible_partial (world_ok (by decide)) (job_filters _) (by decide +kernel) _).mpr ⟨visible _ (by decide +kernel), .inl rfl⟩

/-- The directory `__x` is not found. -/
example : ¬ (((job (parse ['s', 'r', 'c'])).world disk).Reached (parse ['s', 'r', 'c', '/', '_', '_', 'x']) ∧
    ((job (parse ['s', 'r', 'c'])).world disk).Passes (parse ['s', 'r', 'c', '/', '_', '_', 'x'])) := by
  rintro ⟨_, h | h⟩
  · exact absurd h (show ¬ parse ['s', 'r', 'c', '/', '_', '_', 'x'] = parse ['s', 'r', 'c'] by decide +kernel)
  · have := h.2.1
    revert this
    show hidden (parse ['s', 'r', 'c', '/', '_', '_', 'x']).filename = false → False
    decide +kernel

end FiltersExample

/-- C109 does not hold for each way to write the source directory: there is a file in a visible place that a run with the filters used by default does
not find when it is called with `--source-dir=./src`. -/
theorem C109_false : ∃ (j : Job) (d : Disk) (p : Path), (j.world d).Ok ∧ DefaultFilters j ∧ j.recursive = true ∧ Visible j d p ∧
    ∀ i, ¬ Scanned j d p i := by
  refine ⟨FiltersExample.job (parse ['.', '/', 's', 'r', 'c']), FiltersExample.disk, parse ['s', 'r', 'c', '/', 'a'],
    FiltersExample.world_ok (by decide +kernel), FiltersExample.job_filters _, rfl, FiltersExample.visible _ (by decide +kernel), fun i hs => ?_⟩
  have := C109_dot_slash (FiltersExample.world_ok (src := parse ['.', '/', 's', 'r', 'c']) (by decide +kernel)) (FiltersExample.job_filters _) (ns := [['s', 'r', 'c']])
    (by decide +kernel) (by decide +kernel) (by simp) (by
      intro n hn
      rw [List.mem_singleton.mp hn]
      unfold IsName; decide) hs
  revert this
  show ¬ parse ['s', 'r', 'c', '/', 'a'] = parse ['.', '/', 's', 'r', 'c']
  decide +kernel

end Maike.Main
