import Verif.Main.RunExamples
import Verif.Build.Several

/-!
# The names of targets (C72)

`--list-targets` prints names, and `--targets` takes names.
-/

namespace Maike.Main

open Fs Tree Paths

/-! ## Model -/

/-- The lines printed by `printTargets`, core/bin/maike.cpp:63-70. -/
def listing (targetDir : Path) (targets : Db.TargetList Path) : List Str := targets.map fun x => (x.1.relativeTo targetDir).str

/-- What `compile` for a list of names works with, core/db/source_tree.cpp:42-74. `targetDirectory()` is what has been passed to
`SourceTreeLoader::load`, core/source_tree_loader/main.cpp:21, and core/bin/maike.cpp:361. -/
def Job.setup (j : Job) (tree : Db.SourceTree Path) (force : Bool) (kind : Path → Bool) : Build.Setup Path where
  tree := tree
  locate name := j.targetDir / name
  workers := j.workers
  force := force
  kind := kind
  fine := true

/-! ## Specification -/

/-- The target is located inside of the directory, judging by the names only; it is not the directory itself. -/
def Below (dir t : Path) : Prop := ∃ ns, ns ≠ [] ∧ t.root = dir.root ∧ t.names = dir.names ++ ns

/-- No name contains a separator. -/
def NoSlash (p : Path) : Prop := ∀ n ∈ p.names, '/' ∉ n

/-- Names of files do not contain separators. -/
structure Textual (j : Job) (d : Disk) : Prop where
  source : NoSlash j.sourceDir
  target : NoSlash j.targetDir
  entries : ∀ p, ∀ n ∈ (d.names p).1, '/' ∉ n

/-! ## Paths and their text -/

theorem splitNames_append (n s cur : Str) (h : '/' ∉ n) : splitNames (n ++ s) cur = splitNames s (cur ++ n) := by
  induction n generalizing cur with
  | nil => simp
  | cons c n ih =>
    simp only [List.mem_cons, not_or] at h
    rw [List.cons_append, splitNames, if_neg fun e => h.1 e.symm, ih _ h.2, List.append_assoc]
    rfl

theorem splitNames_join (ns : List Str) (h : ∀ n ∈ ns, n ≠ [] ∧ '/' ∉ n) (t : Bool) (ht : ns = [] → t = false) :
    splitNames (joinNames ns ++ (if t then ['/'] else [])) [] = ns := by
  induction ns with
  | nil => simp [ht rfl, joinNames, splitNames]
  | cons a l ih =>
    have ha := h a (by simp)
    cases l with
    | nil =>
      rw [joinNames, splitNames_append _ _ _ ha.2]
      cases t <;> simp [splitNames, ha.1]
    | cons b l =>
      rw [joinNames, List.append_assoc, List.cons_append, splitNames_append _ _ _ ha.2, splitNames, if_pos rfl]
      simp only [List.nil_append, ha.1, if_false]
      rw [ih (fun n hn => h n (by simp [hn])) (by simp)]

theorem joinNames_head (a : Str) (l : List Str) (ha : a ≠ []) (s : Str) : (joinNames (a :: l) ++ s).head? = a.head? := by
  obtain ⟨c, a, rfl⟩ := List.exists_cons_of_ne_nil ha
  cases l <;> rfl

theorem joinNames_last (ns : List Str) (hne : ns ≠ []) (h : ∀ n ∈ ns, n ≠ [] ∧ '/' ∉ n) : ∃ c, (joinNames ns).getLast? = some c ∧ c ≠ '/' := by
  induction ns with
  | nil => exact absurd rfl hne
  | cons a l ih =>
    have ha := h a (by simp)
    cases l with
    | nil =>
      refine ⟨a.getLast ha.1, List.getLast?_eq_some_getLast ha.1, fun e => ha.2 (e ▸ List.getLast_mem ha.1)⟩
    | cons b l =>
      obtain ⟨c, h1, h2⟩ := ih (by simp) (fun n hn => h n (by simp [hn]))
      refine ⟨c, ?_, h2⟩
      rw [joinNames, List.getLast?_append, List.getLast?_cons, h1]
      rfl

/-- A path can be read back from its text. -/
theorem parse_str (p : Path) (h : ∀ n ∈ p.names, n ≠ [] ∧ '/' ∉ n) (ht : p.names = [] → p.trailing = false) : parse p.str = p := by
  obtain ⟨r, ns, t⟩ := p
  simp only at h ht
  have hsplit : splitNames (Path.str ⟨r, ns, t⟩) [] = ns := by
    unfold Path.str
    cases r
    · simpa using splitNames_join ns h t ht
    · simp only [if_true, List.cons_append, List.nil_append, splitNames]
      exact splitNames_join ns h t ht
  have hroot : decide ((Path.str ⟨r, ns, t⟩).head? = some '/') = r := by
    unfold Path.str
    cases r
    · simp only [Bool.false_eq_true, if_false, List.nil_append, decide_eq_false_iff_not]
      cases ns with
      | nil => simp [joinNames, ht rfl]
      | cons a l =>
        have ha := h a (by simp)
        rw [joinNames_head _ _ ha.1]
        obtain ⟨c, a, rfl⟩ := List.exists_cons_of_ne_nil ha.1
        intro e
        simp only [List.head?_cons, Option.some.injEq] at e
        exact ha.2 (by simp [e])
    · simp
  have htr : (decide ((Path.str ⟨r, ns, t⟩).getLast? = some '/') && !ns.isEmpty) = t := by
    cases ns with
    | nil => simp [ht rfl]
    | cons a l =>
      simp only [List.isEmpty_cons, Bool.not_false, Bool.and_true]
      unfold Path.str
      cases t
      · obtain ⟨c, h1, h2⟩ := joinNames_last (a :: l) (by simp) h
        simp only [Bool.false_eq_true, if_false, List.append_nil, decide_eq_false_iff_not, List.getLast?_append, h1, Option.some_or,
          Option.some.injEq]
        exact h2
      · simp
  unfold parse
  rw [hsplit, hroot, htr]

theorem splitNames_noSlash (s cur : Str) (h : '/' ∉ cur) : ∀ n ∈ splitNames s cur, '/' ∉ n := by
  induction s generalizing cur with
  | nil =>
    unfold splitNames
    split
    · simp
    · simpa using h
  | cons c s ih =>
    unfold splitNames
    split
    · split
      · exact ih [] (by simp)
      · intro n hn
        rcases List.mem_cons.mp hn with rfl | hn
        · exact h
        · exact ih [] (by simp) n hn
    · rename_i hc
      refine ih _ ?_
      simp only [List.mem_append, List.mem_singleton, not_or]
      exact ⟨h, fun e => hc e.symm⟩

theorem parse_noSlash (s : Str) : NoSlash (parse s) := splitNames_noSlash s [] (by simp)

theorem append_noSlash {a b : Path} (ha : NoSlash a) (hb : NoSlash b) : NoSlash (a / b) := by
  show NoSlash (a.append b)
  unfold Path.append
  split
  · exact hb
  · split
    · exact ha
    · intro n hn
      rcases List.mem_append.mp hn with hn | hn
      · exact ha n hn
      · exact hb n hn

theorem normStep_noSlash (r : Bool) (s : Norm) (e : Str) (hs : ∀ n ∈ s.stack, '/' ∉ n) (he : '/' ∉ e) :
    ∀ n ∈ (normStep r s e).stack, '/' ∉ n := by
  have hd : '/' ∉ dotdot := by decide
  unfold normStep
  split
  · split
    · split
      · exact hs
      · intro n hn
        simp only [List.mem_singleton] at hn
        rw [hn]; exact hd
    · rename_i top rest hst
      rw [hst] at hs
      split
      · intro n hn
        rcases List.mem_cons.mp hn with rfl | hn
        · exact hd
        · exact hs n hn
      · exact fun n hn => hs n (by simp [hn])
  · split
    · exact hs
    · intro n hn
      rcases List.mem_cons.mp hn with rfl | hn
      · exact he
      · exact hs n hn

theorem elems_noSlash {p : Path} (h : NoSlash p) : ∀ n ∈ p.elems, '/' ∉ n := by
  intro n hn
  unfold Path.elems at hn
  rcases List.mem_append.mp hn with hn | hn
  · exact h n hn
  · split at hn
    · simp only [List.mem_singleton] at hn; subst hn; simp
    · cases hn

theorem normal_noSlash {p : Path} (h : NoSlash p) : NoSlash p.normal := by
  have hfold : ∀ (es : List Str) (s : Norm), (∀ e ∈ es, '/' ∉ e) → (∀ n ∈ s.stack, '/' ∉ n) →
      ∀ n ∈ (es.foldl (normStep p.root) s).stack, '/' ∉ n := by
    intro es
    induction es with
    | nil => exact fun s _ h => h
    | cons e es ih =>
      intro s he hs
      exact ih _ (fun x hx => he x (by simp [hx])) (normStep_noSlash _ _ _ hs (he e (by simp)))
  unfold Path.normal
  split
  · exact h
  · dsimp only
    have := hfold p.elems ⟨[], false⟩ (elems_noSlash h) (by simp)
    split
    · split
      · intro n hn; cases hn
      · intro n hn; simp only [List.mem_singleton] at hn; subst hn; decide
    · rename_i top rest hst
      rw [hst] at this
      intro n hn
      exact this n (by simpa using List.mem_reverse.mp hn)

theorem mismatch_fst_sub (a b : List Str) : ∀ x ∈ (mismatch a b).1, x ∈ a := by
  intro x hx
  obtain ⟨pre, h, _⟩ := mismatch_spec a b
  rw [h]; simp [hx]

theorem relativeTo_noSlash {p base : Path} (h : NoSlash p) : NoSlash (p.relativeTo base) := by
  intro n hn
  rw [relativeTo_names] at hn
  split at hn
  · cases hn
  · unfold relNames at hn
    split at hn
    · simp only [List.mem_singleton] at hn; subst hn; decide
    · split at hn
      · simp only [List.mem_singleton] at hn; subst hn; decide
      · split at hn
        · rcases List.mem_append.mp hn with hn | hn
          · rw [List.eq_of_mem_replicate hn]; decide
          · exact elems_noSlash h n (mismatch_fst_sub _ _ n (List.mem_filter.mp hn |>.1))
        · cases hn

theorem parent_noSlash {p : Path} (h : NoSlash p) : NoSlash p.parent := by
  unfold Path.parent
  split
  · exact h
  · split
    · exact h
    · exact fun n hn => h n (List.dropLast_subset _ hn)

theorem filename_noSlash {p : Path} (h : NoSlash p) : NoSlash (filenamePath p) := by
  intro n hn
  unfold filenamePath at hn
  simp only at hn
  split at hn
  · cases hn
  · rename_i hne
    simp only [List.mem_singleton] at hn
    subst hn
    unfold Path.filename at hne ⊢
    split
    · simp
    · rename_i ht
      rw [if_neg ht] at hne
      cases hl : p.names.getLast? with
      | none => simp
      | some x => exact h x (List.mem_of_getLast? hl)

/-! ## The keys of the targets -/

variable {j : Job} {kind : Path → Bool} {d : Disk} {now : Nat}

theorem reached_noSlash (hx : Textual j d) {p : Path} (h : (j.world d).Reached p) : NoSlash p := by
  induction h with
  | root => exact hx.source
  | entry _ _ hn ih =>
    refine append_noSlash (normal_noSlash ih) ?_
    intro n hn'
    simp only [List.mem_singleton] at hn'
    subst hn'
    exact hx.entries _ _ hn

/-- Where the keys of the list of targets come from. -/
theorem target_key (hw : (j.world d).Ok) {files : List (Path × FileInfo)} {tree : Db.SourceTree Path} (hl : Loads j d files tree) :
    Db.Map.Sorted tree.targets ∧ ∀ k t, (k, t) ∈ tree.targets → k = t.target.name ∧ ∃ p i name, Scanned j d p i ∧
      k = makeTargetName ⟨p, j.sourceDir, j.targetDir⟩ name ∧ (name = filenamePath p ∨ ∃ s, name = parse s) := by
  have hs := (files_sorted_of_ok hw hl).map_val fun x => x.2.toSrcInfo
  obtain ⟨_, _, hc, _⟩ := Build.load_ok hs hl.2
  obtain ⟨h1, h2⟩ := (Db.C08_one_owner _).2 _ hc
  refine ⟨h1, ?_⟩
  intro k t hk
  obtain ⟨info, hi, ht, _, rfl⟩ := (h2 k t).mp hk
  obtain ⟨⟨q, i⟩, hq, e⟩ := List.mem_map.mp hi
  simp only [Prod.mk.injEq] at e
  obtain ⟨e1, rfl⟩ := e
  obtain ⟨p, hp, _⟩ := (mem_files_of_ok hw hl _ _).mp hq
  obtain ⟨t', ht', e2⟩ := List.mem_map.mp ht
  obtain ⟨name, hn, hn'⟩ := load_targets hp.2.2 t' ht'
  have e3 : t.target.name = t'.name := by rw [← e2]
  have e4 : Db.PathType.norm t.target.name = t.target.name := by
    rw [e3, hn]; exact makeTargetName_normal _ _
  refine ⟨e4, p, i, name, hp, ?_, ?_⟩
  · rw [e4, e3, hn]
  · rcases hn' with ⟨_, h⟩ | ⟨_, h⟩
    · exact .inl h
    · exact .inr h

theorem key_normal (hw : (j.world d).Ok) {files : List (Path × FileInfo)} {tree : Db.SourceTree Path} (hl : Loads j d files tree) {k : Path}
    {t : Db.Target Path} (h : (k, t) ∈ tree.targets) : IsNormal k := by
  obtain ⟨_, p, i, name, _, e, _⟩ := (target_key hw hl).2 k t h
  rw [e]; exact normal_isNormal _

theorem key_noSlash (hw : (j.world d).Ok) (hx : Textual j d) {files : List (Path × FileInfo)} {tree : Db.SourceTree Path}
    (hl : Loads j d files tree) {k : Path} {t : Db.Target Path} (h : (k, t) ∈ tree.targets) : NoSlash k := by
  obtain ⟨_, p, i, name, hp, e, hn⟩ := (target_key hw hl).2 k t h
  rw [e]
  have hpn := reached_noSlash hx hp.1
  have hname : NoSlash name := by
    rcases hn with rfl | ⟨s, rfl⟩
    · exact filename_noSlash hpn
    · exact parse_noSlash s
  exact normal_noSlash (append_noSlash hx.target (relativeTo_noSlash (append_noSlash (normal_noSlash (parent_noSlash hpn)) hname)))

theorem relativeTo_root (p base : Path) : (p.relativeTo base).root = false := by
  unfold Path.relativeTo
  dsimp only
  repeat' split
  all_goals rfl

theorem normal_eq_root (p : Path) : (p.normal).root = p.root := normal_root p

theorem key_root (hw : (j.world d).Ok) {files : List (Path × FileInfo)} {tree : Db.SourceTree Path} (hl : Loads j d files tree) {k : Path}
    {t : Db.Target Path} (h : (k, t) ∈ tree.targets) : k.root = j.targetDir.root := by
  obtain ⟨_, p, i, name, _, e, _⟩ := (target_key hw hl).2 k t h
  rw [e]
  unfold makeTargetName
  rw [normal_root]
  show (Path.append _ _).root = _
  unfold Path.append
  rw [relativeTo_root, if_neg (by simp)]
  split <;> rfl

theorem relativeTo_self (p : Path) : p.relativeTo p = ⟨false, [dot], false⟩ := by
  have hm : mismatch p.elems p.elems = ([], []) := by
    have := mismatch_append p.elems [] []
    simpa [mismatch] using this
  unfold Path.relativeTo
  simp [hm]

/-- The path itself, written with a separator at the end. -/
theorem relativeTo_slash (r : Bool) (ns : List Str) : (Path.relativeTo ⟨r, ns, true⟩ ⟨r, ns, false⟩) = ⟨false, [dot], false⟩ := by
  have hm : mismatch (ns ++ [[]]) (ns ++ []) = ([[]], []) := by rw [mismatch_append]; rfl
  unfold Path.relativeTo Path.elems
  simp only [ne_eq, not_true, if_false, if_true, Bool.false_eq_true, hm]
  simp [countUp]

theorem lookup_some {P V : Type} [Db.PathType P] [DecidableEq P] {m : List (P × V)} (h : Db.Map.Sorted m) {k : P} {v : V} :
    Db.Map.lookup k m = some v ↔ (k, v) ∈ m := by
  constructor
  · intro e; exact Db.Map.lookup_mem e
  · intro e; exact Db.Map.lookup_of_mem h e

/-! ## C72 -/

/-- C72: The listing has one line for each target. -/
theorem C72_lines (dir : Path) (ts : Db.TargetList Path) : (listing dir ts).length = ts.length ∧
    ∀ line, line ∈ listing dir ts ↔ ∃ k t, (k, t) ∈ ts ∧ line = (k.relativeTo dir).str := by
  refine ⟨by simp [listing], ?_⟩
  intro line
  simp only [listing, List.mem_map]
  constructor
  · rintro ⟨⟨k, t⟩, h, rfl⟩; exact ⟨k, t, h, rfl⟩
  · rintro ⟨k, t, h, rfl⟩; exact ⟨_, h, rfl⟩

/-- C72: A name that has been printed selects the target for which it has been printed if, and only if, the path of that target begins with the target
directory, as typed, and continues. -/
theorem C72_listed_partial (hw : (j.world d).Ok) (hx : Textual j d) {files : List (Path × FileInfo)} {tree : Db.SourceTree Path}
    (hl : Loads j d files tree) (force : Bool) {k : Path} {t : Db.Target Path} (h : (k, t) ∈ tree.targets) :
    Build.getTarget (j.setup tree force kind) (parse (k.relativeTo j.targetDir).str) = some t ↔ Below j.targetDir k := by
  have hs := (target_key hw hl).1
  have hkn := key_normal hw hl h
  have hks := key_noSlash hw hx hl h
  have hne : ∀ n ∈ (k.relativeTo j.targetDir).names, n ≠ [] ∧ '/' ∉ n := by
    intro n hn
    refine ⟨?_, relativeTo_noSlash hks n hn⟩
    rintro rfl
    rw [relativeTo_names] at hn
    split at hn
    · cases hn
    · unfold relNames at hn
      split at hn
      · simp [dot] at hn
      · split at hn
        · simp [dot] at hn
        · split at hn
          · rcases List.mem_append.mp hn with hn | hn
            · have := List.eq_of_mem_replicate hn; cases this
            · have := (List.mem_filter.mp hn).2; simp at this
          · cases hn
  have htr : (k.relativeTo j.targetDir).names = [] → (k.relativeTo j.targetDir).trailing = false := by
    unfold Path.relativeTo
    dsimp only
    repeat' split
    all_goals simp only [Path.empty, reduceCtorEq, imp_self, implies_true]
    intro e
    rw [e]; simp
  rw [parse_str _ hne htr]
  unfold Build.getTarget Job.setup
  simp only
  rw [lookup_some hs]
  constructor
  · intro hm
    have e : j.targetDir / k.relativeTo j.targetDir = k := by
      rw [((target_key hw hl).2 _ _ hm).1, ((target_key hw hl).2 _ _ h).1]
    have e' : j.targetDir.append (k.relativeTo j.targetDir) = k := e
    unfold Path.append at e'
    rw [relativeTo_root, if_neg (by simp)] at e'
    by_cases hnil : (k.relativeTo j.targetDir).names = []
    · exfalso
      rw [if_pos hnil] at e'
      have : k.relativeTo j.targetDir = ⟨false, [dot], false⟩ := by
        rw [← e']
        obtain ⟨r, ns, tr⟩ := j.targetDir
        cases tr
        · cases ns with
          | nil => exact relativeTo_self _
          | cons a l => exact relativeTo_slash _ _
        · cases ns with
          | nil => simp [Path.relativeTo, Path.elems, mismatch, countUp, dotdot]
          | cons a l => exact relativeTo_self _
      rw [this] at hnil
      cases hnil
    · rw [if_neg hnil] at e'
      refine ⟨_, hnil, ?_, ?_⟩
      · rw [← e']
      · rw (occs := [1]) [← e']
  · rintro ⟨ns, hns, hr, hnames⟩
    have hk : k = ⟨j.targetDir.root, j.targetDir.names ++ ns, k.trailing⟩ := by
      rw [← hr, ← hnames]
    have hnn : ∀ n ∈ ns, n ≠ [] := by
      intro n hn e
      exact isNormal_names k hkn (by rw [hnames, ← e]; simp [hn])
    have : k.relativeTo j.targetDir = ⟨false, ns, k.trailing⟩ := by
      rw (occs := [1]) [hk]
      exact relativeTo_inside _ _ _ hns hnn
    rw [this, relative_step _ _ ⟨rfl, hns, fun h => hnn _ h rfl⟩]
    simp only
    rw [← hk]; exact h

/-- C72: So building what has been listed does not fail because of a name, if only targets that are located like that are chosen. -/
theorem C72_no_unknown_partial (hw : (j.world d).Ok) (hx : Textual j d) {files : List (Path × FileInfo)} {tree : Db.SourceTree Path}
    (hl : Loads j d files tree) (force : Bool) (lines : List Str)
    (hlines : ∀ line ∈ lines, ∃ k t, (k, t) ∈ tree.targets ∧ Below j.targetDir k ∧ line = (k.relativeTo j.targetDir).str) (schedules : List (List (Build.Act Path)))
    (s s' : Build.Progress Path) (name : Path) :
    Build.compileSeveral (j.setup tree force kind) (lines.map parse) schedules s ≠ some (.unknown name, s') := by
  induction lines generalizing schedules s with
  | nil => simp [Build.compileSeveral]
  | cons line lines ih =>
    obtain ⟨k, t, hk, hb, rfl⟩ := hlines line (by simp)
    have hg := (C72_listed_partial (kind := kind) hw hx hl force hk).mpr hb
    simp only [List.map_cons, Build.compileSeveral, hg]
    intro h
    split at h
    · split at h
      · cases h
      · split at h
        · cases h
        · split at h
          · exact ih (fun l hl => hlines l (List.mem_cons_of_mem _ hl)) _ _ h
          · simp at h
          · cases h
    · simp at h

/-- The beginning of a path in normal form is in normal form. -/
theorem isNormal_prefix {r : Bool} {a b : List Str} {t : Bool} (h : IsNormal ⟨r, a ++ b, t⟩) : IsNormal ⟨r, a, false⟩ := by
  generalize e : (⟨r, a ++ b, t⟩ : Path) = p at h
  cases h with
  | empty =>
    simp only [Path.empty, Path.mk.injEq, List.append_eq_nil_iff] at e
    obtain ⟨rfl, ⟨rfl, _⟩, _⟩ := e
    exact .empty
  | dot =>
    simp only [Path.mk.injEq] at e
    obtain ⟨rfl, e, _⟩ := e
    rcases List.append_eq_singleton_iff.mp e with ⟨rfl, _⟩ | ⟨rfl, _⟩
    · exact .empty
    · exact .dot
  | rel k ns t' hn hk =>
    simp only [Path.mk.injEq] at e
    obtain ⟨rfl, e, _⟩ := e
    rcases List.append_eq_append_iff.mp e with ⟨c, e1, e2⟩ | ⟨c, e1, e2⟩
    · -- the prefix is part of the dot-dots
      have : a = List.replicate a.length dotdot := by
        apply List.eq_replicate_of_mem
        intro x hx
        exact List.eq_of_mem_replicate (n := k) (e1 ▸ List.mem_append_left _ hx)
      rw [this]
      rcases Nat.eq_zero_or_pos a.length with h0 | h0
      · rw [h0]; exact .empty
      · have := IsNormal.rel a.length [] false (by simp) (fun _ => ⟨rfl, h0⟩)
        simpa using this
    · rw [e1]
      cases c with
      | nil =>
        rcases Nat.eq_zero_or_pos k with h0 | h0
        · rw [h0]; exact .empty
        · exact .rel k [] false (by simp) (fun _ => ⟨rfl, h0⟩)
      | cons x c =>
        exact .rel k (x :: c) false (fun n hn' => hn n (by rw [e2]; exact List.mem_append_left _ hn')) (by simp)
  | abs ns t' hn hk =>
    simp only [Path.mk.injEq] at e
    obtain ⟨rfl, rfl, _⟩ := e
    exact .abs a false (fun n hn' => hn n (List.mem_append_left _ hn')) (fun _ => rfl)

/-- C72 is false for a relative target directory which is not in normal form, such as `./out`: then no name at all selects a target. -/
theorem C72_unreachable (hw : (j.world d).Ok) {files : List (Path × FileInfo)} {tree : Db.SourceTree Path} (hl : Loads j d files tree)
    (force : Bool) (hrel : j.targetDir.root = false) (hn : ¬ IsNormal ⟨false, j.targetDir.names, false⟩) (name : Path) :
    Build.getTarget (j.setup tree force kind) name = none := by
  cases h : Build.getTarget (j.setup tree force kind) name with
  | none => rfl
  | some t =>
    exfalso
    unfold Build.getTarget Job.setup at h
    have hm := Db.Map.lookup_mem h
    simp only at hm
    have hkn := key_normal hw hl hm
    have hkr := key_root hw hl hm
    rw [hrel] at hkr
    have e : j.targetDir / name = j.targetDir.append name := rfl
    rw [e] at hkn hkr
    unfold Path.append at hkn hkr
    split at hkn
    · rename_i h1
      rw [if_pos h1] at hkr
      rw [h1] at hkr
      cases hkr
    · split at hkn
      · apply hn
        rw [hrel] at hkn
        exact isNormal_prefix (b := []) (by rw [List.append_nil]; exact hkn)
      · apply hn
        rw [hrel] at hkn
        exact isNormal_prefix hkn

/-- C72 is false for the target that belongs to the source directory: it is printed as `.`, but this name never selects a target, unless the target
directory is the empty path. -/
theorem C72_dot (hw : (j.world d).Ok) {files : List (Path × FileInfo)} {tree : Db.SourceTree Path} (hl : Loads j d files tree)
    (force : Bool) (hne : j.targetDir.root = true ∨ j.targetDir.names ≠ []) :
    (∀ t, j.targetDir.trailing = false → ((⟨j.targetDir.root, j.targetDir.names, t⟩ : Path).relativeTo j.targetDir).str = ['.']) ∧
    Build.getTarget (j.setup tree force kind) (parse ['.']) = none := by
  constructor
  · intro t ht
    have e : j.targetDir = ⟨j.targetDir.root, j.targetDir.names, false⟩ := by rw [← ht]
    have : (⟨j.targetDir.root, j.targetDir.names, t⟩ : Path).relativeTo j.targetDir = ⟨false, [dot], false⟩ := by
      rw [e]
      cases t
      · exact relativeTo_self _
      · exact relativeTo_slash _ _
    rw [this]; rfl
  · cases h : Build.getTarget (j.setup tree force kind) (parse ['.']) with
    | none => rfl
    | some t =>
      exfalso
      unfold Build.getTarget Job.setup at h
      have hm := Db.Map.lookup_mem h
      have hkn := key_normal hw hl hm
      simp only at hkn
      have e0 : parse ['.'] = ⟨false, [dot], false⟩ := by decide
      rw [e0, relative_step _ _ ⟨rfl, by simp, by simp [dot]⟩] at hkn
      simp only at hkn
      have hd : ∀ n ∈ j.targetDir.names ++ [dot], n ≠ dot ∨ (j.targetDir.root = false ∧ j.targetDir.names = []) := by
        generalize e : (⟨j.targetDir.root, j.targetDir.names ++ [dot], false⟩ : Path) = p at hkn
        cases hkn with
        | empty => simp [Path.empty] at e
        | dot =>
          simp only [Path.mk.injEq, and_true] at e
          intro n _
          refine .inr ⟨e.1, ?_⟩
          have := congrArg List.length e.2
          simpa using this
        | rel k ns t' hn' _ =>
          simp only [Path.mk.injEq] at e
          intro n hn
          rw [e.2.1] at hn
          rcases List.mem_append.mp hn with hn | hn
          · rw [List.eq_of_mem_replicate hn]; exact .inl (by decide)
          · exact .inl (hn' n hn).2.1
        | abs ns t' hn' _ =>
          simp only [Path.mk.injEq] at e
          intro n hn
          rw [e.2.1] at hn
          exact .inl (hn' n hn).2.1
      rcases hd dot (by simp) with h | ⟨h1, h2⟩
      · exact h rfl
      · rcases hne with h | h
        · rw [h1] at h; cases h
        · exact h h2

/-- Files that have been found, except for the source directory itself. -/
theorem found_of_reached (hw : (j.world d).Ok) (hs : IsNormal j.sourceDir) {p : Path} (h : (j.world d).Reached p) (hp : p ≠ j.sourceDir) :
    ∃ sub entry, Found ⟨p, j.sourceDir, j.targetDir⟩ sub entry := by
  obtain ⟨sub, hl⟩ := located hw h
  rcases List.eq_nil_or_concat sub with rfl | ⟨l, n, rfl⟩
  · exact absurd (hl.isRoot rfl) hp
  · rw [List.concat_eq_append] at hl
    have hn : IsName n := hl.names n (by simp)
    have hl' : ∀ x ∈ l, IsName x := fun x hx => hl.names x (by simp [hx])
    refine ⟨l, n, hs, hw.root, hl', hn, ?_⟩
    have h1 := hl.isEntry l n rfl
    have hroot : (j.world d).root = j.sourceDir := rfl
    obtain ⟨e1, e2⟩ := normal_inside j.sourceDir hs hw.root l hl'
    rw [hroot, normal_eq_self hs] at h1
    rw [entry_eq _ _ hn]
    simp only
    rw [e1, e2]
    exact h1

/-- C72: Targets with plain names are located below the target directory, if the source directory and the target directory are written in normal form,
and the target directory is not `.`. So their names can be used. -/
theorem C72_plain_partial (hw : (j.world d).Ok) (hs : IsNormal j.sourceDir) (ht : IsNormal j.targetDir) (hne : j.targetDir ≠ Path.empty)
    (hdot : j.targetDir.names ≠ [dot]) {p : Path} (h : (j.world d).Reached p) (hp : p ≠ j.sourceDir) (ns : List Str) (hns : ns ≠ [])
    (hplain : ∀ n ∈ ns, IsName n) : Below j.targetDir (makeTargetName ⟨p, j.sourceDir, j.targetDir⟩ ⟨false, ns, false⟩) := by
  obtain ⟨sub, entry, hf⟩ := found_of_reached hw hs h hp
  have hall : ∀ n ∈ sub ++ ns, IsName n := by
    intro n hn
    rcases List.mem_append.mp hn with hn | hn
    · exact hf.names n hn
    · exact hplain n hn
  rw [C47_target_partial _ sub entry hf _ ⟨rfl, hns, fun h => (hplain _ h).2.2 rfl⟩]
  obtain ⟨e1, e2⟩ := normal_inside j.targetDir ht hne (sub ++ ns) hall
  refine ⟨sub ++ ns, by simp [hns], e2, ?_⟩
  rw [e1]
  unfold inside
  rw [if_neg fun h => hdot h.1]

/-! ## Examples -/

theorem exampleTextual : Textual exampleJob exampleDisk := by
  refine ⟨by unfold NoSlash; decide +kernel, by unfold NoSlash; decide +kernel, ?_⟩
  intro p n hn
  obtain ⟨q, hq, rfl⟩ := List.mem_map.mp hn
  have hq := (List.mem_filter.mp hq).1
  have : ∀ q ∈ [parse ['.'], parse ['a', '.', 'c', 'p', 'p']], '/' ∉ q.filename := by decide +kernel
  exact this q hq

/-- What is listed: the target directory, and the object file. -/
example : listing exampleJob.targetDir exampleTree.targets = [['.'], ['a', '.', 'o']] := by decide +kernel

/-- The name of the object file selects it. -/
example : ∃ t, Build.getTarget (exampleJob.setup exampleTree false exampleKind) (parse ['a', '.', 'o']) = some t ∧
    t.sourceFilename = parse ['a', '.', 'c', 'p', 'p'] := by
  have h : ∃ x ∈ exampleTree.targets, x.1 = parse ['_', '_', 't', '/', 'a', '.', 'o'] ∧ x.2.sourceFilename = parse ['a', '.', 'c', 'p', 'p'] := by
    decide +kernel
  obtain ⟨⟨k, t⟩, hx, hk, ht⟩ := h
  simp only at hk ht
  subst hk
  refine ⟨t, ?_, ht⟩
  have := (C72_listed_partial (kind := exampleKind) (world_ok exampleProper) exampleTextual exampleLoads false hx).mpr
    ⟨[['a', '.', 'o']], by simp, by decide +kernel, by decide +kernel⟩
  exact this

/-- The hypotheses of `C72_plain_partial` are met. -/
example : Below exampleJob.targetDir (makeTargetName ⟨parse ['.'] / ⟨false, [['a', '.', 'c', 'p', 'p']], false⟩, exampleJob.sourceDir,
    exampleJob.targetDir⟩ ⟨false, [['a', '.', 'o']], false⟩) := by
  obtain ⟨p, i, hs, e1, e2⟩ := exampleScanned
  have hp : p ≠ exampleJob.sourceDir := by
    rintro rfl
    exact absurd e1 (by decide +kernel)
  have hsrc : IsNormal exampleJob.sourceDir := by
    have : exampleJob.sourceDir = exampleJob.sourceDir.normal := by decide +kernel
    rw [this]; exact normal_isNormal _
  have htgt : IsNormal exampleJob.targetDir := by
    have : exampleJob.targetDir = exampleJob.targetDir.normal := by decide +kernel
    rw [this]; exact normal_isNormal _
  have he : p = parse ['.'] / ⟨false, [['a', '.', 'c', 'p', 'p']], false⟩ := by
    obtain ⟨sub, hl⟩ := located (world_ok exampleProper) hs.1
    have h1 : (inside exampleJob.sourceDir.normal [['a', '.', 'c', 'p', 'p']]).names = (inside exampleJob.sourceDir.normal sub).names := by
      rw [← (show _ = (inside exampleJob.sourceDir.normal sub).names from hl.normalNames), e1]
      decide +kernel
    have := inside_injective _ _ _ (by decide +kernel) hl.names h1
    subst this
    rw [hl.isEntry [] _ rfl]
    decide +kernel
  rw [← he]
  exact C72_plain_partial (world_ok exampleProper) hsrc htgt (by decide +kernel) (by decide +kernel) hs.1 hp _ (by simp) (by decide +kernel)

/-- With `--target-dir=./o`, the object file is listed as `../o/a.o`, and neither this nor any other name selects it. -/
def dottedJob : Job := { exampleJob with targetDir := parse ['.', '/', 'o'] }

def dottedFiles : List (Path × FileInfo) := (scan dottedJob exampleDisk 40).shared.files

theorem dottedLoads : Loads dottedJob exampleDisk dottedFiles (treeOf dottedFiles) :=
  loads_of 40 (by decide +kernel) (by decide +kernel) (treeOf_ok (by decide +kernel))

theorem C72_false : listing dottedJob.targetDir (treeOf dottedFiles).targets = [['.', '.', '/', 'o', '/'], ['.', '.', '/', 'o', '/', 'a', '.', 'o']] ∧
    ∀ name, Build.getTarget (dottedJob.setup (treeOf dottedFiles) false exampleKind) name = none := by
  have hw : (dottedJob.world exampleDisk).Ok := ⟨by decide +kernel, exampleDisk_ok.nodup, exampleDisk_ok.isName⟩
  refine ⟨by decide +kernel, C72_unreachable hw dottedLoads _ (by decide +kernel) ?_⟩
  intro h
  exact absurd (normal_eq_self h) (by decide +kernel)

end Maike.Main
