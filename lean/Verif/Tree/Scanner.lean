import Verif.Tree.Tags

/-!
# Model of the directory scanner

core/source_tree_loader/directory_scanner.cpp and core/source_tree_loader/directory_scanner.hpp.

One task is run for each path. The model keeps all tasks ever created, with what they have to do next, and lets any of them go on at
any time; the executions with a limited number of workers are among these. Shared data are the map of source files, the error log and the
counter of unfinished tasks. A step contains at most one access to shared data. The file system does not change during the scan; see
`ScanMoving.lean` for one that does.
`ScanThreads.lean` has the threads, the mutexes and the notifications one operation at a time, and C105 shows that nothing else can be
observed there.
-/

namespace Maike.Tree

open Fs Paths
open Maike.Db.Map (insertNew Sorted)

/-- The surroundings of a scan. `Except.error` stands for an exception with the given message. -/
structure World (I : Type) where
  /-- `m_root` -/
  root : Path
  recursive : Bool
  /-- `r_filter.match` and `r_dir_filter.match` -/
  nameFilter : Str → Bool
  dirFilter : Str → Bool
  /-- `is_directory` -/
  isDir : Path → Except Str Bool
  /-- What iteration over a directory yields, and the message if this fails in the end (possibly before the first name). -/
  names : Path → List Str × Option Str
  /-- `r_loaders.get().load`, with the source directory and the target directory fixed -/
  load : Path → Except Str I

/-- What a task has to do next. -/
inductive Phase where
  /-- has not begun -/
  | pending
  /-- the path was not found in the map -/
  | checked
  /-- a directory: the tasks for these names have to be added, then the iteration ends with an exception or without -/
  | spawning (rest : List Str) (err : Option Str)
  /-- in the exception handler -/
  | failing (msg : Str)
  /-- about to decrease the counter -/
  | ending
  | done
deriving DecidableEq

/-- Data shared by all tasks. -/
structure Shared (I : Type) where
  files : List (Path × I)
  errlog : List Str
  counter : Nat
  /-- ghost: the paths for which `load` was called, latest first -/
  loads : List Path

/-- The filters, core/source_tree_loader/directory_scanner.cpp:44-51: whether the path is left out. -/
def World.leftOut {I : Type} (w : World I) (p : Path) : Except Str Bool :=
  if p ≠ w.root then
    (if !w.recursive then w.isDir p else .ok false).map fun stop =>
      stop || w.nameFilter p.filename || w.dirFilter (p.relativeTo w.root).str
  else .ok false

/-- One step of `processPath`, core/source_tree_loader/directory_scanner.cpp:37-94: the new shared data, the new phase and the paths for
which tasks are added. `none` if the task is done. -/
def advance {I : Type} (w : World I) (s : Shared I) (p : Path) : Phase → Option (Shared I × Phase × List Path)
  | .pending =>
    match w.leftOut p with
    | .error msg => some (s, .failing msg, [])
    | .ok true => some (s, .ending, [])
    | .ok false =>
      match Db.Map.lookup p.normal s.files with
      | some _ => some (s, .ending, [])
      | none => some (s, .checked, [])
  | .checked =>
    match w.load p with
    | .error msg => some ({ s with loads := p :: s.loads }, .failing msg, [])
    | .ok info =>
      match Db.Map.lookup p.normal s.files with
      | some _ => some ({ s with loads := p :: s.loads }, .ending, [])
      | none =>
        let s := { s with files := insertNew p.normal info s.files, loads := p :: s.loads }
        match w.isDir p.normal with
        | .error msg => some (s, .failing msg, [])
        | .ok false => some (s, .ending, [])
        | .ok true => some (s, .spawning (w.names p.normal).1 (w.names p.normal).2, [])
  | .spawning (n :: rest) err =>
    some ({ s with counter := s.counter + 1 }, .spawning rest err, [p.normal / ⟨false, [n], false⟩])
  | .spawning [] none => some (s, .ending, [])
  | .spawning [] (some msg) => some (s, .failing msg, [])
  | .failing msg => some ({ s with errlog := msg :: s.errlog }, .ending, [])
  | .ending => some ({ s with counter := s.counter - 1 }, .done, [])
  | .done => none

/-- The state of a scan: all tasks, and the shared data. -/
structure Scan (I : Type) where
  tasks : List (Path × Phase)
  shared : Shared I

/-- After `processPath(root)`, core/source_tree_loader/directory_scanner.cpp:9-26. -/
def Scan.init {I : Type} (w : World I) : Scan I := ⟨[(w.root, .pending)], ⟨[], [], 1, []⟩⟩

/-- Any task makes a step. -/
inductive Step {I : Type} (w : World I) : Scan I → Scan I → Prop
  | mk {pre post : List (Path × Phase)} {p : Path} {ph ph' : Phase} {s s' : Shared I} {new : List Path} :
      advance w s p ph = some (s', ph', new) →
      Step w ⟨pre ++ (p, ph) :: post, s⟩ ⟨pre ++ (p, ph') :: post ++ new.map (·, .pending), s'⟩

/-- Executions with a given number of steps. -/
inductive Steps {I : Type} (w : World I) : Nat → Scan I → Scan I → Prop
  | refl {s} : Steps w 0 s s
  | tail {n s t u} : Steps w n s t → Step w t u → Steps w (n + 1) s u

/-- `ScanException`, core/source_tree_loader/directory_scanner.cpp:28-35. -/
def scanException (errlog : List Str) : Str := errlog.flatMap fun m => m ++ ['\n']

/-- `takeResult`, core/source_tree_loader/directory_scanner.hpp:74-79. `none` while it has to wait. -/
def takeResult {I : Type} (s : Scan I) : Option (Except Str (List (Path × I))) :=
  if s.shared.counter ≠ 0 then none
  else if s.shared.errlog ≠ [] then some (.error (scanException s.shared.errlog))
  else some (.ok s.shared.files)

/-! ## Specification -/

/-- The names in a directory are different from each other, and there is no `.` or `..` among them. -/
structure World.Ok {I : Type} (w : World I) : Prop where
  root : w.root ≠ Path.empty
  nodup : ∀ d, (w.names d).1.Nodup
  isName : ∀ d, ∀ n ∈ (w.names d).1, IsName n

/-- The path passes the filters: the start directory does; another path does if its last name is not matched by the name filter, its
path relative to the start directory is not matched by the directory filter, and it is not a directory in a scan without recursion. -/
def World.Passes {I : Type} (w : World I) (p : Path) : Prop :=
  p = w.root ∨ ((w.recursive = true ∨ w.isDir p = .ok false) ∧ w.nameFilter p.filename = false ∧
    w.dirFilter (p.relativeTo w.root).str = false)

/-- The path is a directory that is entered. -/
def World.Enters {I : Type} (w : World I) (p : Path) : Prop :=
  w.Passes p ∧ (∃ i, w.load p = .ok i) ∧ w.isDir p.normal = .ok true

/-- The paths that are reached from the start directory through directories that pass the filters. -/
inductive World.Reached {I : Type} (w : World I) : Path → Prop
  | root : w.Reached w.root
  | entry {p n} : w.Reached p → w.Enters p → n ∈ (w.names p.normal).1 → w.Reached (p.normal / ⟨false, [n], false⟩)

/-- The messages for paths that cannot be handled. -/
inductive World.Says {I : Type} (w : World I) (p : Path) : Str → Prop
  /-- in a scan without recursion, it could not be found out whether the path is a directory -/
  | filter {m} : p ≠ w.root → w.recursive = false → w.isDir p = .error m → w.Says p m
  /-- the loader failed -/
  | load {m} : w.Passes p → w.load p = .error m → w.Says p m
  /-- it could not be found out whether the path has entries -/
  | isDir {m i} : w.Passes p → w.load p = .ok i → w.isDir p.normal = .error m → w.Says p m
  /-- the entries could not be listed completely -/
  | names {m} : w.Enters p → (w.names p.normal).2 = some m → w.Says p m

/-- The directories below a path have at most `h` levels. -/
def World.Height {I : Type} (w : World I) : Nat → Path → Prop
  | 0, _ => False
  | h + 1, p => w.Enters p → ∀ n ∈ (w.names p.normal).1, w.Height h (p.normal / ⟨false, [n], false⟩)

/-! ## Filters and messages -/

variable {I : Type} {w : World I}

theorem passes_iff {p : Path} : w.Passes p ↔ w.leftOut p = .ok false := by
  unfold World.Passes World.leftOut
  by_cases hr : p = w.root
  · simp [hr]
  · simp only [hr, false_or, ne_eq, not_false_eq_true, if_true]
    cases hrec : w.recursive with
    | true => simp [Except.map]
    | false =>
      cases hd : w.isDir p with
      | error m => simp [Except.map]
      | ok b => cases b <;> simp [Except.map]

/-- The message for a path that cannot be handled. -/
def World.message {I : Type} (w : World I) (p : Path) : Option Str :=
  match w.leftOut p with
  | .error m => some m
  | .ok true => none
  | .ok false =>
    match w.load p with
    | .error m => some m
    | .ok _ =>
      match w.isDir p.normal with
      | .error m => some m
      | .ok false => none
      | .ok true => (w.names p.normal).2

theorem leftOut_error {p : Path} {m : Str} :
    w.leftOut p = .error m ↔ p ≠ w.root ∧ w.recursive = false ∧ w.isDir p = .error m := by
  unfold World.leftOut
  by_cases hr : p = w.root
  · simp [hr]
  · simp only [hr, ne_eq, not_false_eq_true, if_true]
    cases hrec : w.recursive with
    | true => simp [Except.map]
    | false =>
      cases hd : w.isDir p with
      | error m => simp [Except.map]
      | ok b => cases b <;> simp [Except.map]

theorem says_iff {p : Path} {m : Str} : w.Says p m ↔ w.message p = some m := by
  unfold World.message
  constructor
  · intro h
    cases h with
    | filter h1 h2 h3 => rw [leftOut_error.mpr ⟨h1, h2, h3⟩]
    | load h1 h2 => rw [passes_iff.mp h1]; simp only; rw [h2]
    | isDir h1 h2 h3 => rw [passes_iff.mp h1]; simp only; rw [h2]; simp only; rw [h3]
    | names h1 h2 =>
      obtain ⟨g1, ⟨i, g2⟩, g3⟩ := h1
      rw [passes_iff.mp g1]; simp only; rw [g2]; simp only; rw [g3]; exact h2
  · intro h
    cases h1 : w.leftOut p with
    | error m' =>
      rw [h1] at h
      simp only [Option.some.injEq] at h
      obtain ⟨g1, g2, g3⟩ := leftOut_error.mp h1
      exact .filter g1 g2 (by rw [g3, h])
    | ok b =>
      rw [h1] at h
      cases b with
      | true => simp at h
      | false =>
        simp only at h
        cases h2 : w.load p with
        | error m' =>
          rw [h2] at h
          simp only [Option.some.injEq] at h
          exact .load (passes_iff.mpr h1) (by rw [h2, h])
        | ok i =>
          rw [h2] at h
          simp only at h
          cases h3 : w.isDir p.normal with
          | error m' =>
            rw [h3] at h
            simp only [Option.some.injEq] at h
            exact .isDir (passes_iff.mpr h1) h2 (by rw [h3, h])
          | ok b =>
            rw [h3] at h
            cases b with
            | false => simp at h
            | true => exact .names ⟨passes_iff.mpr h1, ⟨i, h2⟩, h3⟩ h

/-! ## Paths determine their place -/

/-- The path is located at `sub` below the start directory. -/
structure Located (w : World I) (p : Path) (sub : List Str) : Prop where
  names : ∀ n ∈ sub, IsName n
  normalNames : p.normal.names = (inside w.root.normal sub).names
  normalRoot : p.normal.root = w.root.root
  isRoot : sub = [] → p = w.root
  isEntry : ∀ sub' n, sub = sub' ++ [n] → p = ⟨w.root.root, (inside w.root.normal sub').names ++ [n], false⟩

theorem root_ne (hw : w.Ok) : w.root.normal ≠ Path.empty := fun e => hw.root ((normal_eq_empty _).mp e)

theorem inside_injective (base : Path) (sub sub' : List Str) (h : ∀ n ∈ sub, IsName n) (h' : ∀ n ∈ sub', IsName n)
    (he : (inside base sub).names = (inside base sub').names) : sub = sub' := by
  have hi : ∀ s, inside base s = ⟨base.root, (inside base s).names, false⟩ := fun s => rfl
  have : walk [] (inside base sub) = walk [] (inside base sub') := by rw [hi sub, hi sub', he]
  rw [inside_walk, inside_walk, foldl_names _ h, foldl_names _ h'] at this
  exact List.reverse_inj.mp (List.append_cancel_right this)

theorem entry_eq (p : Path) (n : Str) (hn : IsName n) : p / ⟨false, [n], false⟩ = ⟨p.root, p.names ++ [n], false⟩ :=
  relative_step _ _ ⟨rfl, by simp, by simpa using hn.2.2⟩

theorem located_entry (hw : w.Ok) {p : Path} {sub : List Str} (h : Located w p sub) {n : Str} (hn : IsName n) :
    Located w (p.normal / ⟨false, [n], false⟩) (sub ++ [n]) := by
  have hsub : ∀ x ∈ sub ++ [n], IsName x := by
    intro x hx
    rcases List.mem_append.mp hx with hx | hx
    · exact h.names x hx
    · simp only [List.mem_singleton] at hx; rw [hx]; exact hn
  have hi : ∀ s, inside w.root.normal s = ⟨w.root.root, (inside w.root.normal s).names, false⟩ := fun s => by
    unfold inside; rw [normal_root]
  have he : p.normal / ⟨false, [n], false⟩ = ⟨w.root.root, (inside w.root.normal sub).names ++ [n], false⟩ := by
    rw [entry_eq _ _ hn, h.normalNames, h.normalRoot]
  refine ⟨hsub, ?_, ?_, by simp, ?_⟩
  · rw [← normal_eq_self (inside_normal _ (normal_isNormal w.root) (root_ne hw) _ hsub)]
    apply normal_unique
    · rw [he]; simp [Path.empty]
    · exact inside_ne_empty _ (normal_isNormal _) (root_ne hw) _
    · rw [he, hi (sub ++ [n])]
    · intro cwd
      rw [he, inside_walk]
      have : ∀ l, walk cwd ⟨w.root.root, l ++ [n], false⟩ = walkStep (walk cwd ⟨w.root.root, l, false⟩) n := by
        intro l; simp [walk, List.foldl_append]
      rw [this, ← hi, inside_walk]
      simp [List.foldl_append]
  · rw [normal_root, he]
  · intro sub' n' e
    obtain ⟨e1, e2⟩ := List.append_inj' e rfl
    simp only [List.cons.injEq, and_true] at e2
    subst e1 e2
    exact he

theorem located (hw : w.Ok) {p : Path} (h : w.Reached p) : ∃ sub, Located w p sub := by
  induction h with
  | root =>
    refine ⟨[], by simp, ?_, normal_root _, fun _ => rfl, by simp⟩
    unfold inside
    simp
  | entry h he hn ih =>
    obtain ⟨sub, hs⟩ := ih
    exact ⟨_, located_entry hw hs (hw.isName _ _ hn)⟩

/-- Different paths lead to different entries of the map. -/
theorem reached_injective (hw : w.Ok) {p q : Path} (hp : w.Reached p) (hq : w.Reached q) (he : p.normal.names = q.normal.names) : p = q := by
  obtain ⟨sub, h1⟩ := located hw hp
  obtain ⟨sub', h2⟩ := located hw hq
  have := inside_injective _ _ _ h1.names h2.names (by rw [← h1.normalNames, ← h2.normalNames, he])
  subst this
  rcases List.eq_nil_or_concat sub with e | ⟨l, n, e⟩
  · rw [h1.isRoot e, h2.isRoot e]
  · rw [List.concat_eq_append] at e
    rw [h1.isEntry _ _ e, h2.isEntry _ _ e]

theorem entry_injective (hw : w.Ok) {p q : Path} (hp : w.Reached p) (hq : w.Reached q) {n m : Str} (hn : IsName n) (hm : IsName m)
    (he : p.normal / ⟨false, [n], false⟩ = q.normal / ⟨false, [m], false⟩) : p = q ∧ n = m := by
  rw [entry_eq _ _ hn, entry_eq _ _ hm] at he
  injection he with h1 h2
  obtain ⟨e1, e2⟩ := List.append_inj' h2 rfl
  simp only [List.cons.injEq, and_true] at e2
  exact ⟨reached_injective hw hp hq e1, e2⟩

theorem entry_ne_root (hw : w.Ok) {p : Path} (hp : w.Reached p) {n : Str} (hn : IsName n) : p.normal / ⟨false, [n], false⟩ ≠ w.root := by
  obtain ⟨sub, h1⟩ := located hw hp
  have h2 := located_entry hw h1 hn
  intro e
  rw [e] at h2
  have h3 : Located w w.root [] := ⟨by simp, by unfold inside; simp, normal_root _, fun _ => rfl, by simp⟩
  have := inside_injective _ _ _ h2.names h3.names (by rw [← h2.normalNames, ← h3.normalNames])
  simp at this

/-! ## Invariant -/

/-- The path has been handled, except for its entries and its error message. -/
def Phase.Processed (ph : Phase) : Prop := ph ≠ .pending ∧ ph ≠ .checked

def Phase.live : Phase → Nat
  | .done => 0
  | _ => 1

/-- What is known about a task. -/
def LocalOk (w : World I) (created : List Path) (p : Path) : Phase → Prop
  | .pending => True
  | .checked => w.Passes p
  | .spawning rest err => w.Enters p ∧ err = (w.names p.normal).2 ∧
      ∃ pre, (w.names p.normal).1 = pre ++ rest ∧ ∀ n ∈ pre, p.normal / ⟨false, [n], false⟩ ∈ created
  | .failing m => w.message p = some m ∧ (w.Enters p → ∀ n ∈ (w.names p.normal).1, p.normal / ⟨false, [n], false⟩ ∈ created)
  | .ending => w.Enters p → ∀ n ∈ (w.names p.normal).1, p.normal / ⟨false, [n], false⟩ ∈ created
  | .done => w.Enters p → ∀ n ∈ (w.names p.normal).1, p.normal / ⟨false, [n], false⟩ ∈ created

def HasFile (w : World I) (t : Path × Phase) (k : Path) (i : I) : Prop :=
  t.2.Processed ∧ w.Passes t.1 ∧ w.load t.1 = .ok i ∧ k = t.1.normal

def Spawned (w : World I) (t : Path × Phase) (q : Path) : Prop :=
  t.2.Processed ∧ w.Enters t.1 ∧ ∃ n ∈ (w.names t.1.normal).1, q = t.1.normal / ⟨false, [n], false⟩ ∧
    ∀ rest err, t.2 = .spawning rest err → n ∉ rest

def errOf (w : World I) (t : Path × Phase) : Option Str :=
  match t.2 with
  | .ending => w.message t.1
  | .done => w.message t.1
  | _ => none

structure Inv (w : World I) (s : Scan I) : Prop where
  nodup : (s.tasks.map (·.1)).Nodup
  reached : ∀ t ∈ s.tasks, w.Reached t.1
  hasRoot : w.root ∈ s.tasks.map (·.1)
  sorted : Sorted s.shared.files
  loc : ∀ t ∈ s.tasks, LocalOk w (s.tasks.map (·.1)) t.1 t.2
  files : ∀ k i, (k, i) ∈ s.shared.files ↔ ∃ t ∈ s.tasks, HasFile w t k i
  loadsNodup : s.shared.loads.Nodup
  loads : ∀ p, p ∈ s.shared.loads ↔ ∃ t ∈ s.tasks, t.1 = p ∧ t.2.Processed ∧ w.Passes p
  origin : ∀ q ∈ s.tasks.map (·.1), q = w.root ∨ ∃ t ∈ s.tasks, Spawned w t q
  errlog : s.shared.errlog.Perm (s.tasks.filterMap (errOf w))
  counter : s.shared.counter = (s.tasks.map fun t => t.2.live).sum

theorem LocalOk.mono {created created' : List Path} (h : ∀ q ∈ created, q ∈ created') {p : Path} {ph : Phase}
    (hl : LocalOk w created p ph) : LocalOk w created' p ph := by
  cases ph with
  | pending => trivial
  | checked => exact hl
  | spawning rest err =>
    obtain ⟨h1, h2, pre, h3, h4⟩ := hl
    exact ⟨h1, h2, pre, h3, fun n hn => h _ (h4 n hn)⟩
  | failing m => exact ⟨hl.1, fun he n hn => h _ (hl.2 he n hn)⟩
  | ending => exact fun he n hn => h _ (hl he n hn)
  | done => exact fun he n hn => h _ (hl he n hn)

theorem init_inv : Inv w (Scan.init w) := by
  refine ⟨by simp [Scan.init], ?_, by simp [Scan.init], trivial, ?_, ?_, by simp [Scan.init], ?_, ?_, ?_, rfl⟩
  · intro t ht
    simp only [Scan.init, List.mem_singleton] at ht
    rw [ht]
    exact .root
  · intro t ht
    simp only [Scan.init, List.mem_singleton] at ht
    rw [ht]
    trivial
  · intro k i
    simp [Scan.init, HasFile, Phase.Processed]
  · intro p
    simp [Scan.init, Phase.Processed]
  · intro q hq
    simp only [Scan.init, List.map_cons, List.map_nil, List.mem_singleton] at hq
    exact .inl hq
  · simp [Scan.init, errOf]

/-- A step that changes one task. -/
theorem inv_move {pre post : List (Path × Phase)} {p : Path} {ph ph' : Phase} {s s' : Shared I}
    (h : Inv w ⟨pre ++ (p, ph) :: post, s⟩)
    (hl : LocalOk w ((pre ++ (p, ph) :: post).map (·.1)) p ph')
    (hpr : ph.Processed → ph'.Processed)
    (hsp : ∀ q, Spawned w (p, ph) q → Spawned w (p, ph') q)
    (hs : Sorted s'.files)
    (hf : ∀ k i, (k, i) ∈ s'.files ↔ (k, i) ∈ s.files ∨ HasFile w (p, ph') k i)
    (hn : s'.loads.Nodup) (hlo : ∀ q, q ∈ s'.loads ↔ q ∈ s.loads ∨ (q = p ∧ ph'.Processed ∧ w.Passes p))
    (he : (s'.errlog ++ (errOf w (p, ph)).toList).Perm (s.errlog ++ (errOf w (p, ph')).toList))
    (hc : s'.counter + ph.live = s.counter + ph'.live) :
    Inv w ⟨pre ++ (p, ph') :: post, s'⟩ := by
  have hmap : (pre ++ (p, ph') :: post).map (·.1) = (pre ++ (p, ph) :: post).map (·.1) := by simp
  have mem : ∀ {x : Phase} {t : Path × Phase}, t ∈ pre ++ (p, x) :: post ↔ t = (p, x) ∨ t ∈ pre ∨ t ∈ post := by
    intro x t
    simp only [List.mem_append, List.mem_cons]
    constructor
    · rintro (h | h | h) <;> simp [h]
    · rintro (h | h | h) <;> simp [h]
  refine ⟨?_, ?_, ?_, hs, ?_, ?_, hn, ?_, ?_, ?_, ?_⟩
  · rw [hmap]; exact h.nodup
  · intro t ht
    rcases mem.mp ht with rfl | ht
    · exact h.reached (p, ph) (mem.mpr (.inl rfl))
    · exact h.reached t (mem.mpr (.inr ht))
  · rw [hmap]; exact h.hasRoot
  · intro t ht
    dsimp only
    rw [hmap]
    rcases mem.mp ht with rfl | ht
    · exact hl
    · exact h.loc t (mem.mpr (.inr ht))
  · intro k i
    have := h.files k i
    dsimp only at this ⊢
    rw [hf, this]
    constructor
    · rintro (⟨t, ht, hh⟩ | hh)
      · rcases mem.mp ht with rfl | ht
        · exact ⟨(p, ph'), mem.mpr (.inl rfl), hpr hh.1, hh.2⟩
        · exact ⟨t, mem.mpr (.inr ht), hh⟩
      · exact ⟨(p, ph'), mem.mpr (.inl rfl), hh⟩
    · rintro ⟨t, ht, hh⟩
      rcases mem.mp ht with rfl | ht
      · exact .inr hh
      · exact .inl ⟨t, mem.mpr (.inr ht), hh⟩
  · intro q
    have := h.loads q
    dsimp only at this ⊢
    rw [hlo, this]
    constructor
    · rintro (⟨t, ht, hh⟩ | hh)
      · rcases mem.mp ht with rfl | ht
        · exact ⟨(p, ph'), mem.mpr (.inl rfl), hh.1, hpr hh.2.1, hh.2.2⟩
        · exact ⟨t, mem.mpr (.inr ht), hh⟩
      · exact ⟨(p, ph'), mem.mpr (.inl rfl), hh.1.symm, hh.2.1, hh.1 ▸ hh.2.2⟩
    · rintro ⟨t, ht, hh⟩
      rcases mem.mp ht with rfl | ht
      · exact .inr ⟨hh.1.symm, hh.2.1, by have := hh.1; simp only at this; rw [this]; exact hh.2.2⟩
      · exact .inl ⟨t, mem.mpr (.inr ht), hh⟩
  · intro q hq
    dsimp only at hq
    rw [hmap] at hq
    rcases h.origin q hq with e | ⟨t, ht, hh⟩
    · exact .inl e
    · right
      rcases mem.mp ht with rfl | ht
      · exact ⟨(p, ph'), mem.mpr (.inl rfl), hsp q hh⟩
      · exact ⟨t, mem.mpr (.inr ht), hh⟩
  · have h1 := h.errlog
    dsimp only at h1 ⊢
    have split : ∀ x, ((pre ++ (p, x) :: post).filterMap (errOf w)).Perm
        ((pre.filterMap (errOf w) ++ post.filterMap (errOf w)) ++ (errOf w (p, x)).toList) := by
      intro x
      rw [List.filterMap_append, List.filterMap_cons, List.append_assoc]
      apply List.Perm.append_left
      cases errOf w (p, x) with
      | none => simp
      | some m => simpa using (List.perm_append_singleton m _).symm
    have h2 := h1.trans (split ph)
    have h3 : (s'.errlog ++ (errOf w (p, ph)).toList).Perm
        (((pre.filterMap (errOf w) ++ post.filterMap (errOf w)) ++ (errOf w (p, ph')).toList) ++ (errOf w (p, ph)).toList) := by
      refine he.trans ((h2.append_right _).trans ?_)
      simp only [List.append_assoc]
      exact List.Perm.append_left _ (List.Perm.append_left _ List.perm_append_comm)
    exact ((List.perm_append_right_iff _).mp h3).trans (split ph').symm
  · have h1 := h.counter
    simp only [List.map_append, List.map_cons, List.sum_append, List.sum_cons] at h1 ⊢
    omega

theorem same_task {l : List (Path × Phase)} (hnd : (l.map (·.1)).Nodup) {t u : Path × Phase} (ht : t ∈ l) (hu : u ∈ l) (e : t.1 = u.1) :
    t = u := by
  induction l with
  | nil => simp at ht
  | cons x l ih =>
    simp only [List.map_cons, List.nodup_cons] at hnd
    rcases List.mem_cons.mp ht with g1 | g1
    · rcases List.mem_cons.mp hu with g2 | g2
      · rw [g1, g2]
      · exact absurd (List.mem_map.mpr ⟨u, g2, by rw [← e, g1]⟩) hnd.1
    · rcases List.mem_cons.mp hu with g2 | g2
      · exact absurd (List.mem_map.mpr ⟨t, g1, by rw [e, g2]⟩) hnd.1
      · exact ih hnd.2 g1 g2

/-- The step that adds a task. -/
theorem inv_spawn (hw : w.Ok) {pre post : List (Path × Phase)} {p : Path} {n : Str} {rest : List Str} {err : Option Str} {s : Shared I}
    (h : Inv w ⟨pre ++ (p, .spawning (n :: rest) err) :: post, s⟩) :
    Inv w ⟨pre ++ (p, .spawning rest err) :: post ++ [(p.normal / ⟨false, [n], false⟩, .pending)], { s with counter := s.counter + 1 }⟩ := by
  have mem0 : (p, Phase.spawning (n :: rest) err) ∈ pre ++ (p, .spawning (n :: rest) err) :: post := by simp
  obtain ⟨hent, herr, done, hnames, hdone⟩ := h.loc _ mem0
  have hreach := h.reached _ mem0
  have hn : n ∈ (w.names p.normal).1 := by rw [hnames]; simp
  have hname := hw.isName _ _ hn
  have hnodup := hw.nodup p.normal
  rw [hnames] at hnodup
  have hfresh : p.normal / ⟨false, [n], false⟩ ∉ (pre ++ (p, Phase.spawning (n :: rest) err) :: post).map (·.1) := by
    intro hq
    rcases h.origin _ hq with e | ⟨t, ht, _, _, m, hm, e, hrest⟩
    · exact entry_ne_root hw hreach hname e
    · obtain ⟨e1, e2⟩ := entry_injective hw hreach (h.reached t ht) hname (hw.isName _ _ hm) e
      -- the task is the same one
      have : t = (p, .spawning (n :: rest) err) := same_task h.nodup ht mem0 e1.symm
      rw [this] at hrest
      exact hrest _ _ rfl (by rw [← e2]; simp)
  have h1 : Inv w ⟨pre ++ (p, .spawning rest err) :: post ++ [(p.normal / ⟨false, [n], false⟩, .pending)],
      { s with counter := s.counter + 1 }⟩ := by
    have hmap : (pre ++ (p, Phase.spawning rest err) :: post ++ [(p.normal / ⟨false, [n], false⟩, Phase.pending)]).map (·.1) =
        (pre ++ (p, Phase.spawning (n :: rest) err) :: post).map (·.1) ++ [p.normal / ⟨false, [n], false⟩] := by simp
    have mem : ∀ {t : Path × Phase}, t ∈ pre ++ (p, Phase.spawning rest err) :: post ++ [(p.normal / ⟨false, [n], false⟩, Phase.pending)] ↔
        t = (p, .spawning rest err) ∨ (t ∈ pre ∨ t ∈ post) ∨ t = (p.normal / ⟨false, [n], false⟩, .pending) := by
      intro t
      simp only [List.mem_append, List.mem_cons, List.not_mem_nil, or_false]
      constructor
      · rintro ((h | h | h) | h) <;> simp [h]
      · rintro (h | (h | h) | h) <;> simp [h]
    have memo : ∀ {t : Path × Phase}, t ∈ pre ++ (p, Phase.spawning (n :: rest) err) :: post ↔
        t = (p, .spawning (n :: rest) err) ∨ t ∈ pre ∨ t ∈ post := by
      intro t
      simp only [List.mem_append, List.mem_cons]
      constructor
      · rintro (h | h | h) <;> simp [h]
      · rintro (h | h | h) <;> simp [h]
    refine ⟨?_, ?_, ?_, h.sorted, ?_, ?_, h.loadsNodup, ?_, ?_, ?_, ?_⟩
    · dsimp only
      rw [hmap, List.nodup_append]
      refine ⟨h.nodup, by simp, ?_⟩
      intro a ha b hb e
      simp only [List.mem_singleton] at hb
      rw [e, hb] at ha
      exact hfresh ha
    · intro t ht
      rcases mem.mp ht with rfl | ht | rfl
      · exact hreach
      · exact h.reached t (memo.mpr (.inr ht))
      · exact .entry hreach hent hn
    · dsimp only
      rw [hmap]
      exact List.mem_append_left _ h.hasRoot
    · intro t ht
      dsimp only
      rw [hmap]
      rcases mem.mp ht with rfl | ht | rfl
      · refine ⟨hent, herr, done ++ [n], by rw [hnames]; simp, ?_⟩
        intro m hm
        rcases List.mem_append.mp hm with hm | hm
        · exact List.mem_append_left _ (hdone m hm)
        · simp only [List.mem_singleton] at hm
          rw [hm]; simp
      · exact (h.loc t (memo.mpr (.inr ht))).mono fun q hq => List.mem_append_left _ hq
      · trivial
    · intro k i
      have := h.files k i
      dsimp only at this ⊢
      rw [this]
      constructor
      · rintro ⟨t, ht, hh⟩
        rcases memo.mp ht with rfl | ht
        · exact ⟨(p, .spawning rest err), mem.mpr (.inl rfl), ⟨by simp, by simp⟩, hh.2⟩
        · exact ⟨t, mem.mpr (.inr (.inl ht)), hh⟩
      · rintro ⟨t, ht, hh⟩
        rcases mem.mp ht with rfl | ht | rfl
        · exact ⟨_, mem0, ⟨by simp, by simp⟩, hh.2⟩
        · exact ⟨t, memo.mpr (.inr ht), hh⟩
        · exact absurd rfl hh.1.1
    · intro q
      have := h.loads q
      dsimp only at this ⊢
      rw [this]
      constructor
      · rintro ⟨t, ht, hh⟩
        rcases memo.mp ht with rfl | ht
        · exact ⟨(p, .spawning rest err), mem.mpr (.inl rfl), hh.1, ⟨by simp, by simp⟩, hh.2.2⟩
        · exact ⟨t, mem.mpr (.inr (.inl ht)), hh⟩
      · rintro ⟨t, ht, hh⟩
        rcases mem.mp ht with rfl | ht | rfl
        · exact ⟨_, mem0, hh.1, ⟨by simp, by simp⟩, hh.2.2⟩
        · exact ⟨t, memo.mpr (.inr ht), hh⟩
        · exact absurd rfl hh.2.1.1
    · intro q hq
      dsimp only at hq
      rw [hmap] at hq
      rcases List.mem_append.mp hq with hq | hq
      · rcases h.origin q hq with e | ⟨t, ht, hh⟩
        · exact .inl e
        · right
          rcases memo.mp ht with rfl | ht
          · obtain ⟨_, g2, m, g3, g4, g5⟩ := hh
            refine ⟨(p, .spawning rest err), mem.mpr (.inl rfl), ⟨by simp, by simp⟩, g2, m, g3, g4, ?_⟩
            intro r e heq
            simp only [Phase.spawning.injEq] at heq
            have := g5 (n :: rest) err rfl
            rw [← heq.1]
            exact fun hm => this (List.mem_cons_of_mem _ hm)
          · exact ⟨t, mem.mpr (.inr (.inl ht)), hh⟩
      · simp only [List.mem_singleton] at hq
        right
        refine ⟨(p, .spawning rest err), mem.mpr (.inl rfl), ⟨by simp, by simp⟩, hent, n, hn, hq, ?_⟩
        intro r e heq
        simp only [Phase.spawning.injEq] at heq
        rw [← heq.1]
        have := (List.nodup_append.mp hnodup).2.1
        exact (List.nodup_cons.mp this).1
    · have := h.errlog
      simpa [errOf, List.filterMap_append, List.filterMap_cons] using this
    · have := h.counter
      simp only [List.map_append, List.map_cons, List.sum_append, List.sum_cons, Phase.live] at this ⊢
      simp
      omega
  exact h1

theorem files_none {s : Scan I} (h : Inv w s) (hw : w.Ok) {p : Path} {ph : Phase} (hm : (p, ph) ∈ s.tasks) (hp : ¬ ph.Processed) :
    Db.Map.lookup p.normal s.shared.files = none := by
  rw [Db.Map.lookup_none]
  rintro ⟨k, i⟩ hx e
  obtain ⟨t, ht, h1, _, _, h4⟩ := (h.files k i).mp hx
  simp only at e
  have : t.1 = p := reached_injective hw (h.reached t ht) (h.reached _ hm) (by rw [← h4, e])
  -- the same task
  have : t = (p, ph) := same_task h.nodup ht hm this
  rw [this] at h1
  exact hp h1

theorem step_inv (hw : w.Ok) {s t : Scan I} (h : Inv w s) (hs : Step w s t) : Inv w t := by
  cases hs with
  | @mk pre post p ph ph' s s' new ha =>
    have mem0 : (p, ph) ∈ pre ++ (p, ph) :: post := by simp
    have hloc := h.loc _ mem0
    simp only at hloc
    have hsorted := h.sorted
    have hlnd := h.loadsNodup
    simp only at hsorted hlnd
    cases ph with
    | pending =>
      have hno := files_none h hw mem0 (by simp [Phase.Processed])
      have nosp : ∀ q x, Spawned w (p, .pending) q → Spawned w (p, x) q := fun q x hh => absurd rfl hh.1.1
      simp only [advance] at ha
      cases hlo : w.leftOut p with
      | error msg =>
        simp only [hlo, Option.some.injEq, Prod.mk.injEq] at ha
        obtain ⟨rfl, rfl, rfl⟩ := ha
        have hnp : ¬ w.Passes p := by simp [passes_iff, hlo]
        rw [List.map_nil, List.append_nil]
        refine inv_move h ⟨by simp [World.message, hlo], fun he => absurd he.1 hnp⟩ (fun _ => ⟨by simp, by simp⟩) (fun q => nosp q _) hsorted ?_
          hlnd ?_ (by simp [errOf]) rfl
        · intro k i
          exact ⟨.inl, fun hh => hh.elim id fun hh => absurd hh.2.1 hnp⟩
        · intro q
          exact ⟨.inl, fun hh => hh.elim id fun hh => absurd hh.2.2 hnp⟩
      | ok b =>
        cases b with
        | true =>
          simp only [hlo, Option.some.injEq, Prod.mk.injEq] at ha
          obtain ⟨rfl, rfl, rfl⟩ := ha
          have hnp : ¬ w.Passes p := by simp [passes_iff, hlo]
          rw [List.map_nil, List.append_nil]
          refine inv_move h (fun he => absurd he.1 hnp) (fun _ => ⟨by simp, by simp⟩) (fun q => nosp q _) hsorted ?_
            hlnd ?_ (by simp [errOf, World.message, hlo]) rfl
          · intro k i
            exact ⟨.inl, fun hh => hh.elim id fun hh => absurd hh.2.1 hnp⟩
          · intro q
            exact ⟨.inl, fun hh => hh.elim id fun hh => absurd hh.2.2 hnp⟩
        | false =>
          simp only [hlo] at ha
          simp only at hno
          rw [hno] at ha
          simp only [Option.some.injEq, Prod.mk.injEq] at ha
          obtain ⟨rfl, rfl, rfl⟩ := ha
          rw [List.map_nil, List.append_nil]
          refine inv_move h (passes_iff.mpr hlo) (fun hh => absurd rfl hh.1) (fun q => nosp q _) hsorted ?_ hlnd ?_ (by simp [errOf]) rfl
          · intro k i
            exact ⟨.inl, fun hh => hh.elim id fun hh => absurd rfl hh.1.2⟩
          · intro q
            exact ⟨.inl, fun hh => hh.elim id fun hh => absurd rfl hh.2.1.2⟩
    | checked =>
      have hno := files_none h hw mem0 (by simp [Phase.Processed])
      simp only at hno
      have nosp : ∀ q x, Spawned w (p, .checked) q → Spawned w (p, x) q := fun q x hh => absurd rfl hh.1.2
      have hpass' : w.Passes p := hloc
      have hpass := passes_iff.mp hpass'
      have hnl : p ∉ s.loads := by
        intro hh
        obtain ⟨t, ht, e, h2, _⟩ := (h.loads p).mp hh
        have hf := h.files
        have : t = (p, .checked) := same_task h.nodup ht mem0 e
        rw [this] at h2
        exact h2.2 rfl
      have hnd' : (p :: s.loads).Nodup := List.nodup_cons.mpr ⟨hnl, hlnd⟩
      have hlo' : ∀ x : Phase, x.Processed → ∀ q, q ∈ p :: s.loads ↔ q ∈ s.loads ∨ (q = p ∧ x.Processed ∧ w.Passes p) := by
        intro x hx q
        rw [List.mem_cons]
        constructor
        · rintro (e | hh)
          · exact .inr ⟨e, hx, hpass'⟩
          · exact .inl hh
        · rintro (hh | hh)
          · exact .inr hh
          · exact .inl hh.1
      simp only [advance] at ha
      cases hld : w.load p with
      | error msg =>
        simp only [hld, Option.some.injEq, Prod.mk.injEq] at ha
        obtain ⟨rfl, rfl, rfl⟩ := ha
        have hne : ¬ w.Enters p := by
          rintro ⟨_, ⟨i, hi⟩, _⟩
          rw [hld] at hi
          cases hi
        rw [List.map_nil, List.append_nil]
        refine inv_move h ⟨by simp [World.message, hpass, hld], fun he => absurd he hne⟩ (fun _ => ⟨by simp, by simp⟩) (fun q => nosp q _)
          hsorted ?_ hnd' (hlo' _ ⟨by simp, by simp⟩) (by simp [errOf]) rfl
        intro k i
        refine ⟨.inl, fun hh => hh.elim id fun hh => ?_⟩
        have := hh.2.2.1
        simp only [hld] at this
        cases this
      | ok info =>
        simp only [hld] at ha
        rw [hno] at ha
        simp only at ha
        have hfiles : ∀ x : Phase, x.Processed → ∀ k i, (k, i) ∈ insertNew p.normal info s.files ↔ (k, i) ∈ s.files ∨ HasFile w (p, x) k i := by
          intro x hx k i
          rw [Db.Map.mem_insertNew_iff hsorted]
          constructor
          · rintro (hh | ⟨e, _⟩)
            · exact .inl hh
            · injection e with e1 e2
              exact .inr ⟨hx, hpass', by rw [e2]; exact hld, e1⟩
          · rintro (hh | ⟨_, _, h3, h4⟩)
            · exact .inl hh
            · simp only at h3 h4
              rw [hld] at h3
              injection h3 with h3
              right
              refine ⟨by rw [h3, h4], ?_⟩
              exact Db.Map.lookup_none.mp hno
        have hsort' := Db.Map.insertNew_sorted (k := p.normal) (v := info) hsorted
        cases hdir : w.isDir p.normal with
        | error msg =>
          simp only [hdir, Option.some.injEq, Prod.mk.injEq] at ha
          obtain ⟨rfl, rfl, rfl⟩ := ha
          have hne : ¬ w.Enters p := by
            rintro ⟨_, _, hi⟩
            rw [hdir] at hi
            cases hi
          rw [List.map_nil, List.append_nil]
          exact inv_move h ⟨by simp [World.message, hpass, hld, hdir], fun he => absurd he hne⟩ (fun _ => ⟨by simp, by simp⟩) (fun q => nosp q _)
            hsort' (hfiles _ ⟨by simp, by simp⟩) hnd' (hlo' _ ⟨by simp, by simp⟩) (by simp [errOf]) rfl
        | ok b =>
          cases b with
          | false =>
            simp only [hdir, Option.some.injEq, Prod.mk.injEq] at ha
            obtain ⟨rfl, rfl, rfl⟩ := ha
            have hne : ¬ w.Enters p := by
              rintro ⟨_, _, hi⟩
              rw [hdir] at hi
              cases hi
            rw [List.map_nil, List.append_nil]
            exact inv_move h (fun he => absurd he hne) (fun _ => ⟨by simp, by simp⟩) (fun q => nosp q _)
              hsort' (hfiles _ ⟨by simp, by simp⟩) hnd' (hlo' _ ⟨by simp, by simp⟩)
              (by simp [errOf, World.message, hpass, hld, hdir]) rfl
          | true =>
            simp only [hdir, Option.some.injEq, Prod.mk.injEq] at ha
            obtain ⟨rfl, rfl, rfl⟩ := ha
            rw [List.map_nil, List.append_nil]
            exact inv_move h ⟨⟨hpass', ⟨info, hld⟩, hdir⟩, rfl, [], rfl, by simp⟩ (fun _ => ⟨by simp, by simp⟩) (fun q => nosp q _)
              hsort' (hfiles _ ⟨by simp, by simp⟩) hnd' (hlo' _ ⟨by simp, by simp⟩) (by simp [errOf]) rfl
    | spawning rest err =>
      have keep : ∀ x : Phase, x.Processed → (∀ k i, (k, i) ∈ s.files ↔ (k, i) ∈ s.files ∨ HasFile w (p, x) k i) ∧
          (∀ q, q ∈ s.loads ↔ q ∈ s.loads ∨ (q = p ∧ x.Processed ∧ w.Passes p)) := by
        intro x hx
        constructor
        · intro k i
          exact ⟨.inl, fun hh => hh.elim id fun hh => (h.files k i).mpr ⟨_, mem0, ⟨by simp, by simp⟩, hh.2⟩⟩
        · intro q
          exact ⟨.inl, fun hh => hh.elim id fun hh => (h.loads q).mpr ⟨_, mem0, hh.1.symm, ⟨by simp, by simp⟩, by rw [hh.1]; exact hh.2.2⟩⟩
      cases rest with
      | cons n rest =>
        simp only [advance, Option.some.injEq, Prod.mk.injEq] at ha
        obtain ⟨rfl, rfl, rfl⟩ := ha
        exact inv_spawn hw h
      | nil =>
        obtain ⟨hent, herr, done, hnames, hdone⟩ := hloc
        rw [List.append_nil] at hnames
        rw [← hnames] at hdone
        obtain ⟨g1, ⟨i, g2⟩, g3⟩ := hent
        have hmsg : w.message p = err := by
          unfold World.message
          have g1 : w.leftOut p = .ok false := passes_iff.mp g1
          rw [g1]
          simp only
          rw [g2]
          simp only
          rw [g3]
          exact herr.symm
        have hsp : ∀ q (x : Phase), x.Processed → (∀ r e, x ≠ .spawning r e) → Spawned w (p, .spawning [] err) q → Spawned w (p, x) q := by
          rintro q x hx hne ⟨_, h2, m, h3, h4, _⟩
          exact ⟨hx, h2, m, h3, h4, fun r e he => absurd he (hne r e)⟩
        cases err with
        | none =>
          simp only [advance, Option.some.injEq, Prod.mk.injEq] at ha
          obtain ⟨rfl, rfl, rfl⟩ := ha
          rw [List.map_nil, List.append_nil]
          have hk := keep .ending ⟨by simp, by simp⟩
          exact inv_move h (fun _ => hdone) (fun _ => ⟨by simp, by simp⟩) (fun q => hsp q _ ⟨by simp, by simp⟩ (by simp)) hsorted hk.1 hlnd hk.2
            (by simp [errOf, hmsg]) rfl
        | some msg =>
          simp only [advance, Option.some.injEq, Prod.mk.injEq] at ha
          obtain ⟨rfl, rfl, rfl⟩ := ha
          rw [List.map_nil, List.append_nil]
          have hk := keep (.failing msg) ⟨by simp, by simp⟩
          exact inv_move h ⟨hmsg, fun _ => hdone⟩ (fun _ => ⟨by simp, by simp⟩) (fun q => hsp q _ ⟨by simp, by simp⟩ (by simp)) hsorted hk.1 hlnd
            hk.2 (by simp [errOf]) rfl
    | failing msg =>
      simp only [advance, Option.some.injEq, Prod.mk.injEq] at ha
      obtain ⟨rfl, rfl, rfl⟩ := ha
      rw [List.map_nil, List.append_nil]
      refine inv_move h hloc.2 (fun _ => ⟨by simp, by simp⟩) ?_ hsorted ?_ hlnd ?_ ?_ rfl
      · rintro q ⟨_, h2, m, h3, h4, _⟩
        exact ⟨⟨by simp, by simp⟩, h2, m, h3, h4, by simp⟩
      · intro k i
        exact ⟨.inl, fun hh => hh.elim id fun hh => (h.files k i).mpr ⟨_, mem0, ⟨by simp, by simp⟩, hh.2⟩⟩
      · intro q
        exact ⟨.inl, fun hh => hh.elim id fun hh => (h.loads q).mpr ⟨_, mem0, hh.1.symm, ⟨by simp, by simp⟩, by rw [hh.1]; exact hh.2.2⟩⟩
      · simp only [errOf, hloc.1, Option.toList_none, List.append_nil, Option.toList_some]
        exact (List.perm_append_singleton _ _).symm
    | ending =>
      simp only [advance, Option.some.injEq, Prod.mk.injEq] at ha
      obtain ⟨rfl, rfl, rfl⟩ := ha
      rw [List.map_nil, List.append_nil]
      refine inv_move h hloc (fun _ => ⟨by simp, by simp⟩) ?_ hsorted ?_ hlnd ?_ (by simp [errOf]) ?_
      · rintro q ⟨_, h2, m, h3, h4, _⟩
        exact ⟨⟨by simp, by simp⟩, h2, m, h3, h4, by simp⟩
      · intro k i
        exact ⟨.inl, fun hh => hh.elim id fun hh => (h.files k i).mpr ⟨_, mem0, ⟨by simp, by simp⟩, hh.2⟩⟩
      · intro q
        exact ⟨.inl, fun hh => hh.elim id fun hh => (h.loads q).mpr ⟨_, mem0, hh.1.symm, ⟨by simp, by simp⟩, by rw [hh.1]; exact hh.2.2⟩⟩
      · have := h.counter
        simp only [List.map_append, List.map_cons, List.sum_append, List.sum_cons, Phase.live] at this ⊢
        omega
    | done => simp [advance] at ha

theorem steps_inv (hw : w.Ok) {n : Nat} {s : Scan I} (h : Steps w n (Scan.init w) s) : Inv w s := by
  generalize hi : Scan.init w = s0 at h
  induction h with
  | refl => rw [← hi]; exact init_inv
  | tail _ hs ih => exact step_inv hw (ih hi) hs

end Maike.Tree
