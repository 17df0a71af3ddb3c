import Verif.Tree.Links
import Verif.Main.Ends

/-!
# Projects with symbolic links (C111)

All theorems about `Disk` apply to source trees with symbolic links, as long as each of them leads somewhere: what is at a path is what it leads to.
-/

namespace Maike.Main

open Fs Tree Paths
open Maike.Build (FileSys)

/-! ## Specification -/

/-- What is in the file system, as seen through links, `stat(2)`. Paths are looked up in normal form, see `Disk`. -/
def linkDisk (L : Tree.Links) (mtime : List Str → Nat) : Disk where
  fs p := if p.normal = p then
      match L.lookup p with
      | .ok (_, a) =>
        match L.node a with
        | some .file => some ⟨mtime a, false⟩
        | some .dir => some ⟨mtime a, true⟩
        | _ => none
      | .error _ => none
    else none
  names p := if p.normal = p then
      match L.lookup p with
      | .ok (_, a) => if L.node a = some .dir then (L.entries a, none) else ([], none)
      | .error _ => ([], none)
    else ([], none)

/-- The arguments of `DirectoryScanner`, core/source_tree_loader/main.hpp:24-27 and core/bin/maike.cpp:354-362, where exceptions from the file system have messages `msg`. -/
def linkWorld (j : Job) (L : Tree.Links) (msg : Path → Str) : World FileInfo where
  root := j.sourceDir
  recursive := j.recursive
  nameFilter := j.nameFilter
  dirFilter := j.dirFilter
  isDir := L.isDir msg
  names := L.list msg
  load p := match L.isDir msg p with
    | .error m => .error m
    | .ok b =>
      match Tree.load ⟨fun _ => b, j.dirCompiler, j.loader, j.resolver, j.getTags⟩ p j.sourceDir j.targetDir with
      | some i => .ok i
      | none => .error (j.message p)

/-- There is a root directory and a working directory, and everything is in a directory. -/
structure Rooted (L : Tree.Links) : Prop where
  root : L.node [] = some .dir
  cwd : L.node L.cwd = some .dir
  parent : ∀ n a, (L.node (n :: a)).isSome → L.node a = some .dir

/-- Each entry of a directory leads to something, along not too many links. -/
def Whole (L : Tree.Links) : Prop := ∀ p u a n, IsNormal p → L.At p u a → u ≤ L.limit → L.node a = some .dir → n ∈ L.entries a →
  ∃ v b, v ≤ L.limit ∧ L.At (p / ⟨false, [n], false⟩).normal v b

/-- Links lead somewhere, and from there on along fewer links: `rank` bounds the number of links that names of entries can lead along. -/
structure Ranked (L : Tree.Links) (rank : List Str → Nat) : Prop where
  top : ∀ a, rank a ≤ L.limit
  below : ∀ n a, (L.node (n :: a)).isSome → rank (n :: a) ≤ rank a
  link : ∀ n a t, L.node (n :: a) = some (.link t) → ∃ v b, L.Leads v (if t.root then [] else a) (steps t) b ∧ v + 1 + rank b ≤ rank a

/-! ## Lemmas -/

variable {L : Tree.Links} {mtime : List Str → Nat} {msg : Path → Str} {j : Job}

theorem linkWorld_sees : Sees (linkWorld j L msg) L msg := ⟨fun _ => rfl, fun _ => rfl, fun p m h => by simp [linkWorld, h]⟩

theorem leads_end (hr : Rooted L) {u : Nat} {a ns b : List Str} (h : L.Leads u a ns b) (ha : L.node a = some .file ∨ L.node a = some .dir) :
    L.node b = some .file ∨ L.node b = some .dir := by
  induction h with
  | here => exact ha
  | @up u a ns b h1 _ ih =>
    refine ih (.inr ?_)
    cases a with
    | nil => exact h1
    | cons n a => exact hr.parent n a (by rw [h1]; rfl)
  | stay h1 _ _ ih => exact ih (.inr h1)
  | enter _ _ h3 _ ih => exact ih h3
  | @link u a n t ns b h1 _ _ _ ih =>
    apply ih
    split
    · exact .inr hr.root
    · exact .inr h1

theorem at_end (hr : Rooted L) {p : Path} {u : Nat} {a : List Str} (h : L.At p u a) : L.node a = some .file ∨ L.node a = some .dir := by
  refine leads_end hr h.2 (.inr ?_)
  split
  · exact hr.root
  · exact hr.cwd

theorem at_unique {p : Path} {u v : Nat} {a b : List Str} (h : L.At p u a) (g : L.At p v b) : u = v ∧ a = b := h.2.unique g.2

/-- What there is at a path in normal form. -/
theorem linkDisk_fs (hr : Rooted L) {p : Path} (hp : IsNormal p) : ((linkDisk L mtime).fs p).isSome ↔ ∃ u a, u ≤ L.limit ∧ L.At p u a := by
  simp only [linkDisk, normal_eq_self hp, if_true]
  constructor
  · intro h
    split at h
    · rename_i k a hl
      obtain ⟨h1, h2⟩ := lookup_ok.mp hl
      exact ⟨_, a, by omega, h2⟩
    · cases h
  · rintro ⟨u, a, hu, hat⟩
    rw [lookup_of_at hat, if_pos hu]
    rcases at_end hr hat with e | e <;> simp [e]

theorem linkDisk_isDir {p : Path} (hp : IsNormal p) : Build.isDir (linkDisk L mtime).fs p = true ↔ ∃ u a, u ≤ L.limit ∧ L.At p u a ∧ L.node a = some .dir := by
  simp only [Build.isDir, linkDisk, normal_eq_self hp, if_true]
  constructor
  · intro h
    cases hl : L.lookup p with
    | error e => simp [hl] at h
    | ok x =>
      obtain ⟨k, a⟩ := x
      obtain ⟨h1, h2⟩ := lookup_ok.mp hl
      refine ⟨_, a, by omega, h2, ?_⟩
      cases hn : L.node a with
      | none => simp [hl, hn] at h
      | some x => cases x <;> simp [hl, hn] at h ⊢
  · rintro ⟨u, a, hu, hat, hdir⟩
    rw [lookup_of_at hat, if_pos hu]
    simp [hdir]

theorem linkDisk_names {p : Path} (hp : IsNormal p) {u : Nat} {a : List Str} (hu : u ≤ L.limit) (hat : L.At p u a) (hdir : L.node a = some .dir) :
    (linkDisk L mtime).names p = (L.entries a, none) := by
  simp only [linkDisk, normal_eq_self hp, if_true, lookup_of_at hat, hu, hdir]

theorem mem_linkDisk_names {p : Path} {n : Str} (h : n ∈ ((linkDisk L mtime).names p).1) :
    IsNormal p ∧ ∃ u a, u ≤ L.limit ∧ L.At p u a ∧ L.node a = some .dir ∧ n ∈ L.entries a := by
  simp only [linkDisk] at h
  split at h
  · rename_i hp
    refine ⟨by rw [← hp]; exact normal_isNormal p, ?_⟩
    split at h
    · rename_i k a hl
      obtain ⟨h1, h2⟩ := lookup_ok.mp hl
      split at h
      · rename_i hdir
        exact ⟨_, a, by omega, h2, hdir, h⟩
      · simp at h
    · simp at h
  · simp at h

/-- **C111.** A file system with links, in which each entry leads somewhere, is as theorems about projects need it. -/
theorem C111_disk (hL : L.Ok) (hr : Rooted L) (hwh : Whole L) : (linkDisk L mtime).Ok where
  nodup p := by
    simp only [linkDisk]
    split
    · split
      · split
        · exact hL.nodup _
        · simp
      · simp
    · simp
  isName p n hn := by
    obtain ⟨_, _, a, _, _, _, h⟩ := mem_linkDisk_names hn
    exact hL.isName _ _ h
  listed p n hn := by
    obtain ⟨hp, u, a, hu, hat, hdir, h⟩ := mem_linkDisk_names hn
    obtain ⟨v, b, hv, hb⟩ := hwh p u a n hp hat hu hdir h
    exact (linkDisk_fs hr (normal_isNormal _)).mpr ⟨v, b, hv, hb⟩
  complete p n hp hne _ hn h := by
    obtain ⟨v, b, hv, hb⟩ := (linkDisk_fs hr (normal_isNormal _)).mp h
    obtain ⟨u, a, hu, hat, hl⟩ := (at_entry hp hne hn).mp hb
    rw [linkDisk_names hp (Nat.le_trans hu hv) hat (leads_cons_dir hl)]
    exact leads_listed hL hn hl
  slash r ns hne hp := by
    have hp' : IsNormal ⟨r, ns, false⟩ := by
      cases hp with
      | rel k ns t h1 h2 => exact .rel k ns false h1 fun e => absurd (h2 e).1 (by simp)
      | abs ns t h1 h2 => exact .abs ns false h1 fun _ => rfl
    rw [linkDisk_fs hr hp, linkDisk_isDir hp']
    have e1 : (⟨r, ns, true⟩ : Path) ≠ Path.empty := by simp [Path.empty]
    have e2 : (⟨r, ns, false⟩ : Path) ≠ Path.empty := by simp [Path.empty, hne]
    constructor
    · rintro ⟨u, a, hu, hat⟩
      have h1 := leads_names hat.2
      refine ⟨u, a, hu, ⟨e2, by simpa [steps] using h1⟩, ?_⟩
      have h2 := hat.2
      simp only [steps, if_true] at h2
      obtain ⟨v, b, g1, g2, g3⟩ := h2.split _ _ rfl
      rw [← (g2.unique h1).2]
      exact leads_cons_dir g3
    · rintro ⟨u, a, hu, hat, hdir⟩
      refine ⟨u, a, hu, e1, ?_⟩
      have h1 := leads_names hat.2
      have := h1.append (.stay hdir (.inl rfl) .here : L.Leads 0 a [dot] a)
      simpa [steps] using this

/-- **C111.** Links do not make the tree infinite. -/
theorem C111_finite (hfin : L.Finite) : (linkDisk L mtime).Finite := by
  obtain ⟨D, hD⟩ := hfin
  intro base
  refine ⟨L.limit * (D + 1) + D, fun sub hsub h => ?_⟩
  have hat : ∃ u a, u ≤ L.limit ∧ L.At (inside base sub) u a ∧ a.length ≤ D := by
    simp only [linkDisk] at h
    split at h
    · split at h
      · rename_i k a hl
        obtain ⟨h1, h2⟩ := lookup_ok.mp hl
        refine ⟨_, a, by omega, h2, hD a ?_⟩
        split at h <;> simp_all
      · cases h
    · cases h
  obtain ⟨u, a, hu, hat, hda⟩ := hat
  have h2 := leads_names hat.2
  generalize (if (inside base sub).root = true then [] else L.cwd) = st at h2
  have h3 : ∃ v s, v ≤ u ∧ L.Leads v s sub a := by
    unfold inside at h2
    dsimp only at h2
    split at h2
    · exact ⟨u, _, Nat.le_refl _, h2⟩
    · obtain ⟨v, b, g1, _, g3⟩ := h2.split _ _ rfl
      exact ⟨u - v, b, by omega, g3⟩
  obtain ⟨v, s, g1, g2⟩ := h3
  have h4 := leads_length hD sub hsub _ _ _ g2
  have h5 : v * (D + 1) ≤ L.limit * (D + 1) := Nat.mul_le_mul_right _ (by omega)
  omega

/-- **C111.** Each entry leads to something if links lead to something and not in circles. -/
theorem C111_whole (hL : L.Ok) {rank : List Str → Nat} (hrk : Ranked L rank) : Whole L := by
  have names : ∀ ns, (∀ n ∈ ns, IsName n) → ∀ u a b, L.Leads u a ns b → u + rank b ≤ rank a := by
    intro ns
    induction ns with
    | nil => intro _ u a b h; cases h; simp
    | cons n ns ih =>
      intro hns u a b h
      have hn := hns n (by simp)
      have ih := ih fun m hm => hns m (by simp [hm])
      cases h with
      | up => exact absurd rfl hn.1
      | stay _ h => rcases h with h | h; exact absurd h hn.2.1; exact absurd h hn.2.2
      | enter _ _ hx h =>
        have h1 := ih _ _ _ h
        have h2 := hrk.below n a (by rcases hx with e | e <;> rw [e] <;> rfl)
        omega
      | @link u _ _ t _ _ _ _ hx h =>
        obtain ⟨v, c, g1, g2⟩ := hrk.link n a t hx
        obtain ⟨v', c', k1, k2, k3⟩ := h.split _ _ rfl
        obtain ⟨e1, e2⟩ := g1.unique k2
        subst e1 e2
        have := ih _ _ _ k3
        omega
  have path : ∀ p u a, IsNormal p → L.At p u a → u + rank a ≤ L.limit := by
    intro p u a hp hat
    have h := leads_names hat.2
    have stay : ∀ s, L.Leads u s [dot] a → u = 0 := by
      intro s h
      cases h with
      | stay _ _ h => cases h; rfl
      | enter _ hn => exact absurd rfl hn.2.1
      | link _ hn => exact absurd rfl hn.2.1
    have up : ∀ k u s a, L.Leads u s (List.replicate k dotdot) a → u = 0 := by
      intro k
      induction k with
      | zero => intro u s a h; cases h; rfl
      | succ k ih =>
        intro u s a h
        rw [List.replicate_succ] at h
        cases h with
        | up _ h => exact ih _ _ _ h
        | stay _ h => rcases h with h | h <;> exact absurd h (by decide)
        | enter _ hn => exact absurd rfl hn.1
        | link _ hn => exact absurd rfl hn.1
    cases hp with
    | empty => exact absurd rfl hat.1
    | dot => rw [stay _ h]; have := hrk.top a; omega
    | rel k ns t hn _ =>
      obtain ⟨v, b, g1, g2, g3⟩ := h.split _ _ rfl
      have h1 := names ns hn _ _ _ g3
      have h2 := up k _ _ _ g2
      have := hrk.top b
      omega
    | abs ns t hn _ =>
      have h1 := names ns hn _ _ _ h
      have := hrk.top (if true = true then [] else L.cwd)
      simp only [if_true] at h1 this
      omega
  intro p u a n hp hat hu hdir hmem
  obtain ⟨hn, hsome⟩ := (hL.listed _ _ hdir).mp hmem
  have hrank := path p u a hp hat
  obtain ⟨x, hx⟩ := Option.isSome_iff_exists.mp hsome
  have one : ∃ v b, L.Leads v a [n] b ∧ v ≤ rank a := by
    cases x with
    | file => exact ⟨0, _, .enter hdir hn (.inl hx) .here, by omega⟩
    | dir => exact ⟨0, _, .enter hdir hn (.inr hx) .here, by omega⟩
    | link t =>
      obtain ⟨v, b, g1, g2⟩ := hrk.link n a t hx
      exact ⟨v + 1, b, .link hdir hn hx (by simpa using g1), by omega⟩
  obtain ⟨v, b, g1, g2⟩ := one
  exact ⟨u + v, b, by omega, (at_entry hp hat.1 hn).mpr ⟨u, a, by omega, hat, by rw [show u + v - u = v by omega]; exact g1⟩⟩

/-! ## The same scan -/

/-- Both worlds agree on a path. -/
structure SeenAlike (w w' : World FileInfo) (p : Path) : Prop where
  isDir : w.isDir p = w'.isDir p
  isDirNormal : w.isDir p.normal = w'.isDir p.normal
  names : w'.isDir p.normal = .ok true → w.names p.normal = w'.names p.normal
  load : w.load p = w'.load p

theorem agree_of_at {p : Path} {u : Nat} {a : List Str} (hu : u ≤ L.limit) (h1 : L.At p u a) (h2 : L.At p.normal u a) :
    SeenAlike (linkWorld j L msg) (j.world (linkDisk L mtime)) p := by
  have d1 : L.isDir msg p = .ok (decide (L.node a = some .dir)) := by rw [isDir_of_at h1, if_pos hu]
  have d2 : L.isDir msg p.normal = .ok (decide (L.node a = some .dir)) := by rw [isDir_of_at h2, if_pos hu]
  have d3 : Build.isDir (linkDisk L mtime).fs p.normal = decide (L.node a = some .dir) := by
    rw [Bool.eq_iff_iff, linkDisk_isDir (normal_isNormal p), decide_eq_true_iff]
    constructor
    · rintro ⟨v, b, _, g1, g2⟩
      rw [← (at_unique g1 h2).2]; exact g2
    · intro h
      exact ⟨u, a, hu, h2, h⟩
  refine ⟨?_, ?_, ?_, ?_⟩
  · show L.isDir msg p = .ok (Build.isDir _ p.normal)
    rw [d1, d3]
  · show L.isDir msg p.normal = .ok (Build.isDir _ p.normal.normal)
    rw [d2, normal_normal, d3]
  · intro h
    have hdir : L.node a = some .dir := by
      have h : Except.ok (Build.isDir _ p.normal.normal) = Except.ok true := h
      rw [normal_normal, d3] at h
      simpa using h
    show L.list msg p.normal = (linkDisk L mtime).names p.normal
    rw [linkDisk_names (normal_isNormal p) hu h2 hdir]
    unfold Links.list
    rw [lookup_of_at h2, if_pos hu]
    simp [hdir]
  · simp only [linkWorld, d1, Job.world]
    have : Tree.load ⟨fun _ => decide (L.node a = some .dir), j.dirCompiler, j.loader, j.resolver, j.getTags⟩ p j.sourceDir j.targetDir =
        Tree.load (j.env (linkDisk L mtime)) p j.sourceDir j.targetDir := by
      unfold Tree.load
      simp only [Job.env, d3]
      rfl
    rw [this]
    cases Tree.load (j.env (linkDisk L mtime)) p j.sourceDir j.targetDir <;> rfl

theorem SeenAlike.passes {w w' : World FileInfo} {p : Path} (h : SeenAlike w w' p) (e1 : w.root = w'.root) (e2 : w.recursive = w'.recursive) (e3 : w.nameFilter = w'.nameFilter)
    (e4 : w.dirFilter = w'.dirFilter) : w.Passes p ↔ w'.Passes p := by
  unfold World.Passes
  rw [h.isDir, e1, e2, e3, e4]

theorem SeenAlike.enters {w w' : World FileInfo} {p : Path} (h : SeenAlike w w' p) (e1 : w.root = w'.root) (e2 : w.recursive = w'.recursive) (e3 : w.nameFilter = w'.nameFilter)
    (e4 : w.dirFilter = w'.dirFilter) : w.Enters p ↔ w'.Enters p := by
  unfold World.Enters
  rw [h.passes e1 e2 e3 e4, h.load, h.isDirNormal]

/-- All that is reached exists. -/
theorem reached_at (hr : Rooted L) (hwh : Whole L) (hL : L.Ok) (hn : IsNormal j.sourceDir) (hroot : ((linkDisk L mtime).fs j.sourceDir).isSome) {p : Path}
    (h : (j.world (linkDisk L mtime)).Reached p) : ∃ u a, u ≤ L.limit ∧ L.At p u a ∧ L.At p.normal u a := by
  induction h with
  | root =>
    obtain ⟨u, a, hu, hat⟩ := (linkDisk_fs hr hn).mp hroot
    exact ⟨u, a, hu, hat, by rw [show (j.world (linkDisk L mtime)).root.normal = j.sourceDir from normal_eq_self hn]; exact hat⟩
  | @entry p n hp he hmem ih =>
    obtain ⟨u, a, hu, _, hat⟩ := ih
    have hname := (C111_disk (mtime := mtime) hL hr hwh).isName _ _ hmem
    obtain ⟨v, b, hv, hb⟩ := (linkDisk_fs hr (normal_isNormal _)).mp ((C111_disk (mtime := mtime) hL hr hwh).listed _ _ hmem)
    exact ⟨v, b, hv, (at_slash hat.1 hname).mpr ((at_entry (normal_isNormal p) hat.1 hname).mp hb), hb⟩

theorem same_reached (hr : Rooted L) (hwh : Whole L) (hL : L.Ok) (hn : IsNormal j.sourceDir) (hroot : ((linkDisk L mtime).fs j.sourceDir).isSome) (p : Path) :
    (linkWorld j L msg).Reached p ↔ (j.world (linkDisk L mtime)).Reached p := by
  have agree : ∀ p, (j.world (linkDisk L mtime)).Reached p → SeenAlike (linkWorld j L msg) (j.world (linkDisk L mtime)) p := by
    intro p hp
    obtain ⟨u, a, hu, h1, h2⟩ := reached_at hr hwh hL hn hroot hp
    exact agree_of_at hu h1 h2
  constructor
  · intro h
    induction h with
    | root => exact .root
    | entry _ he hmem ih =>
      have ha := agree _ ih
      have he' := (ha.enters rfl rfl rfl rfl).mp he
      exact .entry ih he' (by rw [← ha.names he'.2.2]; exact hmem)
  · intro h
    induction h with
    | root => exact .root
    | entry hp he hmem ih =>
      have ha := agree _ hp
      exact .entry ih ((ha.enters rfl rfl rfl rfl).mpr he) (by rw [ha.names he.2.2]; exact hmem)

/-- **C111.** When each entry leads somewhere, the scan gives the same result as for a file system where directories and files are in place of the links to them. -/
theorem C111_same (hL : L.Ok) (hr : Rooted L) (hwh : Whole L) (hn : IsNormal j.sourceDir) (hroot : ((linkDisk L mtime).fs j.sourceDir).isSome) {n n' : Nat} {s s' : Scan FileInfo}
    (h : Steps (linkWorld j L msg) n (Scan.init (linkWorld j L msg)) s) (h' : Steps (j.world (linkDisk L mtime)) n' (Scan.init (j.world (linkDisk L mtime))) s')
    {r r' : Except Str (List (Path × FileInfo))} (hres : takeResult s = some r) (hres' : takeResult s' = some r') :
    (∀ files, r = .ok files ↔ r' = .ok files) ∧ ((∃ text, r = .error text) ↔ ∃ text, r' = .error text) := by
  have hne : j.sourceDir ≠ Path.empty := by
    obtain ⟨u, a, hu, hat⟩ := (linkDisk_fs hr hn).mp hroot
    exact hat.1
  have hw : (linkWorld j L msg).Ok := sees_ok hL linkWorld_sees hne
  have hd := C111_disk (mtime := mtime) hL hr hwh
  have hw' : (j.world (linkDisk L mtime)).Ok := ⟨hne, hd.nodup, hd.isName⟩
  have reach := same_reached (msg := msg) hr hwh hL hn hroot
  have agree : ∀ p, (j.world (linkDisk L mtime)).Reached p → SeenAlike (linkWorld j L msg) (j.world (linkDisk L mtime)) p := by
    intro p hp
    obtain ⟨u, a, hu, h1, h2⟩ := reached_at hr hwh hL hn hroot hp
    exact agree_of_at hu h1 h2
  have message : ∀ p, (j.world (linkDisk L mtime)).Reached p → (linkWorld j L msg).message p = (j.world (linkDisk L mtime)).message p := by
    intro p hp
    have ha := agree p hp
    have h1 : (linkWorld j L msg).leftOut p = (j.world (linkDisk L mtime)).leftOut p := by
      unfold World.leftOut
      rw [ha.isDir]
      rfl
    unfold World.message
    rw [h1, ha.load, ha.isDirNormal]
    cases (j.world (linkDisk L mtime)).leftOut p with
    | error m => rfl
    | ok b =>
      cases b with
      | true => rfl
      | false =>
        simp only
        cases (j.world (linkDisk L mtime)).load p with
        | error m => rfl
        | ok i =>
          simp only
          cases hdir : (j.world (linkDisk L mtime)).isDir p.normal with
          | error m => rfl
          | ok b =>
            cases b with
            | false => rfl
            | true => simp only; rw [ha.names hdir]
  have errs : (∃ text, r = .error text) ↔ ∃ text, r' = .error text := by
    rw [C50_throws hw h hres, C50_throws hw' h' hres']
    constructor
    · rintro ⟨p, m, h1, h2⟩
      have h3 := (reach p).mp h1
      exact ⟨p, m, h3, says_iff.mpr (by rw [← message p h3]; exact says_iff.mp h2)⟩
    · rintro ⟨p, m, h1, h2⟩
      exact ⟨p, m, (reach p).mpr h1, says_iff.mpr (by rw [message p h1]; exact says_iff.mp h2)⟩
  refine ⟨fun files => ?_, errs⟩
  have sorted : ∀ {w : World FileInfo} (hw : w.Ok) {n : Nat} {s : Scan FileInfo} {fs : List (Path × FileInfo)}, Steps w n (Scan.init w) s → takeResult s = some (.ok fs) → Db.Map.Sorted fs := by
    intro w hw n s fs hs hr
    have hi := (steps_inv hw hs).sorted
    have : fs = s.shared.files := by
      unfold takeResult at hr
      split at hr
      · cases hr
      · split at hr
        · cases hr
        · injection hr with hr; injection hr with hr; exact hr.symm
    rw [this]; exact hi
  cases r with
  | error text =>
    obtain ⟨text', rfl⟩ := errs.mp ⟨text, rfl⟩
    simp
  | ok fs =>
    cases r' with
    | error text' =>
      obtain ⟨text, e⟩ := errs.mpr ⟨text', rfl⟩
      cases e
    | ok fs' =>
      have : fs = fs' := by
        refine sorted_ext (sorted hw h hres) (sorted hw' h' hres') ?_
        rintro ⟨k, i⟩
        rw [C49_result hw h hres, C49_result hw' h' hres']
        constructor
        · rintro ⟨p, h1, h2, h3, h4⟩
          have g := (reach p).mp h1
          have ha := agree p g
          exact ⟨p, g, (ha.passes rfl rfl rfl rfl).mp h2, by rw [← ha.load]; exact h3, h4⟩
        · rintro ⟨p, h1, h2, h3, h4⟩
          have ha := agree p h1
          exact ⟨p, (reach p).mpr h1, (ha.passes rfl rfl rfl rfl).mpr h2, by rw [ha.load]; exact h3, h4⟩
      rw [this]

end Maike.Main
