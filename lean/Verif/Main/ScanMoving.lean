import Verif.Tree.ScanMoving
import Verif.Main.Fleet

/-!
# Loading the source tree while another run builds (C116)
-/

namespace Maike.Main

open Fs Tree Paths

/-! ## Specification -/

/-- A later version of the file system. What the scan finds is still there. What has been made in directories that are scanned is left out by the filters. What is left out may change in any way. -/
structure Disturbed (j : Job) (kind : Path → Bool) (d d' : Disk) : Prop where
  disk : d'.Ok
  keep : ∀ p, (j.world d).Reached p → ¬ (j.world d).Hides p → (d'.fs p.normal).isSome
  kinds : ∀ p st, d'.fs p = some st → st.dir = kind p
  hidden : ∀ p n, (j.world d).Reached p → (j.world d).Enters p → IsName n →
    let q := p.normal / ⟨false, [n], false⟩
    d.fs q.normal = none → (d'.fs q.normal).isSome → j.nameFilter n = true ∨ j.dirFilter (q.relativeTo j.sourceDir).str = true

/-- The source tree is loaded. Each step of the scan sees one of the versions `D` of the file system. What is there at the beginning is not one of them necessarily: the scan does not look at anything before
the first step. -/
def LoadsDuring (j : Job) (D : Disk → Prop) (d : Disk) (files : List (Path × FileInfo)) (tree : Db.SourceTree Path) : Prop :=
  (∃ n s, Moving (fun w => ∃ d', D d' ∧ w = j.world d') n (Scan.init (j.world d)) s ∧ takeResult s = some (.ok files)) ∧ Db.load (srcList files) = .ok tree

/-- The versions that can be seen while another run, which has begun with `d`, is building. -/
def During (j : Job) (kind : Path → Bool) (force : Bool) (d : Disk) (now : Nat) (files : List (Path × FileInfo)) (tree : Db.SourceTree Path) (d' : Disk) : Prop :=
  d'.Ok ∧ ∃ s, Runs j force kind d now files tree s ∧ d'.fs = s.fs

/-! ## Proof -/

variable {j : Job} {kind : Path → Bool} {d : Disk} {now : Nat}

theorem like_of_disturbed {d' : Disk} (hp : Proper j kind d now) (hlist : ∀ p, (j.world d).Reached p → (j.world d).Enters p → (d.names p.normal).2 = none)
    (h : Disturbed j kind d d') : Like (j.world d) (j.world d') := by
  have hw := world_ok hp
  have hdir : ∀ p : Path, (j.world d).Reached p → ¬ (j.world d).Hides p → Build.isDir d'.fs p.normal = Build.isDir d.fs p.normal := by
    intro p hr hv
    obtain ⟨st, hst⟩ := Option.isSome_iff_exists.mp (reached_exists hp hr)
    obtain ⟨st', hst'⟩ := Option.isSome_iff_exists.mp (h.keep p hr hv)
    simp only [Build.isDir, hst, hst', hp.kinds _ st hst, h.kinds _ st' hst']
  refine ⟨⟨hp.notEmpty, h.disk.nodup, h.disk.isName⟩, rfl, rfl, rfl, rfl, fun p _ => ⟨_, rfl⟩, fun p hr hv => ?_, fun p hr hv => ?_, fun p n hr he hn hv => ?_, fun p n hr he hn hv hc => ?_⟩
  · simp only [Job.world, normal_normal, hdir p hr hv, and_self]
  · simp only [Job.world, Tree.load, Job.env, hdir p hr hv]
    rfl
  · have hname := h.disk.isName _ _ hn
    by_cases hd : (d.fs (p.normal / ⟨false, [n], false⟩).normal).isSome
    · exact hp.disk.complete _ _ (normal_isNormal p) (reached_ne hw hr) (hlist p hr he) hname hd
    · exfalso
      refine hv ⟨entry_ne_root hw hr hname, ?_⟩
      have hfile : (p.normal / ⟨false, [n], false⟩ : Path).filename = n := by
        rw [entry_eq _ _ hname]
        simp [Path.filename]
      rw [hfile]
      exact h.hidden p n hr he hname (by simpa using hd) (h.disk.listed _ _ hn)
  · exact h.disk.complete _ _ (normal_isNormal p) (reached_ne hw hr) hc (hp.disk.isName _ _ hn) (h.keep _ (.entry hr he hn) hv)

theorem disturbed_refl (hp : Proper j kind d now) : Disturbed j kind d d :=
  ⟨hp.disk, fun _ hr _ => reached_exists hp hr, hp.kinds, fun p n _ _ _ hn hs => by rw [hn] at hs; cases hs⟩

/-- Nothing is lost by counting the first version among the others. -/
theorem loadsDuring_or {D : Disk → Prop} {files : List (Path × FileInfo)} {tree : Db.SourceTree Path} (h : LoadsDuring j D d files tree) :
    LoadsDuring j (fun d' => D d' ∨ d' = d) d files tree := by
  obtain ⟨⟨n, s, hs, hr⟩, ht⟩ := h
  exact ⟨⟨n, s, hs.mono fun _ ⟨d', h1, h2⟩ => ⟨d', .inl h1, h2⟩, hr⟩, ht⟩

theorem disturbed_of_during {force : Bool} {files : List (Path × FileInfo)} {tree : Db.SourceTree Path} (hp : Proper j kind d now) (hh : Hidden j kind d) {d' : Disk}
    (h : During j kind force d now files tree d') : Disturbed j kind d d' := by
  obtain ⟨hok, s, hr, hfs⟩ := h
  obtain ⟨h1, h2, h3⟩ := run_leaves hp hr
  refine ⟨hok, fun p hp' _ => ?_, by rw [hfs]; exact h2, fun p n hrp he hn hnone hsome => ?_⟩
  · rw [hfs]; exact h1 _ (reached_exists hp hp')
  · rw [hfs] at hsome
    refine hh p n hrp he hn hnone ((h3 _ hsome).resolve_left ?_)
    rw [hnone]; simp

/-! ## C116 -/

/-- **C116.** What is loaded while the file system is disturbed is what has been, or could have been, loaded before. -/
theorem C116_undisturbed {D : Disk → Prop} (hp : Proper j kind d now) (hD : ∀ d', D d' → Disturbed j kind d d') {files files₂ : List (Path × FileInfo)} {tree tree₂ : Db.SourceTree Path}
    (hl : Loads j d files tree) (hl₂ : LoadsDuring j D d files₂ tree₂) : files₂ = files ∧ tree₂ = tree := by
  obtain ⟨⟨n, s, hs, hr⟩, ht⟩ := loadsDuring_or hl₂
  obtain ⟨⟨m, t, hst, hrt⟩, ht₀⟩ := id hl
  have e : files₂ = files := by
    refine C116_same ⟨d, .inr rfl, rfl⟩ ?_ hs hst hr hrt
    rintro _ ⟨d', hd', rfl⟩
    exact like_of_disturbed hp (fun _ => loads_complete (world_ok hp) hl) (hd'.elim (hD d') fun e => e.symm ▸ disturbed_refl hp)
  refine ⟨e, ?_⟩
  rw [e, ht₀] at ht
  exact (Except.ok.inj ht).symm

/-- **C116.** A source tree that has been loaded while the file system was disturbed could have been loaded before, if directories can be listed, and the tree is finite. So all theorems about a run
whose source tree has been loaded apply. -/
theorem C116_loads {D : Disk → Prop} (hp : Proper j kind d now) (hD : ∀ d', D d' → Disturbed j kind d d') (hlist : ∀ p, (d.names p).2 = none) {h : Nat}
    (hh : (j.world d).Height h j.sourceDir) {files : List (Path × FileInfo)} {tree : Db.SourceTree Path} (hl : LoadsDuring j D d files tree) : Loads j d files tree := by
  obtain ⟨⟨n, s, hs, hr⟩, ht⟩ := loadsDuring_or hl
  refine ⟨C116_before ⟨d, .inr rfl, rfl⟩ ?_ hlist hh hs hr, ht⟩
  rintro _ ⟨d', hd', rfl⟩
  exact like_of_disturbed hp (fun p _ _ => hlist _) (hd'.elim (hD d') fun e => e.symm ▸ disturbed_refl hp)

/-- **C116.** A run that loads the source tree while another run of the same kind is building, at any moment, and while it goes on, gets what the other run has got. What is made has to be left out by the
filters (see `C71_hidden_filtered`). -/
theorem C116_while_building {force : Bool} {D : Disk → Prop} (hp : Proper j kind d now) (hh : Hidden j kind d) {files files₂ : List (Path × FileInfo)} {tree tree₂ : Db.SourceTree Path}
    (hl : Loads j d files tree) (hD : ∀ d', D d' → During j kind force d now files tree d') (hl₂ : LoadsDuring j D d files₂ tree₂) : files₂ = files ∧ tree₂ = tree :=
  C116_undisturbed hp (fun d' hd' => disturbed_of_during hp hh (hD d' hd')) hl hl₂

/-- **C116.** A run whose source tree has been loaded while others were building can be one of several runs at the same time, so C115 applies to it. `x.w₀` is what the source tree looked like at some moment, and
the versions that the scan sees differ from it in what is left out by the filters. -/
theorem C116_joins {V : Type} {L : Loading V} {area outside : Path → Bool} {D : Disk → Prop} {w : Build.World Path V} {x : Member V} {h : Nat}
    (hp : Proper (L.job (x.w₀.view kind)) kind ⟨x.w₀.fs, x.names⟩ x.w₀.clock) (hm : Apart (L.job (x.w₀.view kind)) ⟨x.w₀.fs, x.names⟩)
    (hc : Classified (L.job (x.w₀.view kind)) kind area outside ⟨x.w₀.fs, x.names⟩)
    (hD : ∀ d', D d' → Disturbed (L.job (x.w₀.view kind)) kind ⟨x.w₀.fs, x.names⟩ d') (hlist : ∀ p, (x.names p).2 = none)
    (hh : ((L.job (x.w₀.view kind)).world ⟨x.w₀.fs, x.names⟩).Height h (L.job (x.w₀.view kind)).sourceDir)
    (hl : LoadsDuring (L.job (x.w₀.view kind)) D ⟨x.w₀.fs, x.names⟩ x.files x.tree) (hac : (Db.taskListAll x.tree.graph).1 = .ok)
    (hsame : ∀ q, area q = false → x.w₀.view kind q = w.view kind q) (hsel : Selected x.tree x.tasks) : Joins L kind area outside w x :=
  ⟨⟨hp, hm, hc, C116_loads hp hD hlist hh hl, hac⟩, hsame, hsel⟩

end Maike.Main
