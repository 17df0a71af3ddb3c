import Verif.Build.Reads
import Verif.Main.Processes
import Verif.Main.Retry

/-!
# What is in the files after a run (C94)
-/

namespace Maike.Main

open Fs Tree Paths
open Maike.Kvs (Json Members)
open Maike.Build (Tools CState CExec cinit Effects Faithful Known OneByOne)
open Maike.Recipes (Script targetsOf)

variable {V : Type}

/-! ## Model -/

/-- A run on the file system `d` with contents `c`, at time `now`, which executes its recipes with `n` workers, has arrived at state `s`. -/
def RunsOn (j : Job) (force : Bool) (kind : Path → Bool) (tools : Tools Path) (eff : Effects Path V tools) (recipe : String → Members → Script) (info : Json) (format : Text.LogFormat)
    (d : Disk) (c : Path → V) (now : Nat) (files : List (Path × FileInfo)) (tree : Db.SourceTree Path) (n : Nat) (s : CState Path V) : Prop :=
  Loads j d files tree ∧ (Db.taskListAll tree.graph).1 = .ok ∧
  ∃ as, CExec ((theBuild j tree force kind).withWorkers n) tools (scriptOf recipe files tree info format) eff as (cinit ((theBuild j tree force kind).withWorkers n) d.fs now c) s

/-! ## Specification -/

/-- What the recipe of a file may read: the file itself, what it needs, unless it is a directory or external, the targets, and all files that are not a target. -/
def MayRead (kind : Path → Bool) (j : Job) (d : Disk) (p : Path) (i : FileInfo) (q : Path) : Prop :=
  (kind q = false ∧ (q = p.normal ∨ (Needs j d p.normal q ∧ ∀ p' i', Scanned j d p' i' → ∀ x, Declares i' x → x.name = q → Db.isExternal x.origin = false) ∨ ∃ t ∈ i.targets, t.name = q)) ∨
  ∀ p' i', Scanned j d p' i' → ∀ t ∈ i'.targets, t.name ≠ q

/-- All files of the project are used with recipes of maike, and what is read by these, and by the programs that they start, is known to maike. -/
def ReadsKnown (j : Job) (kind : Path → Bool) {tools : Tools Path} (eff : Effects Path V tools) (recipe : String → Members → Script) (info : Json) (format : Text.LogFormat)
    (d : Disk) (files : List (Path × FileInfo)) (tree : Db.SourceTree Path) : Prop :=
  ∀ p i, Scanned j d p i → i.targets ≠ [] → ∀ u, tree.graph.PathOf u p.normal → ∀ exe opts, commandOf files tree info format u = some (exe, opts) →
    Faithful eff (MayRead kind j d p i) opts (recipe exe opts)

/-! ## Proof -/

variable {j : Job} {kind : Path → Bool} {d : Disk} {now : Nat}

/-- What a file needs is an input of its task. -/
theorem in_of_needs (hp : Proper j kind d now) {files : List (Path × FileInfo)} {tree : Db.SourceTree Path} (hl : Loads j d files tree) (hok : (Db.taskListAll tree.graph).1 = .ok) {force : Bool}
    {u : Nat} {p q : Path} (hu : tree.graph.PathOf u p) (hn : Needs j d p q) (hk : kind q = false)
    (hext : ∀ p' i', Scanned j d p' i' → ∀ x, Declares i' x → x.name = q → Db.isExternal x.origin = false) : Build.In (theBuild j tree force kind) u q := by
  have hL := loadable hp hl
  obtain ⟨u', v, g1, ⟨vinfo, g2⟩, g3⟩ := needs_reach hp hl hn
  have := Build.path_unique (graph_sorted hp hl) g1 hu
  subst this
  obtain ⟨files1, files3, hc, h1, h3, hg, s3⟩ := Build.load_ok hL.sorted hl.2
  have hr := Db.refsMatch_of_ok s3 hg
  obtain ⟨hcyc, hrest⟩ := Db.C21_all_tasks files3 s3 hg
  have hac : ¬ ∃ c, Graph.Reach tree.graph.toGraph u' c ∧ Graph.OnCycle tree.graph.toGraph c := by
    rintro ⟨c, _, hc⟩
    refine hcyc.mp hok ⟨c, ?_, hc⟩
    obtain ⟨w, _, hadj⟩ := hc
    exact hr.wellFormed _ _ hadj
  refine ⟨hk, .inr ?_⟩
  obtain ⟨uinfo, hu⟩ := hu
  have hlt : u' < tree.graph.toGraph.size := (List.getElem?_eq_some_iff.mp hu).1
  obtain ⟨l, hl1, _, hl3, hl4⟩ := Db.useDeps_refs hr hlt hac
  have hvl : v ∈ l := (hl3 v).mpr ⟨g3.toReach, fun e => hac ⟨u', .refl u', by rw [e] at g3; exact g3⟩, no_empty hp hl v⟩
  have : some v ∈ (Db.getUseDepsRecursive tree.graph u').2.map Db.Dep.ref := by
    rw [hl1]; exact List.mem_map.mpr ⟨v, hvl, rfl⟩
  obtain ⟨x, hx, hdv⟩ := List.mem_map.mp this
  obtain ⟨w, hrw, he, _⟩ := hl4 x hx
  obtain ⟨i', hi'⟩ := Db.edge_of_call hr he hdv
  rw [g2] at hi'
  simp only [Option.some.injEq, Prod.mk.injEq] at hi'
  refine ⟨x, ?_, hi'.1.symm, ?_⟩
  · show x ∈ (Build.makeTask tree.graph u').deps
    simp only [Build.makeTask, hu]
    exact hx
  · rcases Build.edge_declared hL hl.2 he with ⟨y, hy, d₀, hd₀, e1, e2⟩ | ⟨e, _⟩
    · obtain ⟨p', i', hs', rfl⟩ := (mem_srcList hp hl _).mp hy
      obtain ⟨z, h1, h2, h3⟩ := found_declares hd₀
      have := hext p' i' hs' z h1 (h2.trans (e1.trans hi'.1.symm))
      rw [h3, e2] at this
      exact this
    · rw [e]; rfl

theorem run_known (hp : Proper j kind d now) {files : List (Path × FileInfo)} {tree : Db.SourceTree Path} (hl : Loads j d files tree) (hok : (Db.taskListAll tree.graph).1 = .ok) {force : Bool}
    {tools : Tools Path} {eff : Effects Path V tools} {recipe : String → Members → Script} {info : Json} {format : Text.LogFormat} (hu : Uses j kind tools recipe info format d files tree)
    (hr : ReadsKnown j kind eff recipe info format d files tree) (n : Nat) :
    Known ((theBuild j tree force kind).withWorkers n) tools eff (scriptOf recipe files tree info format) ∧
    ∀ u ∈ (Db.taskListAll tree.graph).2, ∀ c c₁ c₂, Build.MakesAlone eff (scriptOf recipe files tree info format u) c c₁ → Build.MakesAlone eff (scriptOf recipe files tree info format u) c c₂ →
      c₁ = c₂ := by
  have hfaith : ∀ u ∈ (Db.taskListAll tree.graph).2, ∀ exe opts, commandOf files tree info format u = some (exe, opts) →
      Faithful eff (fun q => Build.MaySee (theBuild j tree force kind) u q ∨ Build.Own (theBuild j tree force kind) u q) opts (recipe exe opts) := by
    intro u hmem exe opts hc
    obtain ⟨p, i, hs, hi, hpath⟩ := C79_tasks hp hl hok hmem
    have h := hr p i hs hi u hpath exe opts hc
    obtain ⟨u', si, hu', htg, _, _⟩ := Build.file_kept (loadable hp hl) hl.2 ((mem_srcList hp hl _).mpr ⟨p, i, hs, rfl⟩)
    have := Build.path_unique (graph_sorted hp hl) hpath ⟨si, hu'⟩
    subst this
    refine h.mono fun q hq => ?_
    obtain ⟨hk, rfl | ⟨h1, h2⟩ | ⟨t, ht, rfl⟩⟩ | hq := hq
    · refine .inl (.inl ⟨hk, .inl ?_⟩)
      show p.normal = (Build.makeTask tree.graph u).src
      simp only [Build.makeTask, hu']
    · exact .inl (.inl <| in_of_needs hp hl hok hpath h1 hk h2)
    · refine .inr ⟨?_, hk⟩
      show t.name ∈ (Build.makeTask tree.graph u).targets
      simp only [Build.makeTask, hu', htg]
      exact List.mem_map.mpr ⟨_, List.mem_map.mpr ⟨t, ht, rfl⟩, rfl⟩
    · refine .inl (.inr fun v hv hqv => ?_)
      obtain ⟨p', i', hs', hi', hpath'⟩ := C79_tasks hp hl hok hv
      obtain ⟨v', si', hv', htg', _, _⟩ := Build.file_kept (loadable hp hl) hl.2 ((mem_srcList hp hl _).mpr ⟨p', i', hs', rfl⟩)
      have := Build.path_unique (graph_sorted hp hl) hpath' ⟨si', hv'⟩
      subst this
      have hqv : q ∈ (Build.makeTask tree.graph v).targets := hqv
      simp only [Build.makeTask, hv', htg'] at hqv
      obtain ⟨x, hx, rfl⟩ := List.mem_map.mp hqv
      obtain ⟨y, hy, rfl⟩ := List.mem_map.mp hx
      exact hq p' i' hs' y hy rfl
  refine ⟨⟨promises (force := force) hp hl hok hu, fun u hmem => ?_⟩, fun u hmem c c₁ c₂ h₁ h₂ => ?_⟩
  · unfold scriptOf
    cases hc : commandOf files tree info format u with
    | none => exact trivial
    | some x => exact Build.C94_confined (hfaith u hmem x.1 x.2 hc)
  · unfold scriptOf at h₁ h₂
    cases hc : commandOf files tree info format u with
    | none => rw [hc] at h₁; exact absurd h₁ (Build.not_makes_exit (by decide))
    | some x => rw [hc] at h₁ h₂; exact Build.C94_recipes (hfaith u hmem x.1 x.2 hc) h₁ h₂

/-- **C94.** What is in the files after a run that has succeeded is what results from executing the recipes that it has executed one after the other, in the order of the list of tasks. -/
theorem C94_run (hp : Proper j kind d now) {files : List (Path × FileInfo)} {tree : Db.SourceTree Path} {force : Bool} {tools : Tools Path} {eff : Effects Path V tools}
    {recipe : String → Members → Script} {info : Json} {format : Text.LogFormat} (hu : Uses j kind tools recipe info format d files tree)
    (hk : ReadsKnown j kind eff recipe info format d files tree) {c : Path → V} {n : Nat} {s : CState Path V} (hr : RunsOn j force kind tools eff recipe info format d c now files tree n s)
    (hs : s.base.base.Succeeded) :
    OneByOne eff (scriptOf recipe files tree info format) ((Db.taskListAll tree.graph).2.filter fun u => s.base.base.decision u = some .run) c s.content := by
  obtain ⟨hl, hok, as, h⟩ := hr
  exact Build.C94_in_order _ eff _ ((run_sane hp hl hok force).1.withWorkers n) (run_known hp hl hok hu hk n).1 rfl hp.kinds h hs

/-- **C94.** Two runs that start with the same files, with any numbers of workers, and that both succeed, leave the same in all files, if they are forced, or if the directories that
are targets exist already. -/
theorem C94_run_workers (hp : Proper j kind d now) {files : List (Path × FileInfo)} {tree : Db.SourceTree Path} {force : Bool} {tools : Tools Path} {eff : Effects Path V tools}
    {recipe : String → Members → Script} {info : Json} {format : Text.LogFormat} (hu : Uses j kind tools recipe info format d files tree)
    (hk : ReadsKnown j kind eff recipe info format d files tree)
    (hdirs : force = true ∨ ∀ p i, Scanned j d p i → ∀ t ∈ i.targets, kind t.name = true → (d.fs t.name).isSome)
    {c : Path → V} {n n' : Nat} {s s' : CState Path V} (hr : RunsOn j force kind tools eff recipe info format d c now files tree n s)
    (hr' : RunsOn j force kind tools eff recipe info format d c now files tree n' s')
    (hs : s.base.base.Succeeded) (hs' : s'.base.base.Succeeded) : s.content = s'.content := by
  obtain ⟨hl, hok, as, h⟩ := hr
  obtain ⟨_, _, as', h'⟩ := hr'
  have hpl := plausible hp tree force
  obtain ⟨hkn, hdet⟩ := run_known (force := force) hp hl hok hu hk n
  refine Build.C94_workers _ eff _ ((run_sane hp hl hok force).1.withWorkers n) rfl hkn rfl hdet n' ⟨hpl.past, hpl.kinds⟩ ?_ h h' hs hs'
  refine hdirs.imp id fun hd t ht p hpt hkp => ?_
  obtain ⟨p₀, i, hsc, hi, hpath⟩ := C79_tasks hp hl hok ht
  obtain ⟨u', si, hu', htg, _, _⟩ := Build.file_kept (loadable hp hl) hl.2 ((mem_srcList hp hl _).mpr ⟨p₀, i, hsc, rfl⟩)
  have := Build.path_unique (graph_sorted hp hl) hpath ⟨si, hu'⟩
  subst this
  have hpt : p ∈ (Build.makeTask tree.graph t).targets := hpt
  simp only [Build.makeTask, hu', htg] at hpt
  obtain ⟨x, hx, rfl⟩ := List.mem_map.mp hpt
  obtain ⟨y, hy, rfl⟩ := List.mem_map.mp hx
  exact Option.isSome_iff_exists.mp (hd p₀ i hsc y hy hkp)

end Maike.Main
