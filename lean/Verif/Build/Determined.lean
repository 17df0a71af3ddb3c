import Verif.Build.Edges
import Verif.Graph.Sim

/-!
# What the command of a file depends on

The dependencies that are passed to a recipe, in their order, follow from the records of the files that it depends on. Files that have nothing to do with it have no influence.
-/

set_option linter.unusedSectionVars false

namespace Maike.Build

open Maike.Db
open Maike.Graph (All2 Opt2)

variable {P : Type} [PathType P] [DecidableEq P] [Inhabited P]

/-- The record that is made for a target. -/
def genUse (files : SrcList P) (p : P) (t : TargetInfo P) : List (Dep P) :=
  match makeSourceFileInfo (linked files) t.name ⟨p, t⟩ with
  | .ok k => k.useDeps
  | .error _ => []

/-- The dependencies of a file in the graph, as a list. -/
inductive EdgesAre (files : SrcList P) (a : P) (es : List (Dep P)) : Prop
  | file {i : SrcInfo P} : (a, i) ∈ files → es.map bare = (i.useDeps ++ if i.useTargetDeps then i.targets.flatMap (genUse files a) else []).map bare → EdgesAre files a es
  | target {p : P} {i : SrcInfo P} {t : TargetInfo P} : ¬ HasFile files a → (p, i) ∈ files → t ∈ i.targets → a = t.name →
      (∃ k, makeSourceFileInfo (linked files) t.name ⟨p, t⟩ = .ok k) →
      es.map bare = (genUse files p t ++ [({ name := p, origin := .project } : Dep P)]).map bare → EdgesAre files a es
  | external : ¬ HasFile files a → (∀ p i t, (p, i) ∈ files → t ∈ i.targets → a ≠ t.name) → es = [] → EdgesAre files a es

theorem edges_list {files : SrcList P} {kind : P → Bool} (hl : Loadable files kind) {tree : SourceTree P} (h : load files = .ok tree)
    (hmade : ∀ x ∈ files, x.2.useTargetDeps = true → ∀ t ∈ x.2.targets, ¬ HasFile files t.name) {u : Nat} {a : P} (hu : tree.graph.PathOf u a) :
    EdgesAre files a (tree.graph.toGraph.edges u) ∧ ∀ p i t, (p, i) ∈ files → t ∈ i.targets → ¬ HasFile files t.name →
      ∃ k, makeSourceFileInfo (linked files) t.name ⟨p, t⟩ = .ok k := by
  obtain ⟨files1, files3, hc, hm1, rfl, hg, s3⟩ := load_ok hl.sorted h
  obtain ⟨g1, hg1, s1, hmem1⟩ := C09_generated_entries files hl.sorted (C08_one_owner files |>.2 _ hc |>.1) hm1
  obtain ⟨rfl, _⟩ := makeGraph_ok hg1
  obtain ⟨s2, hkeep, hnew, hcov⟩ := placeholders_merged files1 s1
  have htargets := (C08_one_owner files |>.2 _ hc)
  -- what is made for a target
  have hgen : ∀ {p i t}, (p, i) ∈ files → t ∈ i.targets → ¬ HasFile files t.name →
      ∃ k, (t.name, k) ∈ Map.mergeNew files1 (createPlaceholders files1 []) ∧ makeSourceFileInfo (linked files) t.name ⟨p, t⟩ = .ok k ∧ k.useTargetDeps = false := by
    intro p i t hp ht hn
    obtain ⟨hT, k, hk⟩ := target_listed hl hc hm1 hp ht hn
    rcases (hmem1 _).mp hk with hf | ⟨t', k', ht', hk', hkk, _⟩
    · exact absurd ⟨_, hf⟩ hn
    · simp only at ht' hk' hkk
      subst hkk
      have := htargets.1.unique ht' hT
      subst this
      refine ⟨k, hkeep _ hk, hk', ?_⟩
      exact (generated_deps hl hc hg1 hT hk').choose_spec.2.2.2.1
  have hkinds : ∀ b i, (b, i) ∈ Map.mergeNew files1 (createPlaceholders files1 []) →
      (b, i) ∈ files ∨
      (¬ HasFile files b ∧ i.useTargetDeps = false ∧ ∃ p i0 t, (p, i0) ∈ files ∧ t ∈ i0.targets ∧ b = t.name ∧
        makeSourceFileInfo (linked files) t.name ⟨p, t⟩ = .ok i) ∨
      (¬ HasFile files1 b ∧ i.useTargetDeps = false ∧ i.useDeps = [] ∧ i.buildDeps = []) := by
    intro b i hbi
    rcases hnew b i hbi with hb1 | ⟨hno, x, hx, d, hd, hext, rfl, rfl⟩
    · rcases (hmem1 _).mp hb1 with hb0 | ⟨t, k, ht, hk, hki, hnf⟩
      · exact .inl hb0
      · simp only at ht hk hki hnf
        subst hki
        obtain ⟨i0, h0, ht0, hb, hutd, _, _⟩ := generated_deps hl hc hg1 ht hk
        refine .inr (.inl ⟨hnf, hutd, t.sourceFilename, i0, t.target, h0, ht0, hb, ?_⟩)
        rw [← hb]; exact hk
    · exact .inr (.inr ⟨hno, rfl, rfl, rfl⟩)
  have hfile : ∀ x ∈ files, x ∈ files1 := fun x hx => (hmem1 x).mpr (.inl hx)
  have hleaf : ∀ x ∈ Map.mergeNew files1 (createPlaceholders files1 []), x.2.useTargetDeps = true → ∀ t ∈ x.2.targets, ∀ i,
      (t.name, i) ∈ Map.mergeNew files1 (createPlaceholders files1 []) → i.useTargetDeps = false := by
    rintro ⟨b, i⟩ hx hutd t ht j hj
    rcases hkinds b i hx with hf | ⟨_, hu', _⟩ | ⟨_, hu', _⟩
    · have hn := hmade _ hf hutd t ht
      rcases hkinds _ _ hj with hf' | ⟨_, hu', _⟩ | ⟨_, hu', _⟩
      · exact absurd ⟨_, hf'⟩ hn
      · exact hu'
      · exact hu'
    · simp only at hutd; rw [hutd] at hu'; cases hu'
    · simp only at hutd; rw [hutd] at hu'; cases hu'
  have hadd := addTargetDeps_map _ s2 hleaf
  refine ⟨?_, fun p i t hp ht hn => ?_⟩
  · obtain ⟨info, hinfo⟩ := hu
    obtain ⟨i3, hi3, hdeps, _⟩ := (C06_resolved _ s3 hg).2 u a info hinfo
    have hi3' := List.mem_of_getElem? hi3
    rw [hadd] at hi3'
    obtain ⟨⟨a', i2⟩, hi2, he⟩ := List.mem_map.mp hi3'
    simp only [Prod.mk.injEq] at he
    obtain ⟨rfl, rfl⟩ := he
    have e1 : tree.graph.toGraph.edges u = info.deps := by simp [DepGraph.toGraph, hinfo, SrcInfo.deps]
    have hdeps' : (tree.graph.toGraph.edges u).map bare = (addTargetDeps (Map.mergeNew files1 (createPlaceholders files1 [])) i2).deps.map bare := by rw [e1]; exact hdeps
    rcases hkinds a' i2 hi2 with hf | ⟨hnf, hu2, p, i0, t, hp, ht, hat, hk⟩ | ⟨hno, hu2, hu0, hb0⟩
    · refine .file hf ?_
      rw [hdeps']
      have hb : i2.buildDeps = [] := hl.noBuildDeps _ hf
      unfold addTargetDeps SrcInfo.deps
      cases hx : i2.useTargetDeps with
      | false => simp [hb]
      | true =>
        simp only [if_true, hb, List.append_nil]
        congr 2
        have : ∀ ts : List (TargetInfo P), (∀ t ∈ ts, t ∈ i2.targets) → (ts.flatMap fun t => match Map.lookup t.name (Map.mergeNew files1 (createPlaceholders files1 [])) with
            | none => []
            | some i => i.useDeps) = ts.flatMap (genUse files a') := by
          intro ts
          induction ts with
          | nil => intro _; rfl
          | cons t ts ih =>
            intro hts
            simp only [List.flatMap_cons]
            rw [ih fun t ht => hts t (by simp [ht])]
            have ht := hts t (by simp)
            obtain ⟨k, hk1, hk2, _⟩ := hgen hf ht (hmade _ hf hx t ht)
            rw [Map.lookup_of_mem s2 hk1]
            simp only [genUse, hk2]
        exact this i2.targets fun _ h => h
    · refine .target hnf hp ht hat ⟨_, hk⟩ ?_
      rw [hdeps']
      simp only [addTargetDeps, hu2, SrcInfo.deps, genUse, hk]
      have : i2.buildDeps = [{ name := p, origin := .project }] := (C09_generated_entry files hl.sorted hl.unresolved hg1 hk).2.2.2.1
      simp [this]
    · refine .external (fun ⟨i, hi⟩ => hno ⟨i, hfile _ hi⟩) ?_ ?_
      · intro p i t hp ht e
        subst e
        by_cases hn : HasFile files t.name
        · obtain ⟨i', hi'⟩ := hn
          exact hno ⟨i', hfile _ hi'⟩
        · exact hno (target_listed hl hc hm1 hp ht hn).2
      · have : (tree.graph.toGraph.edges u).map bare = [] := by
          rw [hdeps']
          simp [addTargetDeps, hu2, SrcInfo.deps, hu0, hb0]
        exact List.map_eq_nil_iff.mp this
  · obtain ⟨k, _, hk, _⟩ := hgen hp ht hn
    exact ⟨k, hk⟩

/-- No two files have the same target. -/
theorem owner_unique {files : SrcList P} {kind : P → Bool} (hl : Loadable files kind) {tree : SourceTree P} (h : load files = .ok tree)
    {p p' : P} {i i' : SrcInfo P} {t t' : TargetInfo P} (hp : (p, i) ∈ files) (ht : t ∈ i.targets) (hp' : (p', i') ∈ files) (ht' : t' ∈ i'.targets)
    (hn : t.name = t'.name) (hf : ¬ HasFile files t.name) : p = p' ∧ t = t' := by
  obtain ⟨files1, files3, hc, hm1, _, hg, s3⟩ := load_ok hl.sorted h
  have h1 := (target_listed hl hc hm1 hp ht hf).1
  have h2 := (target_listed hl hc hm1 hp' ht' (by rw [← hn]; exact hf)).1
  rw [← hn] at h2
  simpa using (C08_one_owner files |>.2 _ hc |>.1).unique h1 h2

/-- What is made for a target follows from the files that are used by its source file. -/
theorem genUse_same {files files' : SrcList P} {kind kind' : P → Bool} (hl : Loadable files kind) (hl' : Loadable files' kind') {p : P} {t : TargetInfo P}
    (hsame : ∀ q, Uses files p q → ∀ i, (q, i) ∈ files → (q, i) ∈ files' ∧ ∀ d ∈ i.useDeps, ∀ j, (d.name, j) ∈ files ↔ (d.name, j) ∈ files')
    {i : SrcInfo P} (hp : (p, i) ∈ files)
    (hk : ∃ k, makeSourceFileInfo (linked files) t.name ⟨p, t⟩ = .ok k) (hk' : ∃ k, makeSourceFileInfo (linked files') t.name ⟨p, t⟩ = .ok k) :
    genUse files p t = genUse files' p t := by
  obtain ⟨k, hk⟩ := hk
  obtain ⟨k', hk'⟩ := hk'
  simp only [genUse, hk, hk']
  have hg : makeGraph files true = .ok (linked files) := makeGraph_ignore files
  have hg' : makeGraph files' true = .ok (linked files') := makeGraph_ignore files'
  have hn := fun n => (C07_getNode files hl.sorted hg n).1
  have hn' := fun n => (C07_getNode files' hl'.sorted hg' n).1
  unfold makeSourceFileInfo at hk hk'
  split at hk
  · cases hk
  · rename_i u hu
    split at hk'
    · cases hk'
    · rename_i v hv
      simp only at hu hv
      split at hk
      · rename_i calls hcalls
        split at hk'
        · rename_i calls' hcalls'
          simp only [Except.ok.injEq] at hk hk'
          subst hk hk'
          simp only
          congr 1
          have hget : ∀ {files : SrcList P} {w : Nat} {q : P} {i : SrcInfo P}, files[w]? = some (q, i) → (linked files).files[w]? = some (q, linkInfo files i) := by
            intro files w q i h
            rw [linked_get, h]; rfl
          have huf : files[u]? = some (p, i) := by
            obtain ⟨j, hj⟩ := (hn p u).mp hu
            rw [linked_get] at hj
            obtain ⟨x, hx, hx'⟩ := Option.map_eq_some_iff.mp hj
            simp only [Prod.mk.injEq] at hx'
            have : x = (p, i) := by
              have h1 := List.mem_of_getElem? hx
              have : x = (p, x.2) := by rw [← hx'.1]
              rw [this] at h1 ⊢
              rw [hl.sorted.unique h1 hp]
            rw [hx, this]
          have hvf : files'[v]? = some (p, i) := by
            obtain ⟨j, hj⟩ := (hn' p v).mp hv
            rw [linked_get] at hj
            obtain ⟨x, hx, hx'⟩ := Option.map_eq_some_iff.mp hj
            simp only [Prod.mk.injEq] at hx'
            have : x = (p, i) := by
              have h1 := List.mem_of_getElem? hx
              have : x = (p, x.2) := by rw [← hx'.1]
              rw [this] at h1 ⊢
              rw [hl'.sorted.unique h1 (hsame p (.refl p) i hp).1]
            rw [hx, this]
          have hsim := Graph.traversal_sim (g := (linked files).toGraph) (g' := (linked files').toGraph)
            (R := fun u v => ∃ q i, Uses files p q ∧ files[u]? = some (q, i) ∧ files'[v]? = some (q, i)) (S := fun _ _ => True)
            (by
              rintro u v v' ⟨q, i, _, h1, h2⟩ ⟨q', i', _, h1', h2'⟩
              rw [h1] at h1'; cases h1'
              have e1 := (find_eq_some hl'.sorted).mpr ⟨_, h2⟩
              have e2 := (find_eq_some hl'.sorted).mpr ⟨_, h2'⟩
              rw [e1] at e2; cases e2; rfl)
            (by
              rintro u u' v ⟨q, i, _, h1, h2⟩ ⟨q', i', _, h1', h2'⟩
              rw [h2] at h2'; cases h2'
              have e1 := (find_eq_some hl.sorted).mpr ⟨_, h1⟩
              have e2 := (find_eq_some hl.sorted).mpr ⟨_, h1'⟩
              rw [e1] at e2; cases e2; rfl)
            (by
              rintro u v ⟨q, i, huse, h1, h2⟩
              have hm := List.mem_of_getElem? h1
              have hm' := List.mem_of_getElem? h2
              obtain ⟨_, hd⟩ := hsame q huse i hm
              have hb : i.buildDeps = [] := hl.noBuildDeps _ hm
              have hun := hl.unresolved _ hm
              simp only [DepGraph.toGraph, hget h1, hget h2, linkInfo, hb, List.map_nil, List.append_nil]
              have : ∀ ds : List (Dep P), (∀ d ∈ ds, d ∈ i.useDeps) →
                  All2 (fun e e' : Dep P => True ∧ Opt2 (fun u v => ∃ q i, Uses files p q ∧ files[u]? = some (q, i) ∧ files'[v]? = some (q, i)) e.ref e'.ref)
                    (ds.map (link files)) (ds.map (link files')) := by
                intro ds
                induction ds with
                | nil => intro _; exact .nil
                | cons d ds ih =>
                  intro hds
                  refine .cons ⟨trivial, ?_⟩ (ih fun d h => hds d (by simp [h]))
                  have hdi := hds d (by simp)
                  have href : d.ref = none := hun d (by simp [hdi])
                  unfold link
                  cases hf : find files d.name with
                  | none =>
                    cases hf' : find files' d.name with
                    | none => simp only [href]; exact .none
                    | some w =>
                      obtain ⟨j, hj⟩ := (find_eq_some hl'.sorted).mp hf'
                      obtain ⟨w', hw'⟩ := List.getElem?_of_mem ((hd d hdi j).mpr (List.mem_of_getElem? hj))
                      rw [(find_eq_some hl.sorted).mpr ⟨j, hw'⟩] at hf; cases hf
                  | some w =>
                    obtain ⟨j, hj⟩ := (find_eq_some hl.sorted).mp hf
                    have hjm := List.mem_of_getElem? hj
                    obtain ⟨w', hw'⟩ := List.getElem?_of_mem ((hd d hdi j).mp hjm)
                    rw [(find_eq_some hl'.sorted).mpr ⟨j, hw'⟩]
                    exact .some ⟨d.name, j, .step huse hm hdi ⟨_, hjm⟩, hj, hw'⟩
              exact this i.useDeps fun _ h => h)
            ⟨p, i, .refl p, huf, hvf⟩ (by rw [hcalls]) (by rw [hcalls'])
          rw [hcalls, hcalls'] at hsim
          refine hsim.flatMap ?_
          rintro ⟨a, _⟩ ⟨b, _⟩ ⟨⟨q, i, _, h1, h2⟩, _⟩
          simp only [childDeps, hget h1, hget h2, linkInfo]
        · cases hk'
        · cases hk'
      · cases hk
      · cases hk

/-- The files on which `a` depends are the same in two projects: they have the same records, and are targets in one if they are in the other. -/
structure Agree (files files' : SrcList P) (a : P) : Prop where
  same : ∀ q, (q = a ∨ Chain files a q) → ∀ i, (q, i) ∈ files ↔ (q, i) ∈ files'
  made : ∀ q, (q = a ∨ Chain files a q) → ¬ HasFile files q → (∃ p i t, (p, i) ∈ files ∧ t ∈ i.targets ∧ q = t.name) ∨
    ∀ p i t, (p, i) ∈ files' → t ∈ i.targets → q ≠ t.name

theorem uses_chain {files : SrcList P} {a p q : P} (hp : p = a ∨ Chain files a p) (h : Uses files p q) : q = a ∨ Chain files a q := by
  induction h with
  | refl => exact hp
  | step _ hq hd _ ih =>
    rcases ih with rfl | ih
    · exact .inr (.single (.use hq hd))
    · exact .inr (.tail ih (.use hq hd))

theorem chain_next {files : SrcList P} {a b : P} {d : Dep P} (hb : b = a ∨ Chain files a b) (h : Refers files b d) : d.name = a ∨ Chain files a d.name := by
  rcases hb with rfl | hb
  · exact .inr (.single h)
  · exact .inr (.tail hb h)

/-- The traversal of the dependencies of a file comes to an end without finding a cycle. -/
theorem traversal_ok {g : DepGraph P} {files3 : SrcList P} (s3 : Map.Sorted files3) (hg : makeGraph files3 false = .ok g) (hok : (taskListAll g).1 = .ok)
    {u : Nat} {a : P} (hu : g.PathOf u a) : (Graph.processGraphNodeRecursive g.toGraph u).1 = .ok := by
  have hcyc := (C21_all_tasks files3 s3 hg).1.mp hok
  have hr := refsMatch_of_ok s3 hg
  have hlt : u < g.toGraph.size := by
    obtain ⟨i, hi⟩ := hu; exact (List.getElem?_eq_some_iff.mp hi).1
  exact (Graph.C04_visits_exactly_reachable _ hr.wellFormed u hlt (fun ⟨c, _, hc⟩ => by
    obtain ⟨w, hw, hadj⟩ := hc
    exact hcyc ⟨c, hr.wellFormed _ _ hadj, w, hw, hadj⟩)).1

/-- What is kept of a call, core/db/dependency_graph.cpp:107-112. -/
def kept (c : Nat × Option (Dep P)) : Option (Dep P) :=
  match c.2 with
  | none => none
  | some d => if d.name = PathType.empty then none else some d

theorem useDeps_eq (g : DepGraph P) (u : Nat) : (getUseDepsRecursive g u).2 = (Graph.processGraphNodeRecursive g.toGraph u).2.filterMap kept := by
  unfold getUseDepsRecursive
  generalize Graph.processGraphNodeRecursive g.toGraph u = r
  rfl

theorem listed_same {l m : List (Nat × Option (Dep P))} {R : Nat → Nat → Prop} (hlm : All2 (Graph.Entry R fun e e' : Dep P => bare e = bare e') l m) :
    (l.filterMap kept).map bare = (m.filterMap kept).map bare := by
  induction hlm with
  | nil => rfl
  | @cons x y l m hxy _ ih =>
    obtain ⟨_, he⟩ := hxy
    obtain ⟨x1, x2⟩ := x
    obtain ⟨y1, y2⟩ := y
    cases he with
    | none => simpa [List.filterMap_cons, kept] using ih
    | @some d d' hb =>
      have hn : d.name = d'.name := (congrArg Dep.name hb : _)
      simp only [List.filterMap_cons, kept, hn]
      by_cases hx : d'.name = PathType.empty
      · simpa [hx] using ih
      · simp only [hx, if_false, List.map_cons, ih, hb]

/-- Files that correspond to each other have the same dependencies. -/
theorem edges_same {files files' : SrcList P} {kind kind' : P → Bool} (hl : Loadable files kind) (hl' : Loadable files' kind')
    {tree tree' : SourceTree P} (h : load files = .ok tree) (h' : load files' = .ok tree')
    (hmade : ∀ x ∈ files, x.2.useTargetDeps = true → ∀ t ∈ x.2.targets, ¬ HasFile files t.name)
    (hmade' : ∀ x ∈ files', x.2.useTargetDeps = true → ∀ t ∈ x.2.targets, ¬ HasFile files' t.name)
    {a : P} (hag : Agree files files' a) {q : P} {u v : Nat} (hq : q = a ∨ Chain files a q) (hu : tree.graph.PathOf u q) (hv : tree'.graph.PathOf v q) :
    (tree.graph.toGraph.edges u).map bare = (tree'.graph.toGraph.edges v).map bare := by
  have hgen : ∀ {p i t}, (p = a ∨ Chain files a p) → (p, i) ∈ files → t ∈ i.targets →
      (∃ k, makeSourceFileInfo (linked files) t.name ⟨p, t⟩ = .ok k) → (∃ k, makeSourceFileInfo (linked files') t.name ⟨p, t⟩ = .ok k) →
      genUse files p t = genUse files' p t := by
    intro p i t hpa hp _ hk hk'
    refine genUse_same hl hl' ?_ hp hk hk'
    intro q hq j hj
    have hqa := uses_chain hpa hq
    exact ⟨(hag.same q hqa j).mp hj, fun d hd k => hag.same d.name (chain_next hqa (.use hj hd)) k⟩
  obtain ⟨e1, gen1⟩ := edges_list hl h hmade hu
  obtain ⟨e2, gen2⟩ := edges_list hl' h' hmade' hv
  have hno : ¬ HasFile files q → ¬ HasFile files' q := fun hn ⟨i, hi⟩ => hn ⟨i, (hag.same q hq i).mpr hi⟩
  cases e1 with
  | @file i hi es1 =>
    have hi' := (hag.same q hq i).mp hi
    cases e2 with
    | @file j hj es2 =>
      have := hl'.sorted.unique hi' hj
      subst this
      refine es1.trans (Eq.trans ?_ es2.symm)
      congr 2
      split
      · rename_i hx
        have hall : ∀ ts : List (TargetInfo P), (∀ t ∈ ts, t ∈ i.targets) → ts.flatMap (genUse files q) = ts.flatMap (genUse files' q) := by
          intro ts
          induction ts with
          | nil => intro _; simp only [List.flatMap_nil]
          | cons t ts ih =>
            intro hts
            have ht := hts t (by simp)
            simp only [List.flatMap_cons]
            rw [ih fun t h => hts t (by simp [h]), hgen hq hi ht (gen1 _ _ _ hi ht (hmade _ hi hx t ht)) (gen2 _ _ _ hi' ht (hmade' _ hi' hx t ht))]
        exact hall _ fun _ h => h
      · rfl
    | target hn => exact absurd ⟨_, hi'⟩ hn
    | external hn => exact absurd ⟨_, hi'⟩ hn
  | @target p i t hn hp ht hat hk es1 =>
    subst hat
    have hpa : p = a ∨ Chain files a p := chain_next (d := { name := p, origin := .project }) hq (.source hp ht hn)
    have hp' := (hag.same p hpa i).mp hp
    cases e2 with
    | file hj => exact absurd ⟨_, hj⟩ (hno hn)
    | @target p' i' t' hn' hq' ht' hat' hk' es2 =>
      obtain ⟨rfl, rfl⟩ := owner_unique hl' h' hp' ht hq' ht' hat' hn'
      rw [es1, es2, hgen hpa hp ht hk hk']
    | external _ hx => exact absurd rfl (hx p i t hp' ht)
  | external hn hx es1 =>
    cases e2 with
    | file hj => exact absurd ⟨_, hj⟩ (hno hn)
    | @target p' i' t' hn' hq' ht' hat' hk' es2 =>
      rcases hag.made q hq hn with ⟨p, i, t, hp, ht, e⟩ | hx'
      · exact absurd e (hx p i t hp ht)
      · exact absurd hat' (hx' p' i' t' hq' ht')
    | external _ _ es2 => rw [es1, es2]

/-- Dependencies refer to files with the same name. -/
theorem edge_ref {g : DepGraph P} {files3 : SrcList P} (s3 : Map.Sorted files3) (hg : makeGraph files3 false = .ok g) {u : Nat} {q : P} (hu : g.PathOf u q) :
    ∀ e ∈ g.toGraph.edges u, ∃ w, g.toGraph.ref e = some w ∧ g.PathOf w e.name := by
  intro e he
  obtain ⟨info, hinfo⟩ := hu
  have h1' : e ∈ info.deps := by simpa [DepGraph.toGraph, hinfo, SrcInfo.deps] using he
  obtain ⟨_, _, _, _, _, _, hres⟩ := (C06_resolved _ s3 hg).2 u q info hinfo
  exact hres e h1'

/-- **C85.** The dependencies of a file, in the order in which they are passed on, follow from the records of the files on which it depends. -/
theorem deps_same {files files' : SrcList P} {kind kind' : P → Bool} (hl : Loadable files kind) (hl' : Loadable files' kind')
    {tree tree' : SourceTree P} (h : load files = .ok tree) (h' : load files' = .ok tree')
    (hmade : ∀ x ∈ files, x.2.useTargetDeps = true → ∀ t ∈ x.2.targets, ¬ HasFile files t.name)
    (hmade' : ∀ x ∈ files', x.2.useTargetDeps = true → ∀ t ∈ x.2.targets, ¬ HasFile files' t.name)
    (hok : (taskListAll tree.graph).1 = .ok) (hok' : (taskListAll tree'.graph).1 = .ok)
    {a : P} (hag : Agree files files' a) {u v : Nat} (hu : tree.graph.PathOf u a) (hv : tree'.graph.PathOf v a) :
    (getUseDepsRecursive tree.graph u).2.map bare = (getUseDepsRecursive tree'.graph v).2.map bare := by
  obtain ⟨_, files3, _, _, _, hg, s3⟩ := load_ok hl.sorted h
  obtain ⟨_, files3', _, _, _, hg', s3'⟩ := load_ok hl'.sorted h'
  have hgs : Map.Sorted tree.graph.files := sorted_of_keys (C06_resolved _ s3 hg).1 s3
  have hgs' : Map.Sorted tree'.graph.files := sorted_of_keys (C06_resolved _ s3' hg').1 s3'
  have hr := refsMatch_of_ok s3 hg
  have hr' := refsMatch_of_ok s3' hg'
  have hsim := Graph.traversal_sim (g := tree.graph.toGraph) (g' := tree'.graph.toGraph)
    (R := fun u v => ∃ q, (q = a ∨ Chain files a q) ∧ tree.graph.PathOf u q ∧ tree'.graph.PathOf v q) (S := fun e e' => bare e = bare e')
    (by
      rintro u v v' ⟨q, _, h1, h2⟩ ⟨q', _, h1', h2'⟩
      obtain ⟨i, hi⟩ := h1
      obtain ⟨i', hi'⟩ := h1'
      rw [hi] at hi'; cases hi'
      exact path_unique hgs' h2 h2')
    (by
      rintro u u' v ⟨q, _, h1, h2⟩ ⟨q', _, h1', h2'⟩
      obtain ⟨i, hi⟩ := h2
      obtain ⟨i', hi'⟩ := h2'
      rw [hi] at hi'; cases hi'
      exact path_unique hgs h1 h1')
    (by
      rintro u v ⟨q, hq, h1, h2⟩
      refine ((All2.of_map (edges_same hl hl' h h' hmade hmade' hag hq h1 h2)).and_mem).imp ?_
      rintro e e' ⟨hb, he, he'⟩
      refine ⟨hb, ?_⟩
      obtain ⟨w, hw, hpw⟩ := edge_ref s3 hg h1 e he
      obtain ⟨w', hw', hpw'⟩ := edge_ref s3' hg' h2 e' he'
      have hn : e.name = e'.name := (congrArg Dep.name hb : _)
      obtain ⟨d, hd, hbd⟩ := (edges_exact hl h hmade h1 e).mp ⟨e, he, rfl⟩
      have hdn : d.name = e.name := (congrArg Dep.name hbd : _)
      have := chain_next hq hd
      rw [hdn] at this
      rw [hw, hw']
      exact .some ⟨e.name, this, hpw, by rw [hn]; exact hpw'⟩)
    ⟨a, .inl rfl, hu, hv⟩ (traversal_ok s3 hg hok hu) (traversal_ok s3' hg' hok' hv)
  rw [useDeps_eq, useDeps_eq]
  exact listed_same hsim

/-- Files on which `a` depends in one project, and which are files of the other one if they are known there, are dependencies in the other one as well. -/
theorem chain_same {files files' : SrcList P} {kind' : P → Bool} (hl' : Loadable files' kind') {tree' : SourceTree P} (h' : load files' = .ok tree')
    (hmade' : ∀ x ∈ files', x.2.useTargetDeps = true → ∀ t ∈ x.2.targets, ¬ HasFile files' t.name) {a : P} {v₀ : Nat} (hv₀ : tree'.graph.PathOf v₀ a)
    (hsame : ∀ q, (q = a ∨ Chain files a q) → (∃ v, tree'.graph.PathOf v q) → ∀ i, (q, i) ∈ files ↔ (q, i) ∈ files')
    (hsource : ∀ p i t, (p, i) ∈ files → t ∈ i.targets → (t.name = a ∨ Chain files a t.name) → ¬ HasFile files t.name → (p, i) ∈ files') :
    ∀ q, Chain files a q → Chain files' a q := by
  have hnode : ∀ q, (q = a ∨ Chain files' a q) → ∃ v, tree'.graph.PathOf v q := by
    rintro q (rfl | hq)
    · exact ⟨_, hv₀⟩
    · obtain ⟨v, _, hv⟩ := (chain_exact hl' h' hmade' hv₀).2 q hq
      exact ⟨v, hv⟩
  have hS : ∀ {q}, (q = a ∨ Chain files a q) → (q = a ∨ Chain files' a q) → ∀ i, (q, i) ∈ files ↔ (q, i) ∈ files' :=
    fun h1 h2 => hsame _ h1 (hnode _ h2)
  -- what is used
  have huses : ∀ {p q}, (p = a ∨ Chain files a p) → (p = a ∨ Chain files' a p) → Uses files p q → Uses files' p q ∧ (q = a ∨ Chain files' a q) := by
    intro p q hp hp' h
    induction h with
    | refl => exact ⟨.refl _, hp'⟩
    | @step q i d hu hq hd hf ih =>
      obtain ⟨ih1, ih2⟩ := ih
      have hqa := uses_chain hp hu
      have hq' := (hS hqa ih2 i).mp hq
      have hd1 := chain_next hqa (.use hq hd)
      have hd2 := chain_next ih2 (.use hq' hd)
      obtain ⟨k, hk⟩ := hf
      exact ⟨.step ih1 hq' hd ⟨k, (hS hd1 hd2 k).mp hk⟩, hd2⟩
  have hlink : ∀ {p t d}, (p = a ∨ Chain files a p) → (p = a ∨ Chain files' a p) → LinkDep files p t d → LinkDep files' p t d := by
    intro p t d hp hp' h
    cases h with
    | own h => exact .own h
    | child h1 h2 h3 h4 =>
      obtain ⟨g1, g2⟩ := huses hp hp' h1
      exact .child g1 ((hS (uses_chain hp h1) g2 _).mp h2) h3 h4
  have hrefers : ∀ {b d}, (b = a ∨ Chain files a b) → (b = a ∨ Chain files' a b) → Refers files b d → Refers files' b d := by
    intro b d hb hb' h
    cases h with
    | use h1 h2 => exact .use ((hS hb hb' _).mp h1) h2
    | source h1 h2 h3 =>
      refine .source (hsource _ _ _ h1 h2 hb h3) h2 ?_
      rintro ⟨i, hi⟩
      exact h3 ⟨i, (hS hb hb' i).mpr hi⟩
    | @link p i t d h1 h2 h3 h4 =>
      have h1' := hsource _ _ _ h1 h2 hb h3
      have h3' : ¬ HasFile files' t.name := by
        rintro ⟨i, hi⟩
        exact h3 ⟨i, (hS hb hb' i).mpr hi⟩
      have hpa := chain_next (d := { name := p, origin := .project }) hb (.source h1 h2 h3)
      have hpa' := chain_next (d := { name := p, origin := .project }) hb' (.source h1' h2 h3')
      exact .link h1' h2 h3' (hlink hpa hpa' h4)
    | ofTarget h1 h2 h3 h4 => exact .ofTarget ((hS hb hb' _).mp h1) h2 h3 (hlink hb hb' h4)
  intro q hq
  induction hq with
  | single h => exact .single (hrefers (.inl rfl) (.inl rfl) h)
  | tail hb h ih => exact .tail ih (hrefers (.inr hb) (.inr ih) h)

end Maike.Build
