import Verif.Db.Theorems

/-!
# Theorems about loading and about the construction of task lists (C06, C09, C10, C21)
-/

set_option linter.unusedSectionVars false

namespace Maike.Db

variable {P : Type} [PathType P] [DecidableEq P]

/-! ## Lemmas about `addTargetDepsToSourceFiles` -/

theorem assign_keys {p : P} {i : SrcInfo P} {m : SrcList P} :
    (assign p i m).map Prod.fst = m.map Prod.fst := by
  induction m with
  | nil => rfl
  | cons a m ih =>
    obtain ⟨q, j⟩ := a
    simp only [assign]
    split
    · rfl
    · simp [ih]

theorem mem_assign {p : P} {i : SrcInfo P} {m : SrcList P} {x : P × SrcInfo P}
    (h : x ∈ assign p i m) : x ∈ m ∨ x = (p, i) := by
  induction m with
  | nil => cases h
  | cons a m ih =>
    obtain ⟨q, j⟩ := a
    simp only [assign] at h
    split at h
    · rename_i e; subst e
      rcases List.mem_cons.mp h with h | h
      · exact .inr h
      · exact .inl (List.mem_cons_of_mem _ h)
    · rcases List.mem_cons.mp h with h | h
      · exact .inl (by rw [h]; simp)
      · rcases ih h with h | h
        · exact .inl (List.mem_cons_of_mem _ h)
        · exact .inr h

theorem addLoop_keys {ps : List P} {m : SrcList P} :
    (addTargetDepsLoop ps m).map Prod.fst = m.map Prod.fst := by
  induction ps generalizing m with
  | nil => rfl
  | cons p ps ih =>
    simp only [addTargetDepsLoop]
    split
    · exact ih
    · rw [ih, assign_keys]

/-- The loop invents nothing: use dependencies come from some file of the original list,
build dependencies stay where they are. -/
theorem addLoop_deps {m₀ : SrcList P} {ps : List P} {m : SrcList P}
    (hm : ∀ p info, (p, info) ∈ m → (∀ d ∈ info.useDeps, ∃ y ∈ m₀, d ∈ y.2.useDeps) ∧
      ∃ i0, (p, i0) ∈ m₀ ∧ i0.buildDeps = info.buildDeps ∧ i0.targets = info.targets ∧
        i0.policy = info.policy) :
    ∀ p info, (p, info) ∈ addTargetDepsLoop ps m →
      (∀ d ∈ info.useDeps, ∃ y ∈ m₀, d ∈ y.2.useDeps) ∧
      ∃ i0, (p, i0) ∈ m₀ ∧ i0.buildDeps = info.buildDeps ∧ i0.targets = info.targets ∧
        i0.policy = info.policy := by
  induction ps generalizing m with
  | nil => exact hm
  | cons q ps ih =>
    simp only [addTargetDepsLoop]
    split
    · exact ih hm
    · rename_i i hi
      apply ih
      intro p info hp
      rcases mem_assign hp with h | h
      · exact hm p info h
      · simp only [Prod.mk.injEq] at h
        obtain ⟨rfl, rfl⟩ := h
        obtain ⟨h1, i0, h2, h3⟩ := hm _ _ (Map.lookup_mem hi)
        unfold addTargetDeps
        split
        · refine ⟨?_, i0, h2, h3⟩
          intro d hd
          simp only [List.mem_append, List.mem_flatMap] at hd
          rcases hd with hd | ⟨t, _, hd⟩
          · exact h1 d hd
          · split at hd
            · cases hd
            · rename_i i' hi'
              exact (hm _ _ (Map.lookup_mem hi')).1 d hd
        · exact ⟨h1, i0, h2, h3⟩

theorem sorted_of_keys {V W : Type} {m : List (P × V)} {m' : List (P × W)}
    (h : m'.map Prod.fst = m.map Prod.fst) (hs : Map.Sorted m) : Map.Sorted m' := by
  induction m generalizing m' with
  | nil => cases m' with
    | nil => trivial
    | cons a m' => simp at h
  | cons a m ih =>
    cases m' with
    | nil => simp at h
    | cons b m' =>
      simp only [List.map_cons, List.cons.injEq] at h
      refine ⟨?_, ih h.2 hs.2⟩
      intro x hx
      have : x.1 ∈ m.map Prod.fst := by rw [← h.2]; exact List.mem_map.mpr ⟨x, hx, rfl⟩
      obtain ⟨y, hy, e⟩ := List.mem_map.mp this
      rw [← e, h.1]; exact hs.1 y hy

theorem hasFile_iff_keys {m : SrcList P} {p : P} : HasFile m p ↔ p ∈ m.map Prod.fst := by
  constructor
  · rintro ⟨i, hi⟩; exact List.mem_map.mpr ⟨_, hi, rfl⟩
  · intro h; obtain ⟨x, hx, rfl⟩ := List.mem_map.mp h; exact ⟨x.2, hx⟩

theorem lookup_append {V : Type} (q : P) (a b : List (P × V)) :
    Map.lookup q (a ++ b) = (Map.lookup q a).or (Map.lookup q b) := by
  induction a with
  | nil => rfl
  | cons x a ih =>
    obtain ⟨k, v⟩ := x
    simp only [List.cons_append, Map.lookup]
    split <;> simp [ih]

theorem lookup_map {V : Type} (q : P) (f : V → V) (a : List (P × V)) :
    Map.lookup q (a.map fun x => (x.1, f x.2)) = (Map.lookup q a).map f := by
  induction a with
  | nil => rfl
  | cons x a ih =>
    obtain ⟨k, v⟩ := x
    simp only [List.map_cons, Map.lookup]
    split <;> simp [ih]

/-- All files are updated as if none of the others was. -/
theorem addTargetDeps_map (m : SrcList P) (hs : Map.Sorted m)
    (hleaf : ∀ x ∈ m, x.2.useTargetDeps = true → ∀ t ∈ x.2.targets, ∀ i, (t.name, i) ∈ m → i.useTargetDeps = false) :
    addTargetDepsToSourceFiles m = m.map fun x => (x.1, addTargetDeps m x.2) := by
  have key : ∀ (rest done : SrcList P), done ++ rest = m →
      addTargetDepsLoop (rest.map Prod.fst) ((done.map fun x => (x.1, addTargetDeps m x.2)) ++ rest) =
        m.map fun x => (x.1, addTargetDeps m x.2) := by
    intro rest
    induction rest with
    | nil => intro done h; simp at h; subst h; simp [addTargetDepsLoop]
    | cons a rest ih =>
      intro done h
      obtain ⟨p, i⟩ := a
      have hpi : (p, i) ∈ m := by rw [← h]; simp
      have hdone : ∀ x ∈ done, x.1 ≠ p := by
        intro x hx e
        obtain ⟨k, hk⟩ := List.getElem?_of_mem hx
        have hkl : k < done.length := (List.getElem?_eq_some_iff.mp hk).1
        have h1 : m[k]? = some x := by rw [← h, List.getElem?_append_left hkl]; exact hk
        have h2 : m[done.length]? = some (p, i) := by rw [← h]; simp
        have := hs.get_lt h1 h2 hkl
        exact Map.lt_ne this e
      have hlk : Map.lookup p ((done.map fun x => (x.1, addTargetDeps m x.2)) ++ (p, i) :: rest) = some i := by
        rw [lookup_append, Map.lookup_none.mpr]
        · simp [Map.lookup]
        · intro x hx
          obtain ⟨y, hy, rfl⟩ := List.mem_map.mp hx
          exact hdone y hy
      have hassign : ∀ (v : SrcInfo P) (l : SrcList P), (∀ x ∈ l, x.1 ≠ p) →
          assign p v (l ++ (p, i) :: rest) = l ++ (p, v) :: rest := by
        intro v l hl
        induction l with
        | nil => simp [assign]
        | cons b l ihl =>
          obtain ⟨q, j⟩ := b
          have hq : q ≠ p := hl (q, j) (by simp)
          simp only [List.cons_append, assign, hq, if_false]
          rw [ihl (fun x hx => hl x (by simp [hx]))]
      have hadd : addTargetDeps ((done.map fun x => (x.1, addTargetDeps m x.2)) ++ (p, i) :: rest) i =
          addTargetDeps m i := by
        unfold addTargetDeps
        split
        · rename_i hu
          congr 2
          have hl : ∀ t ∈ i.targets, Map.lookup t.name ((done.map fun x => (x.1, addTargetDeps m x.2)) ++ (p, i) :: rest) =
              Map.lookup t.name m := by
            intro t ht
            rw [lookup_append, lookup_map t.name (addTargetDeps m), ← h, lookup_append]
            cases hq : Map.lookup t.name done with
            | none => rfl
            | some j =>
              have : j.useTargetDeps = false := hleaf _ hpi hu t ht j (by
                rw [← h]; exact List.mem_append_left _ (Map.lookup_mem hq))
              simp [addTargetDeps, this]
          have : ∀ (ts : List (TargetInfo P)), (∀ t ∈ ts, t ∈ i.targets) →
              (ts.flatMap fun t => match Map.lookup t.name ((done.map fun x => (x.1, addTargetDeps m x.2)) ++ (p, i) :: rest) with
                | none => ([] : List (Dep P))
                | some i => i.useDeps) =
              ts.flatMap fun t => match Map.lookup t.name m with
                | none => []
                | some i => i.useDeps := by
            intro ts hts
            induction ts with
            | nil => rfl
            | cons t ts iht =>
              simp only [List.flatMap_cons]
              rw [hl t (hts t (by simp)), iht (fun t ht => hts t (by simp [ht]))]
          exact this i.targets (fun t ht => ht)
        · rfl
      simp only [List.map_cons, addTargetDepsLoop]
      rw [hlk]
      simp only
      rw [hadd, hassign _ _ (by
        intro x hx
        obtain ⟨y, hy, rfl⟩ := List.mem_map.mp hx
        exact hdone y hy)]
      have := ih (done ++ [(p, i)]) (by simp [← h])
      simpa using this
  have := key m [] rfl
  simpa [addTargetDepsToSourceFiles] using this

/-- **C09.** A file that uses the dependencies of its targets gets those of each of them, in addition to its
own; other files stay as they are. The names of the targets are
those of files that do not do the same (generated files never do). -/
theorem C09_use_target_deps (m : SrcList P) (hs : Map.Sorted m)
    (hleaf : ∀ x ∈ m, x.2.useTargetDeps = true → ∀ t ∈ x.2.targets, ∀ i, (t.name, i) ∈ m →
      i.useTargetDeps = false) :
    (addTargetDepsToSourceFiles m).map Prod.fst = m.map Prod.fst ∧
    ∀ p info, (p, info) ∈ m → ∃ info', (p, info') ∈ addTargetDepsToSourceFiles m ∧
      (info.useTargetDeps = false → info' = info) ∧
      info'.buildDeps = info.buildDeps ∧ info'.targets = info.targets ∧
      info'.origin = info.origin ∧ info'.policy = info.policy ∧
      (info.useTargetDeps = true → ∀ d, d ∈ info'.useDeps ↔ d ∈ info.useDeps ∨
        ∃ t ∈ info.targets, ∃ i, (t.name, i) ∈ m ∧ d ∈ i.useDeps) := by
  have hfin := addTargetDeps_map m hs hleaf
  refine ⟨by rw [hfin]; simp [List.map_map, Function.comp_def], ?_⟩
  intro p info hp
  refine ⟨addTargetDeps m info, by rw [hfin]; exact List.mem_map.mpr ⟨_, hp, rfl⟩, ?_⟩
  unfold addTargetDeps
  cases hu : info.useTargetDeps with
  | false => simp
  | true =>
    simp only [if_true]
    refine ⟨fun h => by simp at h, trivial, trivial, trivial, trivial, fun _ d => ?_⟩
    simp only [List.mem_append, List.mem_flatMap]
    apply or_congr Iff.rfl
    constructor
    · rintro ⟨t, ht, hd⟩
      split at hd
      · cases hd
      · rename_i i hi
        exact ⟨t, ht, i, Map.lookup_mem hi, hd⟩
    · rintro ⟨t, ht, i, hi, hd⟩
      refine ⟨t, ht, ?_⟩
      rw [Map.lookup_of_mem hs hi]
      exact hd

/-! ## The loader as a whole -/

/-- The dependencies that the loaders have found for a file: its own, those of its targets, and those
for what is made from files that use it. -/
def SrcInfo.foundDeps (info : SrcInfo P) : List (Dep P) :=
  info.useDeps ++ (info.targets.flatMap fun t => t.useDeps) ++ info.childTargetsUseDeps

/-- The pieces of a load. -/
theorem load_cases (files : SrcList P) (hs : Map.Sorted files)
    {targets : TargetList P} {files1 : SrcList P} (hc : collectTargets files [] = .ok targets)
    (h1 : makeSourceFileInfos targets files = .ok files1) :
    let files3 := addTargetDepsToSourceFiles (Map.mergeNew files1 (createPlaceholders files1 []))
    Map.Sorted files3 ∧ Map.Sorted files1 ∧
    (∀ p, HasFile files3 p ↔ HasFile (Map.mergeNew files1 (createPlaceholders files1 [])) p) := by
  intro files3
  obtain ⟨g, _, s1, _⟩ := C09_generated_entries files hs (C08_one_owner files |>.2 _ hc |>.1) h1
  have s2 := (placeholders_merged files1 s1).1
  have hk : files3.map Prod.fst = _ := addLoop_keys
  exact ⟨sorted_of_keys hk s2, s1, fun p => by rw [hasFile_iff_keys, hasFile_iff_keys, hk]⟩

/-- **C10.** If loading fails because of a dependency that cannot be resolved, then it is a dependency
within the project: one that is not external, and that names neither a loaded
file nor a target. -/
theorem C10_load_unresolved (files : SrcList P) (hs : Map.Sorted files) (hu : Unresolved files)
    (hb : ∀ x ∈ files, x.2.buildDeps = []) {requiredBy name : P}
    (h : load files = .error (.unresolved requiredBy name)) :
    (∃ x ∈ files, ∃ d ∈ x.2.foundDeps, d.name = name ∧ isExternal d.origin = false) ∧
    ¬ HasFile files name ∧ name ∉ (declared files).map Prod.fst := by
  unfold load at h
  split at h
  · cases h
  · rename_i targets hc
    split at h
    · rename_i e he
      simp at h; subst h
      -- the first graph ignores errors
      exfalso
      unfold makeSourceFileInfos at he
      rw [makeGraph_ignore] at he
      have : ∀ (ts : TargetList P) (m : SrcList P),
          makeSourceFileInfosLoop (linked files) ts m ≠ .error (.unresolved requiredBy name) := by
        intro ts
        induction ts with
        | nil => intro m; simp [makeSourceFileInfosLoop]
        | cons t ts ih =>
          intro m; obtain ⟨n, t⟩ := t
          simp only [makeSourceFileInfosLoop]
          split
          · rename_i e' he'
            unfold makeSourceFileInfo at he'
            split at he'
            · simp at he'; rw [← he']; simp
            · split at he'
              · cases he'
              · simp at he'; rw [← he']; simp
              · simp at he'; rw [← he']; simp
          · exact ih _
      exact this targets files he
    · rename_i files1 h1
      obtain ⟨s3, s1, hk⟩ := load_cases files hs hc h1
      obtain ⟨g, hg, _, hmem1⟩ := C09_generated_entries files hs (C08_one_owner files |>.2 _ hc |>.1) h1
      obtain ⟨s2, hkeep, hnew, hcov⟩ := placeholders_merged files1 s1
      dsimp only at h
      split at h
      · rename_i e he
        simp only [Except.error.injEq, LoadError.unresolved.injEq] at h
        obtain ⟨info, hin, ⟨d, hd, hdn⟩, hno⟩ := C06_error_is_true _ s3 (requiredBy := e.1) (name := e.2) he
        rw [h.2] at hdn hno
        rw [hk] at hno
        have hfile : ∀ p, HasFile files p → HasFile (Map.mergeNew files1 (createPlaceholders files1 [])) p := by
          rintro p ⟨i, hi⟩
          exact ⟨i, hkeep _ ((hmem1 _).mpr (.inl hi))⟩
        obtain ⟨huse, i0, hi0, hbuild, _⟩ := addLoop_deps (m₀ := Map.mergeNew files1 (createPlaceholders files1 []))
          (m := Map.mergeNew files1 (createPlaceholders files1 []))
          (fun p info hp => ⟨fun d hd => ⟨_, hp, hd⟩, info, hp, rfl, rfl, rfl⟩) e.1 info hin
        simp only [SrcInfo.deps, List.mem_append] at hd
        have hsrc : ∀ t ∈ targets, HasFile files t.2.sourceFilename := by
          intro t ht
          obtain ⟨i, hi, _⟩ := ((C08_one_owner files).2 _ hc).2 t.1 t.2 |>.mp ht
          exact ⟨i, hi⟩
        have hnf : ¬ HasFile files name := fun hf => hno (hfile _ hf)
        have hnt : name ∉ (declared files).map Prod.fst := by
          intro hm
          obtain ⟨⟨n', t⟩, ht, rfl⟩ := List.mem_map.mp hm
          have ht' : (n', t) ∈ targets := by
            obtain ⟨_, _, _, hmm⟩ := collectTargets_ok (by trivial) hc
            exact (hmm _).mpr (.inr ht)
          simp only at hno hnf
          -- an entry has been made for it
          have hentry : HasFile files1 n' := by
            by_cases hq : HasFile files n'
            · exact absurd hq hnf
            · have hall : ∀ (ts : TargetList P) (m m' : SrcList P),
                  makeSourceFileInfosLoop g ts m = .ok m' → ∀ a ∈ ts, ∃ i, makeSourceFileInfo g a.1 a.2 = .ok i := by
                intro ts
                induction ts with
                | nil => intro m m' _ a ha; cases ha
                | cons b ts ih =>
                  intro m m' hm a ha
                  obtain ⟨bn, bt⟩ := b
                  simp only [makeSourceFileInfosLoop] at hm
                  split at hm
                  · cases hm
                  · rename_i i hi
                    rcases List.mem_cons.mp ha with rfl | ha
                    · exact ⟨i, hi⟩
                    · exact ih _ _ hm a ha
              have h1' := h1
              unfold makeSourceFileInfos at h1'
              rw [hg] at h1'
              obtain ⟨i, hi⟩ := hall _ _ _ h1' _ ht'
              exact ⟨i, (hmem1 _).mpr (.inr ⟨t, i, ht', hi, rfl, hq⟩)⟩
          obtain ⟨i, hi⟩ := hentry
          exact hno ⟨i, hkeep _ hi⟩
        refine ⟨?_, hnf, hnt⟩
        rcases hd with hd | hd
        · obtain ⟨⟨p, pinfo⟩, hp, hdp⟩ := huse d hd
          simp only at hdp
          have hp1 : (p, pinfo) ∈ files1 := by
            rcases hnew p pinfo hp with hp | ⟨_, _, _, d', _, _, _, rfl⟩
            · exact hp
            · cases hdp
          have hext : isExternal d.origin = false := by
            cases hx : isExternal d.origin
            · rfl
            · exfalso
              apply hno
              rw [← hdn]
              exact hcov (p, pinfo) hp1 d (by simp [extDeps, hdp]) hx
          rcases (hmem1 (p, pinfo)).mp hp1 with hp0 | ⟨t, i, ht, hi, hpi, _⟩
          · exact ⟨_, hp0, d, by simp [SrcInfo.foundDeps, hdp], hdn, hext⟩
          · simp only at hpi hi ht; subst hpi
            obtain ⟨_, _, _, _, root, _, hdeps⟩ := C09_generated_entry files hs hu hg hi
            rcases (hdeps d).mp hdp with hd' | ⟨u, q, uinfo, _, hu', hd', _⟩
            · obtain ⟨i', hi', hti', _⟩ := ((C08_one_owner files).2 _ hc).2 p t |>.mp ht
              refine ⟨_, hi', d, ?_, hdn, hext⟩
              simp only [SrcInfo.foundDeps, List.mem_append, List.mem_flatMap]
              exact .inl (.inr ⟨_, hti', hd'⟩)
            · obtain ⟨rfl, _⟩ := makeGraph_ok hg
              rw [linked_get] at hu'
              cases hf : files[u]? with
              | none => rw [hf] at hu'; cases hu'
              | some y =>
                rw [hf] at hu'
                simp only [Option.map_some, Option.some.injEq, Prod.mk.injEq] at hu'
                obtain ⟨_, rfl⟩ := hu'
                refine ⟨y, List.mem_of_getElem? hf, d, ?_, hdn, hext⟩
                simp only [SrcInfo.foundDeps, List.mem_append]
                exact .inr hd'
        · exfalso
          rw [← hbuild] at hd
          rcases hnew _ _ hi0 with hp | ⟨_, _, _, d', _, _, _, rfl⟩
          · rcases (hmem1 _).mp hp with hp0 | ⟨t, i, ht, hi, hpi, _⟩
            · rw [hb _ hp0] at hd; cases hd
            · simp only at hpi hi ht; subst hpi
              obtain ⟨_, _, _, hbd, _⟩ := C09_generated_entry files hs hu hg hi
              rw [hbd] at hd
              simp only [List.mem_singleton] at hd
              subst hd
              simp only at hdn
              rw [← hdn] at hnf
              exact hnf (hsrc _ ht)
          · cases hd
      · cases h

end Maike.Db
