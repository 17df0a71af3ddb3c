import Verif.Tree.Names

/-!
# What the tags of a source file mean
-/

namespace Maike.Tree

open Fs Kvs Paths
open Maike.Db (Origin RebuildPolicy isExternal)

/-! ## Specification -/

/-- Two lists of the same length whose elements are related. -/
inductive Each {α β : Type} (R : α → β → Prop) : List α → List β → Prop
  | nil : Each R [] []
  | cons {a b l l'} : R a b → Each R l l' → Each R (a :: l) (b :: l')

/-- A reference in the tags. -/
structure DepTag where
  ref : String
  origin : Option Origin
  properties : List (String × String)

/-- The reference is written as an object with the member `ref`, the optional member `origin`, and properties. -/
def DepTag.In (v : Json) (t : DepTag) : Prop :=
  ∃ ms, v = .obj ms ∧ Kvs.lookup "ref" ms = some (.str t.ref) ∧
    Kvs.lookup "origin" ms = t.origin.map (fun o => .str (Text.originToString o)) ∧
    ms.filter (fun m => m.1 ≠ "ref" ∧ m.1 ≠ "origin") = t.properties.map fun p => (p.1, .str p.2)

/-- An optional array. -/
def Listed {α : Type} (k : String) (ms : Members) (R : Json → α → Prop) (l : List α) : Prop :=
  (Kvs.lookup k ms = none ∧ l = []) ∨ ∃ vs, Kvs.lookup k ms = some (.arr vs) ∧ Each R vs l

/-- An optional member. -/
def Maybe {α : Type} (k : String) (ms : Members) (R : Json → α → Prop) (x : Option α) : Prop :=
  (Kvs.lookup k ms = none ∧ x = none) ∨ ∃ v a, Kvs.lookup k ms = some v ∧ x = some a ∧ R v a

/-- A target in the tags. -/
structure TargetTag where
  name : String
  deps : List DepTag
  libs : List String

/-- The target is written as an object with the member `name` and the optional arrays `dependencies` and `pkgconfig_libs`. There may be
other members. -/
def TargetTag.In (v : Json) (t : TargetTag) : Prop :=
  ∃ ms, v = .obj ms ∧ Kvs.lookup "name" ms = some (.str t.name) ∧ Listed "dependencies" ms DepTag.In t.deps ∧
    Listed "pkgconfig_libs" ms (fun v s => v = .str s) t.libs

/-- The parts of the tags of a file that come from the file itself or from the recipe. -/
structure FileTags where
  target : Option TargetTag
  targets : List TargetTag
  deps : List DepTag
  extra : List DepTag

def FileTags.In (ms : Members) (t : FileTags) : Prop :=
  Maybe "target" ms TargetTag.In t.target ∧ Listed "targets" ms TargetTag.In t.targets ∧ Listed "dependencies" ms DepTag.In t.deps ∧
    Listed "dependencies_extra" ms DepTag.In t.extra

/-- A reference without origin gets the default. -/
def DepTag.meaning (c : Ctxt) (default : Origin) (t : DepTag) : TDep :=
  ⟨prependSearchPath c (parse t.ref.toList) (t.origin.getD default), t.origin.getD default, t.properties⟩

/-- The references of a target are to system files unless something else is said. -/
def TargetTag.meaning (c : Ctxt) (t : TargetTag) : TTarget :=
  ⟨makeTargetName c (parse t.name.toList),
    t.deps.map (DepTag.meaning c .system) ++ t.libs.map fun s => ⟨parse s.toList, .pkgConfig, []⟩⟩

def FileTags.allTargets (t : FileTags) : List TargetTag := t.target.toList ++ t.targets

/-! ## Lemmas -/

theorem traverse_iff {α β : Type} (f : α → Option β) (xs : List α) (ys : List β) :
    traverse f xs = some ys ↔ Each (fun x y => f x = some y) xs ys := by
  induction xs generalizing ys with
  | nil =>
    unfold traverse
    constructor
    · intro h
      injection h with h
      subst h
      exact .nil
    · intro h
      cases h
      rfl
  | cons x xs ih =>
    unfold traverse
    constructor
    · intro h
      simp only [Option.bind_eq_some_iff, Option.map_eq_some_iff] at h
      obtain ⟨b, h1, l, h2, rfl⟩ := h
      exact .cons h1 ((ih l).mp h2)
    · intro h
      cases h with
      | cons h1 h2 => simp [h1, (ih _).mpr h2]

theorem Each.meaning {α β γ : Type} (R : α → γ → Prop) (g : γ → β) (xs : List α) (ys : List β) :
    Each (fun x y => ∃ z, R x z ∧ y = g z) xs ys ↔ ∃ zs, Each R xs zs ∧ ys = zs.map g := by
  constructor
  · intro h
    induction h with
    | nil => exact ⟨[], .nil, rfl⟩
    | cons h _ ih =>
      obtain ⟨z, hz, e⟩ := h
      obtain ⟨zs, h2, e2⟩ := ih
      exact ⟨z :: zs, .cons hz h2, by simp [e, e2]⟩
  · rintro ⟨zs, h, rfl⟩
    induction h with
    | nil => exact .nil
    | cons h _ ih => exact .cons ⟨_, h, rfl⟩ ih

theorem Each.congr {α β : Type} {R S : α → β → Prop} (h : ∀ a b, R a b ↔ S a b) (xs : List α) (ys : List β) :
    Each R xs ys ↔ Each S xs ys := by
  constructor
  · intro e
    induction e with
    | nil => exact .nil
    | cons h1 _ ih => exact .cons ((h _ _).mp h1) ih
  · intro e
    induction e with
    | nil => exact .nil
    | cons h1 _ ih => exact .cons ((h _ _).mpr h1) ih

theorem getArray_iff {α γ : Type} (k : String) (f : Json → Option α) (R : Json → γ → Prop) (g : γ → α)
    (hf : ∀ v y, f v = some y ↔ ∃ z, R v z ∧ y = g z) (ms : Members) (ys : List α) :
    getArray k f ms = some ys ↔ ∃ zs, Listed k ms R zs ∧ ys = zs.map g := by
  unfold getArray getIf Listed
  cases hl : Kvs.lookup k ms with
  | none =>
    simp only [Option.bind_some, Option.some.injEq, true_and, reduceCtorEq, false_and, exists_false, or_false]
    constructor
    · rintro rfl; exact ⟨[], rfl, rfl⟩
    · rintro ⟨zs, rfl, rfl⟩; rfl
  | some v =>
    simp only [reduceCtorEq, false_and, false_or]
    cases v with
    | arr vs =>
      simp only [Json.asArr, Option.map_some, Option.bind_some]
      rw [traverse_iff, Each.congr hf, Each.meaning]
      constructor
      · rintro ⟨zs, h, rfl⟩; exact ⟨zs, ⟨vs, rfl, h⟩, rfl⟩
      · rintro ⟨zs, ⟨vs', e, h⟩, rfl⟩
        injection e with e
        injection e with e
        subst e
        exact ⟨zs, h, rfl⟩
    | _ => simp [Json.asArr]

theorem getProperties_iff (ms : Members) (ps : List (String × String)) :
    getProperties ms = some ps ↔ ms.filter (fun m => decide (m.1 ≠ "ref" ∧ m.1 ≠ "origin")) = ps.map fun p => (p.1, .str p.2) := by
  induction ms generalizing ps with
  | nil =>
    unfold getProperties
    cases ps <;> simp
  | cons m ms ih =>
    obtain ⟨k, v⟩ := m
    unfold getProperties
    by_cases hk : k ≠ "ref" ∧ k ≠ "origin"
    · rw [if_pos hk, List.filter_cons, if_pos (by simpa using hk)]
      simp only [Option.bind_eq_some_iff, Option.map_eq_some_iff, ih]
      constructor
      · rintro ⟨s, hs, l, hl, rfl⟩
        cases v <;> simp_all [Json.asString]
      · intro h
        cases ps with
        | nil => simp at h
        | cons p ps =>
          simp only [List.map_cons, List.cons.injEq, Prod.mk.injEq] at h
          obtain ⟨⟨h1, h2⟩, h3⟩ := h
          exact ⟨p.2, by rw [h2]; rfl, ps, h3, by rw [h1]⟩
    · rw [if_neg hk, List.filter_cons, if_neg (by simpa using hk)]
      exact ih ps

theorem originFromString_iff (s : String) (o : Origin) : Text.originFromString s = some o ↔ s = Text.originToString o := by
  unfold Text.originFromString
  constructor
  · intro h
    repeat' split at h
    all_goals first | (injection h with h; subst h; simp_all [Text.originToString]) | cases h
  · rintro rfl
    cases o <;> decide

/-! ## Theorems -/

/-- C63: A reference is accepted iff it is well-formed, and then its meaning is the one given by the specification. -/
theorem C63_dependency (c : Ctxt) (v : Json) (default : Origin) (d : TDep) :
    (v.asObj.bind fun ms => getDependency c ms default) = some d ↔ ∃ t, DepTag.In v t ∧ d = t.meaning c default := by
  unfold DepTag.In getDependency
  constructor
  · intro h
    simp only [Option.bind_eq_some_iff, Option.map_eq_some_iff] at h
    obtain ⟨ms, hv, ref, h1, o, h2, origin, h3, ps, h4, rfl⟩ := h
    have hv : v = .obj ms := by cases v <;> simp_all [Json.asObj]
    refine ⟨⟨ref, o.bind Text.originFromString, ps⟩, ⟨ms, hv, ?_, ?_, (getProperties_iff ms ps).mp h4⟩, ?_⟩
    · unfold getReq at h1
      simp only [Option.bind_eq_some_iff] at h1
      obtain ⟨w, hw, hs⟩ := h1
      rw [hw]
      cases w <;> simp_all [Json.asString]
    · unfold getIf at h2
      split at h2
      · rename_i hl
        injection h2 with h2
        subst h2
        rw [hl]
        rfl
      · rename_i w hl
        simp only [Option.map_eq_some_iff] at h2
        obtain ⟨s, hs, rfl⟩ := h2
        simp only at h3
        rw [hl]
        cases w <;> simp_all [Json.asString]
        rw [(originFromString_iff _ _).mp h3]
    · unfold DepTag.meaning
      cases o with
      | none => simp at h3; simp [h3]
      | some s => simp at h3; simp [h3]
  · rintro ⟨⟨ref, o, ps⟩, ⟨ms, rfl, h1, h2, h3⟩, rfl⟩
    have hp := (getProperties_iff ms ps).mpr h3
    have ho : getIf Json.asString "origin" ms = some (o.map Text.originToString) := by
      unfold getIf
      rw [h2]
      cases o <;> rfl
    have hr : getReq Json.asString "ref" ms = some ref := by
      unfold getReq
      rw [h1]
      rfl
    show (getReq Json.asString "ref" ms).bind _ = _
    rw [hr, Option.bind_some, ho, Option.bind_some, hp]
    cases o with
    | none => rfl
    | some o =>
      have := (originFromString_iff _ o).mpr rfl
      simp only [Option.map_some, this]
      rfl

/-- C63: A target is accepted iff it is well-formed, and then its meaning is the one given by the specification. -/
theorem C63_target (c : Ctxt) (v : Json) (x : TTarget) :
    (v.asObj.bind (getTarget c)) = some x ↔ ∃ t, TargetTag.In v t ∧ x = t.meaning c := by
  have hlib : ∀ (v : Json) (y : TDep), (v.asString.map fun s => (⟨parse s.toList, .pkgConfig, []⟩ : TDep)) = some y ↔
      ∃ s, v = .str s ∧ y = ⟨parse s.toList, .pkgConfig, []⟩ := by
    intro v y
    cases v <;> simp [Json.asString, eq_comm]
  unfold TargetTag.In getTarget
  constructor
  · intro h
    simp only [Option.bind_eq_some_iff, Option.map_eq_some_iff] at h
    obtain ⟨ms, hv, name, h1, deps, h2, libs, h3, rfl⟩ := h
    have hv : v = .obj ms := by cases v <;> simp_all [Json.asObj]
    obtain ⟨ds, g2, e2⟩ := (getArray_iff _ _ _ _ (fun v y => C63_dependency c v .system y) ms deps).mp h2
    obtain ⟨ls, g3, e3⟩ := (getArray_iff _ _ _ _ hlib ms libs).mp h3
    refine ⟨⟨name, ds, ls⟩, ⟨ms, hv, ?_, g2, g3⟩, by rw [e2, e3]; rfl⟩
    unfold getReq at h1
    simp only [Option.bind_eq_some_iff] at h1
    obtain ⟨w, hw, hs⟩ := h1
    rw [hw]
    cases w <;> simp_all [Json.asString]
  · rintro ⟨⟨name, ds, ls⟩, ⟨ms, rfl, h1, h2, h3⟩, rfl⟩
    have h2 := (getArray_iff _ _ _ _ (fun v y => C63_dependency c v .system y) ms _).mpr ⟨ds, h2, rfl⟩
    have h3 := (getArray_iff _ _ _ _ hlib ms _).mpr ⟨ls, h3, rfl⟩
    have hr : getReq Json.asString "name" ms = some name := by
      unfold getReq
      rw [h1]
      rfl
    show (getReq Json.asString "name" ms).bind _ = _
    rw [hr, Option.bind_some, h2, Option.bind_some, h3]
    rfl

theorem getTargets_iff (c : Ctxt) (ms : Members) (xs : List TTarget) :
    getTargets c ms = some xs ↔ ∃ one more, Maybe "target" ms TargetTag.In one ∧ Listed "targets" ms TargetTag.In more ∧
      xs = (one.toList ++ more).map (TargetTag.meaning c) := by
  have harr := fun ys => getArray_iff "targets" _ _ _ (fun v y => C63_target c v y) ms ys
  unfold getTargets Maybe getIf
  cases hl : Kvs.lookup "target" ms with
  | none =>
    simp only [Option.bind_some, Option.map_eq_some_iff, List.nil_append, harr]
    constructor
    · rintro ⟨_, ⟨zs, hz, rfl⟩, rfl⟩
      exact ⟨none, zs, .inl ⟨by trivial, rfl⟩, hz, rfl⟩
    · rintro ⟨one, zs, h1 | ⟨v, a, h1, _⟩, hz, rfl⟩
      · rw [h1.2]
        exact ⟨_, ⟨zs, hz, rfl⟩, rfl⟩
      · cases h1
  | some v =>
    have hv := C63_target c v
    simp only [Option.bind_eq_some_iff, Option.map_eq_some_iff, harr]
    constructor
    · rintro ⟨o, ⟨t, ht, rfl⟩, one, hone, _, ⟨zs, hz, rfl⟩, rfl⟩
      obtain ⟨x, hx, rfl⟩ := Option.map_eq_some_iff.mp hone
      obtain ⟨tag, h1, rfl⟩ := (hv x).mp (by rw [ht]; exact hx)
      exact ⟨some tag, zs, .inr ⟨v, tag, rfl, rfl, h1⟩, hz, rfl⟩
    · rintro ⟨one, zs, h1 | ⟨w, tag, hw, rfl, h1⟩, hz, rfl⟩
      · cases h1.1
      · injection hw with hw
        subst hw
        have := (hv _).mpr ⟨tag, h1, rfl⟩
        simp only [Option.bind_eq_some_iff] at this
        obtain ⟨t, ht, hx⟩ := this
        exact ⟨some t, ⟨t, ht, rfl⟩, [_], Option.map_eq_some_iff.mpr ⟨_, hx, rfl⟩, _, ⟨zs, hz, rfl⟩, rfl⟩

/-- C63: Tags are accepted iff they are well-formed, and then they mean what is written there: each target that is declared, each
reference in order, with generated files as default. -/
theorem C63_tags (c : Ctxt) (ms : Members) (targets : List TTarget) (deps extra : List TDep) :
    (getTargets c ms = some targets ∧ getUseDeps c ms = some deps ∧ getChildTargetUseDeps c ms = some extra) ↔
    ∃ t, FileTags.In ms t ∧ targets = t.allTargets.map (TargetTag.meaning c) ∧ deps = t.deps.map (DepTag.meaning c .generated) ∧
      extra = t.extra.map (DepTag.meaning c .generated) := by
  unfold getUseDeps getChildTargetUseDeps
  rw [getTargets_iff, getArray_iff _ _ _ _ (fun v y => C63_dependency c v .generated y),
    getArray_iff _ _ _ _ (fun v y => C63_dependency c v .generated y)]
  constructor
  · rintro ⟨⟨one, more, h1, h2, rfl⟩, ⟨ds, h3, rfl⟩, es, h4, rfl⟩
    exact ⟨⟨one, more, ds, es⟩, ⟨h1, h2, h3, h4⟩, rfl, rfl, rfl⟩
  · rintro ⟨t, ⟨h1, h2, h3, h4⟩, rfl, rfl, rfl⟩
    exact ⟨⟨_, _, h1, h2, rfl⟩, ⟨_, h3, rfl⟩, _, h4, rfl⟩

/-- The compiler that is specified in the tags, after its recipe has been located. -/
def OwnCompiler (r : Resolver) (ms : Members) (own : Option Compiler) : Prop :=
  Maybe "compiler" ms (fun v k => ∃ k', Compiler.fromJson v = some k' ∧ k'.resolve r = some k) own

/-- The tags that the recipe reports, if it is asked for them. -/
def ScriptTags (getTags : Compiler → Option Members) (k : Compiler) (t : FileTags) : Prop :=
  if k.useGetTags then ∃ ms, getTags k = some ms ∧ FileTags.In ms t else t = ⟨none, [], [], []⟩

theorem own_iff (r : Resolver) (ms : Members) (own : Option Compiler) :
    ((getIf Compiler.fromJson "compiler" ms).bind fun o =>
      match o with | some o => (o.resolve r).map some | none => some none) = some own ↔ OwnCompiler r ms own := by
  unfold getIf OwnCompiler Maybe
  cases hl : Kvs.lookup "compiler" ms with
  | none =>
    simp only [Option.bind_some, Option.some.injEq, true_and, reduceCtorEq, false_and, exists_false, or_false]
    exact eq_comm
  | some v =>
    simp only [Option.bind_eq_some_iff, Option.map_eq_some_iff, reduceCtorEq, false_and, false_or, Option.some.injEq]
    constructor
    · rintro ⟨o, ⟨k, hk, rfl⟩, h⟩
      obtain ⟨k', h1, h2⟩ := Option.map_eq_some_iff.mp h
      exact ⟨v, k', rfl, h2.symm, k, hk, h1⟩
    · rintro ⟨w, k, rfl, rfl, k', h1, h2⟩
      exact ⟨some k', ⟨k', h1, rfl⟩, Option.map_eq_some_iff.mpr ⟨k, h2, rfl⟩⟩

theorem script_iff (getTags : Compiler → Option Members) (c : Ctxt) (k : Compiler) (x : List TTarget × List TDep × List TDep) :
    (if k.useGetTags then
      (getTags k).bind fun tags' =>
      (getTargets c tags').bind fun targets' =>
      (getUseDeps c tags').bind fun useDeps' =>
      (getChildTargetUseDeps c tags').map fun extra' => (targets', useDeps', extra')
     else some ([], [], [])) = some x ↔
    ∃ t, ScriptTags getTags k t ∧ x.1 = t.allTargets.map (TargetTag.meaning c) ∧ x.2.1 = t.deps.map (DepTag.meaning c .generated) ∧
      x.2.2 = t.extra.map (DepTag.meaning c .generated) := by
  unfold ScriptTags
  split
  · simp only [Option.bind_eq_some_iff, Option.map_eq_some_iff]
    constructor
    · rintro ⟨ms, h1, a, h2, b, h3, d, h4, rfl⟩
      obtain ⟨t, ht, h⟩ := (C63_tags c ms a b d).mp ⟨h2, h3, h4⟩
      exact ⟨t, ⟨ms, h1, ht⟩, h⟩
    · rintro ⟨t, ⟨ms, h1, ht⟩, h⟩
      obtain ⟨h2, h3, h4⟩ := (C63_tags c ms x.1 x.2.1 x.2.2).mpr ⟨t, ht, h⟩
      exact ⟨ms, h1, x.1, h2, x.2.1, h3, x.2.2, h4, rfl⟩
  · constructor
    · intro h
      injection h with h
      subst h
      exact ⟨_, rfl, rfl, rfl, rfl⟩
    · rintro ⟨t, rfl, h1, h2, h3⟩
      obtain ⟨a, b, d⟩ := x
      simp_all [FileTags.allTargets]

theorem policyFromString_iff (s : String) (o : RebuildPolicy) :
    Text.rebuildPolicyFromString s = some o ↔ s = Text.rebuildPolicyToString o := by
  unfold Text.rebuildPolicyFromString
  constructor
  · intro h
    repeat' split at h
    all_goals first | (injection h with h; subst h; simp_all [Text.rebuildPolicyToString]) | cases h
  · rintro rfl
    cases o <;> decide

theorem policy_iff (ms : Members) (x : Option RebuildPolicy) :
    getIf (fun v => v.asString.bind Text.rebuildPolicyFromString) "rebuild" ms = some x ↔
      Kvs.lookup "rebuild" ms = x.map fun p => .str (Text.rebuildPolicyToString p) := by
  unfold getIf
  cases hl : Kvs.lookup "rebuild" ms with
  | none => cases x <;> simp
  | some v =>
    simp only [Option.map_eq_some_iff, Option.bind_eq_some_iff]
    constructor
    · rintro ⟨p, ⟨s, hs, hp⟩, rfl⟩
      rw [policyFromString_iff] at hp
      subst hp
      cases v <;> simp_all [Json.asString]
    · intro h
      cases x with
      | none => simp at h
      | some p =>
        simp only [Option.map_some, Option.some.injEq] at h
        subst h
        exact ⟨p, ⟨_, rfl, (policyFromString_iff _ _).mpr rfl⟩, rfl⟩

/-- C63: What is recorded about a source file. It is the meaning of its tags and the ones the recipe reports; the dependencies are, in
this order, the built-in ones, those found by the loader, those in the tags, those reported by the recipe, and the recipe itself. The
file is rejected in all other cases. -/
theorem C63_load (r : Resolver) (getTags : Compiler → Option Members) (c : Ctxt) (builtin : List TDep) (src : Source) (info : FileInfo) :
    loadSourceFile r getTags c builtin src = some info ↔
    ∃ (found : List TDep) (ms : Members) (t : FileTags) (own : Option Compiler) (script : FileTags) (policy : Option RebuildPolicy),
      src.found = some found ∧ src.tags = some ms ∧ FileTags.In ms t ∧ OwnCompiler r ms own ∧
      ScriptTags getTags (own.getD src.default) script ∧
      Kvs.lookup "rebuild" ms = policy.map (fun p => .str (Text.rebuildPolicyToString p)) ∧
      info =
        { targets := (t.allTargets ++ script.allTargets).map (TargetTag.meaning c)
          useDeps := builtin ++ found.map (fun d => { d with name := prependSearchPath c d.name d.origin }) ++
            (t.deps ++ script.deps).map (DepTag.meaning c .generated) ++
            (if (own.getD src.default).recipe ≠ "" then [recipeDependency (own.getD src.default)] else [])
          childTargetsUseDeps := (t.extra ++ script.extra).map (DepTag.meaning c .generated)
          default := some src.default
          compiler := own.getD {}
          policy := policy.getD .onlyIfOutOfDate
          useTargetDeps := src.useTargetDeps } := by
  unfold loadSourceFile
  constructor
  · intro h
    obtain ⟨found, h1, h⟩ := Option.bind_eq_some_iff.mp h
    obtain ⟨ms, h2, h⟩ := Option.bind_eq_some_iff.mp h
    obtain ⟨targets, h3, h⟩ := Option.bind_eq_some_iff.mp h
    obtain ⟨useDeps, h4, h⟩ := Option.bind_eq_some_iff.mp h
    obtain ⟨extra, h5, h⟩ := Option.bind_eq_some_iff.mp h
    rw [← Option.bind_assoc] at h
    obtain ⟨own, h6, h⟩ := Option.bind_eq_some_iff.mp h
    obtain ⟨s, h7, h⟩ := Option.bind_eq_some_iff.mp h
    obtain ⟨policy, h8, h⟩ := Option.map_eq_some_iff.mp h
    obtain ⟨t, ht, e1, e2, e3⟩ := (C63_tags c ms targets useDeps extra).mp ⟨h3, h4, h5⟩
    obtain ⟨script, hs, f1, f2, f3⟩ := (script_iff getTags c (own.getD src.default) s).mp h7
    refine ⟨found, ms, t, own, script, policy, h1, h2, ht, (own_iff r ms own).mp h6, hs, (policy_iff ms policy).mp h8, ?_⟩
    rw [← h, e1, e2, e3, f1, f2, f3]
    simp [prependDeps]
  · rintro ⟨found, ms, t, own, script, policy, h1, h2, ht, h6, hs, h8, rfl⟩
    obtain ⟨h3, h4, h5⟩ := (C63_tags c ms _ _ _).mpr ⟨t, ht, rfl, rfl, rfl⟩
    have h7 := (script_iff getTags c (own.getD src.default) (_, _, _)).mpr ⟨script, hs, rfl, rfl, rfl⟩
    rw [h1, Option.bind_some, h2, Option.bind_some, h3, Option.bind_some, h4, Option.bind_some, h5, Option.bind_some,
      ← Option.bind_assoc]
    refine Option.bind_eq_some_iff.mpr ⟨own, (own_iff r ms own).mpr h6, ?_⟩
    dsimp only
    rw [h7, Option.bind_some, (policy_iff ms policy).mpr h8]
    simp [prependDeps]

/-! ### Dependencies on directories -/

/-- C64: A directory other than the source directory, and a file for which there is a loader, depends on the directory that contains it,
by the name this directory has in the result of the scan. The exception is the recipe which creates directories. -/
theorem C64_directory (e : Env) (srcDir targetDir srcPath : Path) (sub : List Str) (entry : Str)
    (h : Found ⟨srcPath, srcDir, targetDir⟩ sub entry) (hr : srcPath ≠ parse e.dirCompiler.recipe.toList)
    (hl : e.isDirectory srcPath = true ∨ (Paths.matchLongestExtension srcPath.filename e.loader).isSome) (info : FileInfo)
    (hi : load e srcPath srcDir targetDir = some info) :
    info.useDeps.head? = some ⟨inside srcDir sub, .project, []⟩ := by
  have hne : srcDir ≠ srcPath := by
    intro e
    have h1 := (C46_fileDir _ _ _ h []).1
    have h2 := (C46_fileDir _ _ _ h []).2.1
    simp only at h1 h2
    rw [h2, ← e, foldl_names _ h.names] at h1
    have := congrArg List.length h1
    simp at this
    omega
  unfold load at hi
  dsimp only at hi
  have hc : srcDir ≠ srcPath ∧ srcPath ≠ parse e.dirCompiler.recipe.toList := ⟨hne, hr⟩
  rw [if_pos hc, h.fileDir] at hi
  split at hi
  · injection hi with hi
    rw [← hi]
    rfl
  · rename_i hd
    have hl := hl.resolve_left hd
    split at hi
    · rename_i hm
      rw [hm] at hl
      simp at hl
    · obtain ⟨found, ms, t, own, script, policy, _, _, _, _, _, _, rfl⟩ := (C63_load _ _ _ _ _ _).mp hi
      simp

/-- A file without a loader has no dependencies at all. -/
theorem C64_no_loader (e : Env) (srcDir targetDir srcPath : Path) (hd : e.isDirectory srcPath = false)
    (hl : Paths.matchLongestExtension srcPath.filename e.loader = none) : load e srcPath srcDir targetDir = some {} := by
  simp [load, hd, hl]

section Examples

/-- Tags like those of core/source_tree_loader/source_file_load_ctxt.hpp and .cpp put together. -/
def exampleTags : Members := [
  ("targets", .arr [.obj [("name", .str "fifo.o"), ("type", .str "object")],
    .obj [("name", .str "fifo"), ("dependencies", .arr [.obj [("ref", .str "./fifo.o"), ("origin", .str "generated"), ("rel", .str "impl")]]),
      ("pkgconfig_libs", .arr [.str "jansson"])]]),
  ("dependencies_extra", .arr [.obj [("ref", .str "./fifo.o"), ("rel", .str "implementation")]]),
  ("rebuild", .str "always")]

def exampleSource : Source := ⟨{ recipe := "/usr/bin/cxx.py" }, true, some [⟨parse "./fifo.hpp".toList, .project, []⟩], some exampleTags⟩

/-- What the theorems say about the example. -/
example : ((loadSourceFile { get := fun _ => none } (fun _ => none) exampleCtxt [⟨parse "../proj/lib/io".toList, .project, []⟩] exampleSource).map
      fun i => (i.targets, i.useDeps, i.childTargetsUseDeps, i.policy)) =
    some ([⟨parse "out/lib/io/fifo.o".toList, []⟩,
        ⟨parse "out/lib/io/fifo".toList, [⟨parse "out/lib/io/fifo.o".toList, .generated, [("rel", "impl")]⟩, ⟨parse "jansson".toList, .pkgConfig, []⟩]⟩],
      [⟨parse "../proj/lib/io".toList, .project, []⟩, ⟨parse "../proj/lib/io/fifo.hpp".toList, .project, []⟩,
        ⟨parse "/usr/bin/cxx.py".toList, .system, []⟩],
      [⟨parse "out/lib/io/fifo.o".toList, .generated, [("rel", "implementation")]⟩], .always) := by
  decide +kernel

/-- A reference without `ref`, or with an unknown origin, makes the load fail. -/
example : getUseDeps exampleCtxt [("dependencies", .arr [.obj [("origin", .str "project")]])] = none ∧
    getUseDeps exampleCtxt [("dependencies", .arr [.obj [("ref", .str "x"), ("origin", .str "proj")]])] = none ∧
    getUseDeps exampleCtxt [("dependencies", .arr [.str "x"])] = none ∧
    getUseDeps exampleCtxt [("dependencies", .arr [.obj [("ref", .str "x"), ("line", .int 3)]])] = none := by
  decide +kernel

def exampleEnv : Env where
  isDirectory p := p == parse "../proj/lib/io".toList
  dirCompiler := { recipe := "make_directory.py" }
  loader s := if s = ".cpp".toList then some fun _ => exampleSource else none
  resolver := { get := fun _ => none }
  getTags _ _ := none

/-- The hypotheses of `C64_directory` are met. -/
example : (load exampleEnv exampleCtxt.srcPath exampleCtxt.sourceDir exampleCtxt.targetDir).isSome = true ∧
    (Paths.matchLongestExtension exampleCtxt.srcPath.filename exampleEnv.loader).isSome = true := by
  decide +kernel

end Examples

end Maike.Tree
