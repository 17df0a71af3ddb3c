import Verif.Recipes.Link
import Verif.Main.Request

/-!
# What programs and libraries are made of (C81)

The way from what the files of a project declare to the commands that `recipes/cxx_linker.py`, `recipes/cxx_compiler.py` and `recipes/make_lib.py` execute.
-/

namespace Maike.Main

open Fs Tree Paths
open Maike.Kvs (Json Members)
open Maike.Recipes (Pkg Before linkInputs archiveCommand)

/-! ## Specification -/

/-- The dependency has been declared, for the file `p` or for something that `p` requires. -/
def Declared (j : Job) (d : Disk) (p : Path) (x : TDep) : Prop := ∃ b, (b = p.normal ∨ Requires j d p.normal b) ∧ DependsOn j d b x

/-- The dependency is declared to be an implementation that belongs to the project. -/
def Implementation (x : TDep) : Prop := (x.origin = .project ∨ x.origin = .generated) ∧ ("rel", "implementation") ∈ x.properties

/-- The dependency is declared to be a library of the system. -/
def SystemLibrary (x : TDep) : Prop := x.origin = .system ∧ ("rel", "external") ∈ x.properties

/-- Properties have different names, and do not replace the name or the origin of a dependency. Members of a JSON object have different names, and
`getProperties` leaves these two out. -/
def Tidy (x : TDep) : Prop := (x.properties.map Prod.fst).Nodup ∧ "ref" ∉ x.properties.map Prod.fst ∧ "origin" ∉ x.properties.map Prod.fst

/-- `b` is required by `p`, and everything that is declared about it says that it is an implementation. -/
def Part (j : Job) (d : Disk) (p b : Path) : Prop := Requires j d p.normal b ∧ ∀ x, Declared j d p x → x.name = b → Implementation x

/-- A word that `pkg-config` prints for a library. -/
def PkgWord (pkg : Pkg) (name s : String) : Prop :=
  ∃ out, (pkg.libs name = some out ∨ pkg.libdirs name = some out) ∧ s.toList ∈ Recipes.splitWords out.toList []

/-! ## Proof -/

theorem lookup_foldl_set (props : List (String × String)) (acc : Members) (k : String) (hn : (props.map Prod.fst).Nodup) :
    (∀ v, (k, v) ∈ props → Kvs.lookup k (props.foldl (fun acc p => Kvs.set p.1 (.str p.2) acc) acc) = some (.str v)) ∧
    (k ∉ props.map Prod.fst → Kvs.lookup k (props.foldl (fun acc p => Kvs.set p.1 (.str p.2) acc) acc) = Kvs.lookup k acc) := by
  induction props generalizing acc with
  | nil => simp
  | cons a l ih =>
    obtain ⟨ka, va⟩ := a
    simp only [List.map_cons, List.nodup_cons] at hn
    obtain ⟨h1, h2⟩ := ih (Kvs.set ka (.str va) acc) hn.2
    simp only [List.foldl_cons]
    refine ⟨fun v hv => ?_, fun hk => ?_⟩
    · rcases List.mem_cons.mp hv with e | hv
      · injection e with e1 e2
        subst e1 e2
        rw [h2 hn.1, Kvs.lookup_set]
        simp
      · exact h1 v hv
    · simp only [List.map_cons, List.mem_cons, not_or] at hk
      rw [h2 hk.2, Kvs.lookup_set]
      simp [Ne.symm hk.1]

theorem field_ref {x : TDep} (h : Tidy x) : Recipes.field (depValue x) "ref" = some (.str (text x.name)) := by
  simp only [depValue, Kvs.DepJson.toJson, Recipes.field]
  rw [(lookup_foldl_set _ _ _ h.1).2 h.2.1, Kvs.lookup_set, Kvs.lookup_set]
  simp

theorem field_origin {x : TDep} (h : Tidy x) : Recipes.field (depValue x) "origin" = some (.str (Text.originToString x.origin)) := by
  simp only [depValue, Kvs.DepJson.toJson, Recipes.field]
  rw [(lookup_foldl_set _ _ _ h.1).2 h.2.2, Kvs.lookup_set]
  simp

/-- Whether the property has the value. -/
def hasProp (x : TDep) (k v : String) : Bool := decide ((k, v) ∈ x.properties)

theorem field_rel {x : TDep} (h : Tidy x) (v : String) :
    ((Recipes.field (depValue x) "rel").any fun rel => Recipes.isText rel v) = hasProp x "rel" v := by
  simp only [depValue, Kvs.DepJson.toJson, Recipes.field, hasProp]
  by_cases hk : "rel" ∈ x.properties.map Prod.fst
  · obtain ⟨⟨k, w⟩, hm, e⟩ := List.mem_map.mp hk
    simp only at e
    subst e
    rw [(lookup_foldl_set _ _ _ h.1).1 w hm]
    simp only [Option.any_some, Recipes.isText, decide_eq_decide]
    constructor
    · rintro rfl; exact hm
    · intro hv
      have := (lookup_foldl_set x.properties [] "rel" h.1).1
      have e := (this w hm).symm.trans (this v hv)
      injection e with e
      injection e
  · rw [(lookup_foldl_set _ _ _ h.1).2 hk, Kvs.lookup_set, Kvs.lookup_set]
    have : ("rel", v) ∉ x.properties := fun hv => hk (List.mem_map.mpr ⟨_, hv, rfl⟩)
    simp [Kvs.lookup, this]

theorem field_rel_some {x : TDep} (h : Tidy x) (hr : (Recipes.field (depValue x) "rel").isSome = false) (v : String) : hasProp x "rel" v = false := by
  rw [← field_rel h v]
  cases hf : Recipes.field (depValue x) "rel" with
  | none => rfl
  | some y => rw [hf] at hr; cases hr

/-- What a dependency contributes to the command of a linker. -/
theorem collectItem_eq (pkg : Pkg) {x : TDep} (h : Tidy x) : Recipes.collectItem pkg (depValue x) =
    match x.origin with
    | .project | .generated => some (if hasProp x "rel" "implementation" then [text x.name] else [])
    | .system => some (if hasProp x "rel" "external" then ["-l" ++ text x.name] else [])
    | .pkgConfig =>
      match Recipes.reversedWords (pkg.libs (text x.name)), Recipes.reversedWords (pkg.libdirs (text x.name)) with
      | some a, some b => some (a ++ b)
      | _, _ => none := by
  have hs := field_rel_some h
  unfold Recipes.collectItem
  simp only [field_ref h, field_origin h, field_rel h, Option.bind_eq_bind, Option.bind_some, Kvs.Json.asString, Option.map_some]
  cases ho : x.origin <;> simp only [Text.originToString, Recipes.isText]
  all_goals cases hf : (Recipes.field (depValue x) "rel").isSome
  all_goals first | have := hs hf | skip
  all_goals simp [*]
  all_goals first
    | (split <;> rfl)
    | (cases Recipes.reversedWords (pkg.libs (text x.name)) <;> cases Recipes.reversedWords (pkg.libdirs (text x.name)) <;> rfl)

/-- What a dependency contributes to the command of an archiver. -/
theorem collectMember_eq {x : TDep} (h : Tidy x) : Recipes.collectMember (depValue x) =
    match x.origin with
    | .project | .generated => some (if hasProp x "rel" "implementation" then [text x.name] else [])
    | _ => some [] := by
  have hs := field_rel_some h
  unfold Recipes.collectMember
  simp only [field_ref h, field_origin h, field_rel h, Option.bind_eq_bind, Option.bind_some, Kvs.Json.asString, Option.map_some]
  cases ho : x.origin <;> simp only [Text.originToString, Recipes.isText]
  all_goals cases hf : (Recipes.field (depValue x) "rel").isSome
  all_goals first | have := hs hf | skip
  all_goals simp [*]
  all_goals split <;> rfl

theorem mem_reversedWords {o : Option String} {l : List String} (h : Recipes.reversedWords o = some l) {s : String} (hs : s ∈ l) :
    ∃ out, o = some out ∧ s.toList ∈ Recipes.splitWords out.toList [] := by
  unfold Recipes.reversedWords at h
  obtain ⟨out, rfl, rfl⟩ := Option.map_eq_some_iff.mp h
  obtain ⟨w, hw, rfl⟩ := List.mem_map.mp (List.mem_reverse.mp hs)
  exact ⟨out, rfl, by simpa using hw⟩

/-- An argument comes from a dependency. -/
theorem mem_collectItem {pkg : Pkg} {x : TDep} (h : Tidy x) {l : List String} (hl : Recipes.collectItem pkg (depValue x) = some l) {s : String} :
    s ∈ l → (Implementation x ∧ s = text x.name) ∨ (SystemLibrary x ∧ s = "-l" ++ text x.name) ∨ (x.origin = .pkgConfig ∧ PkgWord pkg (text x.name) s) := by
  rw [collectItem_eq pkg h] at hl
  intro hs
  cases ho : x.origin <;> rw [ho] at hl <;> simp only at hl
  case pkgConfig =>
    right; right
    refine ⟨rfl, ?_⟩
    split at hl
    · rename_i a b ha hb
      injection hl with hl
      subst hl
      rcases List.mem_append.mp hs with hs | hs
      · obtain ⟨out, h1, h2⟩ := mem_reversedWords ha hs
        exact ⟨out, .inl h1, h2⟩
      · obtain ⟨out, h1, h2⟩ := mem_reversedWords hb hs
        exact ⟨out, .inr h1, h2⟩
    · cases hl
  all_goals
    injection hl with hl
    subst hl
    split at hs
    · rename_i hp
      simp only [hasProp, decide_eq_true_eq] at hp
      simp only [List.mem_singleton] at hs
      first
        | exact .inl ⟨⟨.inl ho, hp⟩, hs⟩
        | exact .inl ⟨⟨.inr ho, hp⟩, hs⟩
        | exact .inr (.inl ⟨⟨ho, hp⟩, hs⟩)
    · cases hs

theorem collectItem_implementation (pkg : Pkg) {x : TDep} (h : Tidy x) (hi : Implementation x) :
    Recipes.collectItem pkg (depValue x) = some [text x.name] := by
  have hp : hasProp x "rel" "implementation" = true := by simpa [hasProp] using hi.2
  rw [collectItem_eq pkg h]
  rcases hi.1 with ho | ho <;> rw [ho] <;> simp [hp]

theorem mem_collectMember {x : TDep} (h : Tidy x) {l : List String} (hl : Recipes.collectMember (depValue x) = some l) {s : String} :
    s ∈ l → Implementation x ∧ s = text x.name := by
  rw [collectMember_eq h] at hl
  intro hs
  cases ho : x.origin <;> rw [ho] at hl <;> simp only [Option.some.injEq] at hl <;> subst hl
  case pkgConfig => cases hs
  case system => cases hs
  all_goals
    split at hs
    · rename_i hp
      simp only [hasProp, decide_eq_true_eq] at hp
      simp only [List.mem_singleton] at hs
      first
        | exact ⟨⟨.inl ho, hp⟩, hs⟩
        | exact ⟨⟨.inr ho, hp⟩, hs⟩
    · cases hs

theorem collectMember_implementation {x : TDep} (h : Tidy x) (hi : Implementation x) :
    Recipes.collectMember (depValue x) = some [text x.name] := by
  have hp : hasProp x "rel" "implementation" = true := by simpa [hasProp] using hi.2
  rw [collectMember_eq h]
  rcases hi.1 with ho | ho <;> rw [ho] <;> simp [hp]

/-- The order of what is collected. -/
theorem collect_order {f : Json → Option (List String)} {ds : List TDep} {items : List String} (hf : Recipes.collect f (ds.map depValue) = some items)
    {l₁ l₂ : List TDep} {a : TDep} (e : ds = l₁ ++ a :: l₂) {b : TDep} (hb : b ∈ l₁) {s t : String} (hs : ∃ l, f (depValue a) = some l ∧ s ∈ l)
    (ht : ∃ l, f (depValue b) = some l ∧ t ∈ l) (hno : ∀ y ∈ l₁, ∀ l, f (depValue y) = some l → s ∉ l) : Before (Recipes.filterDeps items) s t := by
  subst e
  rw [List.map_append, Recipes.collect_append] at hf
  obtain ⟨r₁, r₂, h1, h2, rfl⟩ := hf
  refine Recipes.filterDeps_order ?_ ?_ ?_
  · intro h
    obtain ⟨_, hm, l, hl, hsl⟩ := (Recipes.mem_collect h1).mp h
    obtain ⟨y, hy, rfl⟩ := List.mem_map.mp hm
    exact hno y hy l hl hsl
  · obtain ⟨l, hl, htl⟩ := ht
    exact (Recipes.mem_collect h1).mpr ⟨_, List.mem_map.mpr ⟨b, hb, rfl⟩, l, hl, htl⟩
  · obtain ⟨l, hl, hsl⟩ := hs
    exact (Recipes.mem_collect h2).mpr ⟨_, by simp, l, hl, hsl⟩

theorem text_toList (p : Path) : (text p).toList = p.str := by simp [text]

variable {j : Job} {kind : Path → Bool} {d : Disk} {now : Nat}

section
variable (hp : Proper j kind d now) {files : List (Path × FileInfo)} {tree : Db.SourceTree Path} (hl : Loads j d files tree)
  (hap : Apart j d) (hok : (Db.taskListAll tree.graph).1 = .ok) {p : Path} {i : FileInfo} (hs : Scanned j d p i) (hi : i.targets ≠ [])
  (htidy : ∀ x, Declared j d p x → Tidy x)
include hp hl hap hok hs hi htidy

/-- The dependencies that a recipe is told about, for the command of the file. -/
theorem told {u : Nat} (hu : tree.graph.PathOf u p.normal) (info : Json) (format : Text.LogFormat) {exe : String} {opts : Members}
    (hc : commandOf files tree info format u = some (exe, opts)) :
    Kvs.lookup "targets" opts = some (.arr (i.targets.map fun t => .str (text t.name))) ∧
    ∃ ds : List TDep, Kvs.lookup "dependencies" opts = some (.arr (ds.map depValue)) ∧ (ds.map TDep.name).Nodup ∧
      (∀ b, b ∈ ds.map TDep.name ↔ Requires j d p.normal b) ∧
      (∀ l₁ x l₂, ds = l₁ ++ x :: l₂ → ∀ b, Requires j d x.name b → b ∈ l₁.map TDep.name) ∧ ∀ x ∈ ds, Declared j d p x ∧ Tidy x := by
  obtain ⟨u', _, hu', q, _, _, _, _, h⟩ := C79_command hp hl hap hok hs hi info format
  have hL := loadable hp hl
  obtain ⟨files1, files3, hc', hm1, h3, hg, s3⟩ := Build.load_ok hL.sorted hl.2
  obtain rfl := Build.path_unique (Db.sorted_of_keys (Db.C06_resolved _ s3 hg).1 s3) hu hu'
  obtain ⟨_, ht, ds, h1, h2, h3, h4, h5, _⟩ := h exe opts hc
  exact ⟨ht, ds, h1, h2, h3, h4, fun x hx => ⟨h5 x hx, htidy x (h5 x hx)⟩⟩

/-- **C81.** A linker is told each argument once. It gets all parts of a program: everything that is required by the file from which it is made, directly
or through other files, and that is declared to be an implementation. What is declared in the middle of a chain of dependencies, e. g. by a header, is included.
It gets nothing but these, system libraries, and what `pkg-config` prints for a library. -/
theorem C81_linked_partial {u : Nat} (hu : tree.graph.PathOf u p.normal) (info : Json) (format : Text.LogFormat) {exe : String} {opts : Members}
    (hc : commandOf files tree info format u = some (exe, opts)) (pkg : Pkg)
    (hpkg : ∀ x, Declared j d p x → x.origin = .pkgConfig → (pkg.libs (text x.name)).isSome ∧ (pkg.libdirs (text x.name)).isSome) :
    ∃ args, linkInputs pkg opts = some args ∧ args.Nodup ∧ (∀ b, Part j d p b → text b ∈ args) ∧
      (∀ s ∈ args, ∃ x, Declared j d p x ∧
        (Implementation x ∧ s = text x.name ∨ SystemLibrary x ∧ s = "-l" ++ text x.name ∨ x.origin = .pkgConfig ∧ PkgWord pkg (text x.name) s)) := by
  obtain ⟨_, ds, h1, _, h3, _, h5⟩ := told hp hl hap hok hs hi htidy hu info format hc
  have hsome : (Recipes.collectDeps pkg (ds.map depValue)).isSome := by
    refine Recipes.collect_isSome fun item hitem => ?_
    obtain ⟨x, hx, rfl⟩ := List.mem_map.mp hitem
    obtain ⟨hd, ht⟩ := h5 x hx
    rw [collectItem_eq pkg ht]
    cases ho : x.origin
    case pkgConfig =>
      obtain ⟨a1, a2⟩ := hpkg x hd ho
      obtain ⟨b1, e1⟩ := Option.isSome_iff_exists.mp a1
      obtain ⟨b2, e2⟩ := Option.isSome_iff_exists.mp a2
      simp [Recipes.reversedWords, e1, e2]
    all_goals rfl
  obtain ⟨items, hit⟩ := Option.isSome_iff_exists.mp hsome
  refine ⟨Recipes.filterDeps items, by simp [linkInputs, h1, Json.asArr, hit], Recipes.filterDeps_nodup _, ?_, ?_⟩
  · intro b hb
    rw [Recipes.mem_filterDeps]
    obtain ⟨x, hx, rfl⟩ := List.mem_map.mp ((h3 b).mpr hb.1)
    obtain ⟨hd, ht⟩ := h5 x hx
    exact (Recipes.mem_collect hit).mpr ⟨_, List.mem_map.mpr ⟨x, hx, rfl⟩, _, collectItem_implementation pkg ht (hb.2 x hd rfl), by simp⟩
  · intro s hs'
    rw [Recipes.mem_filterDeps] at hs'
    obtain ⟨_, hm, l, hl', hsl⟩ := (Recipes.mem_collect hit).mp hs'
    obtain ⟨x, hx, rfl⟩ := List.mem_map.mp hm
    obtain ⟨hd, ht⟩ := h5 x hx
    exact ⟨x, hd, mem_collectItem ht hl' hsl⟩

/-- **C81.** Parts of a program come before whatever they require themselves, as it is needed by linkers that take from a library what is missing so far. Different files have
different names here, and the names of object files do not begin like options. -/
theorem C81_order_partial {u : Nat} (hu : tree.graph.PathOf u p.normal) (info : Json) (format : Text.LogFormat) {exe : String} {opts : Members}
    (hc : commandOf files tree info format u = some (exe, opts)) {pkg : Pkg} (hdash : ∀ name s, PkgWord pkg name s → s.toList.head? = some '-')
    (hinj : ∀ a b, Requires j d p.normal a → Requires j d p.normal b → text a = text b → a = b) {args : List String} (ha : linkInputs pkg opts = some args)
    {a b : Path} (hpa : Part j d p a) (hpb : Part j d p b) (hname : a.str.head? ≠ some '-') (hab : Requires j d a b) : Before args (text a) (text b) := by
  obtain ⟨_, ds, h1, h2, h3, h4, h5⟩ := told hp hl hap hok hs hi htidy hu info format hc
  simp only [linkInputs, h1, Json.asArr, Option.bind_eq_bind, Option.bind_some, Option.bind_eq_some_iff, Option.some.injEq] at ha
  obtain ⟨items, hit, rfl⟩ := ha
  obtain ⟨x, hx, rfl⟩ := List.mem_map.mp ((h3 a).mpr hpa.1)
  obtain ⟨l₁, l₂, e⟩ := List.append_of_mem hx
  obtain ⟨y, hy, rfl⟩ := List.mem_map.mp (h4 l₁ x l₂ e b hab)
  have hyd : y ∈ ds := by rw [e]; simp [hy]
  refine collect_order hit e hy ⟨_, collectItem_implementation pkg (h5 x hx).2 (hpa.2 x (h5 x hx).1 rfl), by simp⟩
    ⟨_, collectItem_implementation pkg (h5 y hyd).2 (hpb.2 y (h5 y hyd).1 rfl), by simp⟩ ?_
  intro z hz l hl' hmem
  have hzd : z ∈ ds := by rw [e]; simp [hz]
  rcases mem_collectItem (h5 z hzd).2 hl' hmem with ⟨_, e1⟩ | ⟨_, e1⟩ | ⟨_, h⟩
  · have e2 := hinj _ _ hpa.1 ((h3 z.name).mp (List.mem_map.mpr ⟨z, hzd, rfl⟩)) e1
    rw [e, List.map_append, List.nodup_append] at h2
    exact h2.2.2 z.name (List.mem_map.mpr ⟨z, hz, rfl⟩) x.name (by simp) e2.symm
  · refine hname ?_
    rw [← text_toList, e1]
    simp
  · refine hname ?_
    rw [← text_toList]
    exact hdash _ _ h

/-- **C81.** A static library is made of all of its parts, each of them once, and nothing else. -/
theorem C81_archive_partial {u : Nat} (hu : tree.graph.PathOf u p.normal) (info : Json) (format : Text.LogFormat) {exe : String} {opts : Members}
    (hc : commandOf files tree info format u = some (exe, opts)) (ar : String) :
    ∃ t members, i.targets.head? = some t ∧ archiveCommand ar opts = some (ar :: "rcs" :: text t.name :: members) ∧ members.Nodup ∧
      (∀ b, Part j d p b → text b ∈ members) ∧ ∀ s ∈ members, ∃ x, Declared j d p x ∧ Implementation x ∧ s = text x.name := by
  obtain ⟨htg, ds, h1, _, h3, _, h5⟩ := told hp hl hap hok hs hi htidy hu info format hc
  obtain ⟨t, ts, e⟩ := List.exists_cons_of_ne_nil hi
  have hsome : (Recipes.collectMembers (ds.map depValue)).isSome := by
    refine Recipes.collect_isSome fun item hitem => ?_
    obtain ⟨x, hx, rfl⟩ := List.mem_map.mp hitem
    rw [collectMember_eq (h5 x hx).2]
    cases x.origin <;> rfl
  obtain ⟨items, hit⟩ := Option.isSome_iff_exists.mp hsome
  refine ⟨t, Recipes.filterDeps items, by simp [e], ?_, Recipes.filterDeps_nodup _, ?_, ?_⟩
  · simp [archiveCommand, Recipes.firstTarget, htg, h1, Json.asArr, hit, e, Json.asString]
  · intro b hb
    rw [Recipes.mem_filterDeps]
    obtain ⟨x, hx, rfl⟩ := List.mem_map.mp ((h3 b).mpr hb.1)
    obtain ⟨hd, ht⟩ := h5 x hx
    exact (Recipes.mem_collect hit).mpr ⟨_, List.mem_map.mpr ⟨x, hx, rfl⟩, _, collectMember_implementation ht (hb.2 x hd rfl), by simp⟩
  · intro s hs'
    rw [Recipes.mem_filterDeps] at hs'
    obtain ⟨_, hm, l, hl', hsl⟩ := (Recipes.mem_collect hit).mp hs'
    obtain ⟨x, hx, rfl⟩ := List.mem_map.mp hm
    obtain ⟨hd, ht⟩ := h5 x hx
    exact ⟨x, hd, mem_collectMember ht hl' hsl⟩

end

end Maike.Main
