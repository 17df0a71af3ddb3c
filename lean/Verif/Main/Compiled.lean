import Verif.Recipes.Compile
import Verif.Main.LinkedExamples

/-!
# What dependencies ask the compiler for (C83)

The way from what the files of a project declare to the arguments of the compiler, for recipes/cxx_compiler.py.
-/

namespace Maike.Main

open Fs Tree Paths
open Maike.Kvs (Json Members)
open Maike.Recipes (Pkg compileCommand flagsOf pkgCflags)

/-! ## Specification -/

/-- The dependency is declared to be included by the compiler in front of the source file. -/
def Included (x : TDep) : Prop := x.origin ≠ .pkgConfig ∧ ("rel", "include") ∈ x.properties

/-! ## Proof -/

theorem flagsOf_eq (pkg : Pkg) {x : TDep} (h : Tidy x) : flagsOf pkg (depValue x) =
    if x.origin = .pkgConfig then pkgCflags (pkg.cflags (text x.name)) else some (if hasProp x "rel" "include" then ["-include" ++ text x.name] else []) := by
  unfold flagsOf
  simp only [field_ref h, field_origin h, field_rel h, Option.bind_eq_bind, Option.bind_some, Kvs.Json.asString, Option.map_some]
  cases ho : x.origin <;> simp only [Text.originToString, Recipes.isText] <;> simp
  all_goals split <;> rfl

variable {j : Job} {kind : Path → Bool} {d : Disk} {now : Nat}

/-- **C83.** Each file that is required, directly or through other files, and that is declared to be included by the compiler, is included. So is what `pkg-config` prints
for each library that is required. -/
theorem C83_dependencies_partial (hp : Proper j kind d now) {files : List (Path × FileInfo)} {tree : Db.SourceTree Path} (hl : Loads j d files tree)
    (hap : Apart j d) (hok : (Db.taskListAll tree.graph).1 = .ok) {p : Path} {i : FileInfo} (hs : Scanned j d p i) (hi : i.targets ≠ [])
    (htidy : ∀ x, Declared j d p x → Tidy x) {u : Nat} (hu : tree.graph.PathOf u p.normal) (info : Json) (format : Text.LogFormat) {exe : String} {opts : Members}
    (hc : commandOf files tree info format u = some (exe, opts)) {env : Recipes.Env} {args : List String} (ha : compileCommand env opts = some args) {b : Path}
    (hb : Requires j d p.normal b) :
    ((∀ x, Declared j d p x → x.name = b → Included x) → "-include" ++ text b ∈ args) ∧
    ((∀ x, Declared j d p x → x.name = b → x.origin = .pkgConfig) → ∃ flags, pkgCflags (env.pkg.cflags (text b)) = some flags ∧ ∀ s ∈ flags, s ∈ args) := by
  obtain ⟨_, ds, h1, _, h3, _, h5⟩ := told hp hl hap hok hs hi htidy hu info format hc
  simp only [compileCommand, h1, Option.bind_eq_bind, Option.bind_some, Option.bind_eq_some_iff, Json.asArr] at ha
  obtain ⟨cfg, _, backend, _, srcDir, _, targetDir, _, src, _, fl, hfl, std, _, color, _, defs, _, acts, _, inputs, _, t, _, ha⟩ := ha
  obtain rfl := Option.some.inj ha
  simp only [Recipes.collectCflags, Option.bind_eq_bind, Option.bind_eq_some_iff, Option.some.injEq] at hfl
  obtain ⟨cflags, _, dirs, _, more, hmore, rfl⟩ := hfl
  have hsub : ∀ s ∈ more, s ∈ [backend] ++ Recipes.firstOnly (cflags ++ Recipes.formatIquote env srcDir targetDir
      ((if env.dirname src ≠ "" then [env.relpath (env.dirname src) srcDir] else []) ++ dirs) ++ more) := by
    intro s hs
    exact List.mem_append_right _ (((Recipes.firstOnly_facts _).1 s).mpr (List.mem_append_right _ hs))
  have hall : ∀ s ∈ more, s ∈ [backend] ++ Recipes.firstOnly (cflags ++ Recipes.formatIquote env srcDir targetDir
      ((if env.dirname src ≠ "" then [env.relpath (env.dirname src) srcDir] else []) ++ dirs) ++ more) ++ std ++ [color] ++ defs ++
      (if "link" ∈ acts then [] else ["-c"]) ++ [src] ++ inputs ++ ["-o", t] := by
    intro s hs
    simp only [List.append_assoc] at hsub ⊢
    have := hsub s hs
    grind
  obtain ⟨x, hx, rfl⟩ := List.mem_map.mp ((h3 b).mpr hb)
  obtain ⟨hd, ht⟩ := h5 x hx
  have hitem := flagsOf_eq env.pkg ht
  have hm : depValue x ∈ ds.map depValue := List.mem_map.mpr ⟨x, hx, rfl⟩
  refine ⟨fun h => hall _ ?_, fun h => ?_⟩
  · obtain ⟨ho, hr⟩ := h x hd rfl
    have hp : hasProp x "rel" "include" = true := by simpa [hasProp] using hr
    rw [if_neg ho, hp] at hitem
    exact (Recipes.mem_collect hmore).mpr ⟨depValue x, hm, _, hitem, by simp⟩
  · rw [if_pos (h x hd rfl)] at hitem
    have hsome : (flagsOf env.pkg (depValue x)).isSome := by
      cases hf : flagsOf env.pkg (depValue x) with
      | some _ => rfl
      | none =>
        exfalso
        obtain ⟨l₁, l₂, e⟩ := List.append_of_mem hm
        rw [e, Recipes.collect_append] at hmore
        obtain ⟨_, r₂, _, h2, _⟩ := hmore
        simp [Recipes.collect, hf] at h2
    obtain ⟨flags, hf⟩ := Option.isSome_iff_exists.mp hsome
    exact ⟨flags, hitem ▸ hf, fun s hs => hall s ((Recipes.mem_collect hmore).mpr ⟨depValue x, hm, _, hf, hs⟩)⟩

end Maike.Main
