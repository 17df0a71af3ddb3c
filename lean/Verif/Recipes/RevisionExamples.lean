import Verif.Recipes.Revision
import Verif.Recipes.Compile

/-!
# Examples for C84
-/

namespace Maike.Recipes.RevisionExample

open Maike.Kvs (Json Members)

/-- Three compilers. The first one is too old by default, and supports `c++17` if asked for; the others have experimental support for `c++20` only. -/
def probe : Probe := fun compiler std =>
  if compiler = "g++-5" then
    if std = none then some (some 199711) else if std = some "c++17" then some (some 201703) else some none
  else if compiler = "g++-9" then
    if std = some "c++20" then some (some 201709) else some (some 201402)
  else
    if std = some "c++20" then some (some 201907) else some (some 201703)

/-- The hypotheses of C84_selected_partial are met: an old compiler is used with a flag, and one that suits without. -/
example : selectCompiler probe (some "c++17") none ["g++-5", "g++-10"] [] = some ("g++-5", "c++17", 201703) := by
  simp [selectCompiler, selectCppRev, numericRev, defaultRev, probe]

example : selectCompiler probe (some "c++11") (some "c++14") ["g++-9"] [] = some ("g++-9", "", 0) := by
  simp [selectCompiler, selectCppRev, numericRev, defaultRev, probe]

/-- The hypotheses of C84_found_partial are met. -/
example : (selectCompiler probe (some "c++17") none ["g++-9", "g++-10"] []).isSome := by
  refine C84_found_partial (k := 201703) (by simp [numericRev]) ⟨by simp, by simp⟩ ?_ ⟨"g++-10", by simp, .inl ⟨⟨201703, by simp [defaultRev, probe], ?_, by simp⟩, by simp⟩⟩
  · intro c hc
    simp only [List.mem_cons, List.not_mem_nil, or_false] at hc
    rcases hc with rfl | rfl
    · simp only [defaultRev, probe]
      refine ⟨by simp, fun r => ?_⟩
      simp
      split <;> rfl
    · simp only [defaultRev, probe]
      refine ⟨by simp, fun r => ?_⟩
      simp
      split <;> rfl
  · rintro _ ⟨⟩
    exact ⟨201703, by simp [numericRev], by omega⟩

/-- **C84 is false**: if only an upper bound is given, no compiler is found, although each of them is fine. -/
theorem C84_false : ∃ (probe : Probe) (compilers : List String) (max : String), (∀ c ∈ compilers, SuitsByDefault probe none (some max) c) ∧ compilers ≠ [] ∧
    selectCompiler probe none (some max) compilers [] = none := by
  refine ⟨probe, ["g++-5", "g++-9"], "c++14", ?_, by simp, C84_max_only _ _ _⟩
  intro c hc
  simp only [List.mem_cons, List.not_mem_nil, or_false] at hc
  rcases hc with rfl | rfl
  · exact ⟨199711, by simp [defaultRev, probe], by simp, by rintro _ ⟨⟩; exact ⟨201402, by simp [numericRev], by omega⟩⟩
  · exact ⟨201402, by simp [defaultRev, probe], by simp, by rintro _ ⟨⟩; exact ⟨201402, by simp [numericRev], by omega⟩⟩

/-- Although a compiler with more complete support is available, the older one is taken. -/
theorem C84_oldest_false : ∃ (probe : Probe) (compilers : List String) (min c rev : String) (n : Int), selectCompiler probe (some min) none compilers [] = some (c, rev, n) ∧
    ¬ Supports probe c rev ∧ ∃ c' ∈ compilers, ∃ n', Experimental probe (some min) none c' rev n' ∧ n < n' := by
  have e : selectCompiler probe (some "c++20") none ["g++-9", "g++-10"] [] = firstCandidate [("g++-9", "c++20", 201709), ("g++-10", "c++20", 201907)] := by
    simp [selectCompiler, selectCppRev, numericRev, defaultRev, probe]
  have hs : (selectCompiler probe (some "c++20") none ["g++-9", "g++-10"] []).isSome := by
    refine C84_found_partial (k := 202002) (by simp [numericRev]) ⟨by simp, by simp⟩ ?_ ⟨"g++-9", by simp, .inr ?_⟩
    · intro c hc
      simp only [List.mem_cons, List.not_mem_nil, or_false] at hc
      rcases hc with rfl | rfl
      all_goals
        simp only [defaultRev, probe]
        refine ⟨by simp, fun r => ?_⟩
        simp
        split <;> rfl
    · rintro r (rfl | h)
      · exact ⟨201709, by simp [probe]⟩
      · cases h
  obtain ⟨x, hx⟩ := Option.isSome_iff_exists.mp hs
  obtain ⟨h1, h2⟩ := firstCandidate_spec (e ▸ hx)
  have hx' : x = ("g++-9", "c++20", 201709) := by
    have := h2 ("g++-9", "c++20", 201709) (by simp)
    simp only [List.mem_cons, List.not_mem_nil, or_false] at h1
    rcases h1 with rfl | rfl
    · rfl
    · simp only at this
      omega
  subst hx'
  refine ⟨probe, _, _, _, _, _, hx, ?_, "g++-10", by simp, 201907, ⟨by simp [selectCppRev, numericRev, defaultRev, probe], by simp [probe], 202002, by simp [numericRev], by omega⟩, by omega⟩
  rintro ⟨n, k, a1, a2, a3⟩
  simp only [probe, numericRev] at a1 a2
  simp at a1 a2
  omega

/-- The hypotheses of C84_used are met. -/
def cfg : Members := [("std_revision", .obj [("min", .str "c++17")]), ("cflags", .arr []), ("iquote", .arr []), ("always_use_default_compiler", .int 1)]

theorem configured : configure probe "g++-5" [] cfg =
    some [("std_revision", .obj [("min", .str "c++17"), ("selected", .str "c++17")]), ("cflags", .arr []), ("iquote", .arr []), ("always_use_default_compiler", .int 1),
      ("backend", .str "g++-5")] := by
  have h : selectCompiler probe (some "c++17") none ["g++-5"] [] = some ("g++-5", "c++17", 201703) := by
    simp [selectCompiler, selectCppRev, numericRev, defaultRev, probe]
  simp [configure, cfg, Kvs.lookup, textMember, field, Json.asString, alternatives, truth, h, numericRev, Json.asObj, Kvs.set]

def opts : Members := [("compiler_cfg", .obj [("std_revision", .obj [("min", .str "c++17"), ("selected", .str "c++17")]), ("cflags", .arr []), ("iquote", .arr []),
      ("always_use_default_compiler", .int 1), ("backend", .str "g++-5")]),
   ("source_file", .str "a.cpp"), ("targets", texts ["a.o"]), ("dependencies", .arr []), ("task_id", .int 1), ("log_format", .str "plain_text"),
   ("build_info", .obj [("start_time", .int 0), ("build_id", .str "0"), ("target_dir", .str "__t"), ("source_dir", .str ".")])]

example : ∃ args, compileCommand CompileExample.env opts = some args ∧ ∃ flags rest, args = flags ++ ["-std=" ++ "c++17"] ++ rest ∧ flags.head? = some "g++-5" := by
  have hsome : (compileCommand CompileExample.env opts).isSome = true := by rfl
  obtain ⟨args, h⟩ := Option.isSome_iff_exists.mp hsome
  refine ⟨args, h, ?_⟩
  obtain ⟨_, flags, std, rest, rfl, h1 | ⟨v, min, max, c, rev, n, h1, h2, h3, h4, h5, h6⟩⟩ := C84_used configured (by rintro _ ⟨⟩; rfl) (by rfl) h
  · exact absurd h1.1 (by simp [cfg, Kvs.lookup])
  · cases Option.some.inj (h1.symm.trans (rfl : Kvs.lookup "std_revision" cfg = some (.obj [("min", .str "c++17")])))
    have e : selectCompiler probe (some "c++17") none ["g++-5"] [] = some ("g++-5", "c++17", 201703) := by
      simp [selectCompiler, selectCppRev, numericRev, defaultRev, probe]
    cases Option.some.inj (h2.symm.trans (rfl : _ = some (some "c++17")))
    cases Option.some.inj (h3.symm.trans (rfl : _ = some none))
    have ea : alternatives "g++-5" (Option.any truth (Kvs.lookup "always_use_default_compiler" cfg)) [] = ["g++-5"] := by rfl
    rw [ea, e] at h4
    cases Option.some.inj h4
    exact ⟨flags, rest, by rw [h6]; rfl, h5⟩

end Maike.Recipes.RevisionExample
