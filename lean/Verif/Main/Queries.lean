import Verif.Main.Program
import Verif.Cli.Help

/-!
# Queries with the name of a file (C93)

According to the help text, `--help`, `--version`, `--about`, `--print-dep-graph`, `--list-targets`, `--configdump` and three other options print to the standard output, or to a file that is named on
the command line. `main`, core/bin/maike.cpp:282-412, does not use this name.
-/

namespace Maike.Main

open Fs Tree Paths Kvs

/-! ## Specification -/

/-- The options that are documented with an optional path that output is written to. -/
def queryNames : List Str := ["--help", "--version", "--about", "--print-dep-graph", "--print-dep-graph-inv", "--dump-database", "--list-targets", "--list-external-deps",
  "--configdump"].map String.toList

/-- These are the options with an optional path in the help text. -/
example : (Cli.maikeInfo.filter fun i => i.1.type = some "Path".toList ∧ i.1.valueRequired = false).map (fun i => i.1.name) = queryNames := by decide +kernel

/-! ## Lemmas -/

/-- Nothing is different, except for the value of option `k`. -/
structure SameBut (k : Nat) (c c' : Cli.Collected Cli.Value) : Prop where
  isSet : ∀ i, c.isSet i = c'.isSet i
  value : ∀ i, i ≠ k → c.value i = c'.value i

theorem sameBut_one {k : Nat} {c c' : Cli.Collected Cli.Value} (h : SameBut k c c') (l : List (Cli.Opt Cli.Value)) (str : Str) :
    (Cli.collectOne l c str = none ∧ Cli.collectOne l c' str = none) ∨
      ∃ a a', Cli.collectOne l c str = some a ∧ Cli.collectOne l c' str = some a' ∧ SameBut k a a' := by
  unfold Cli.collectOne
  split
  · exact .inr ⟨c, c', rfl, rfl, h⟩
  · cases Cli.binaryFind l str (Cli.argName str).length with
    | none => exact .inl ⟨rfl, rfl⟩
    | some o =>
      simp only [Cli.setOption]
      split
      · exact .inl ⟨rfl, rfl⟩
      · cases o.convert (Cli.argValue str) with
        | none => exact .inl ⟨rfl, rfl⟩
        | some v =>
          refine .inr ⟨_, _, rfl, rfl, fun i => ?_, fun i hi => ?_⟩
          · simp only [h.isSet i]
          · simp only [h.value i hi]

theorem sameBut_all {k : Nat} (l : List (Cli.Opt Cli.Value)) (args : List Str) {c c' : Cli.Collected Cli.Value} (h : SameBut k c c') :
    (args.foldlM (Cli.collectOne l) c = none ∧ args.foldlM (Cli.collectOne l) c' = none) ∨
      ∃ a a', args.foldlM (Cli.collectOne l) c = some a ∧ args.foldlM (Cli.collectOne l) c' = some a' ∧ SameBut k a a' := by
  induction args generalizing c c' with
  | nil => exact .inr ⟨c, c', rfl, rfl, h⟩
  | cons str args ih =>
    rw [List.foldlM_cons, List.foldlM_cons]
    rcases sameBut_one h l str with ⟨h1, h2⟩ | ⟨a, a', h1, h2, ha⟩
    · rw [h1, h2]; exact .inl ⟨rfl, rfl⟩
    · rw [h1, h2]; exact ih ha

/-- The indices of the options whose values are used. -/
theorem planFor_same {m : Machine} {d : Disk} {k : Nat} {c c' : Cli.Collected Cli.Value} (h : SameBut k c c')
    (hk : k ≠ 8 ∧ k ≠ 9 ∧ k ≠ 12 ∧ k ≠ 13 ∧ k ≠ 16) : planFor m d c = planFor m d c' := by
  obtain ⟨h8, h9, h12, h13, h16⟩ := hk
  have e12 : pathOption c 12 = pathOption c' 12 := by unfold pathOption; rw [h.value 12 h12.symm]
  have e13 : pathOption c 13 = pathOption c' 13 := by unfold pathOption; rw [h.value 13 h13.symm]
  have e8 : pathsOption c 8 = pathsOption c' 8 := by unfold pathsOption; rw [h.value 8 h8.symm]
  have e9 : pathsOption c 9 = pathsOption c' 9 := by unfold pathsOption; rw [h.value 9 h9.symm]
  have e16 : threadsOption c 16 = threadsOption c' 16 := by unfold threadsOption; rw [h.value 16 h16.symm]
  have esrc : sourceDirOf c = sourceDirOf c' := by unfold sourceDirOf; rw [h.isSet, e12]
  have etgt : targetDirOf c = targetDirOf c' := by unfold targetDirOf; rw [h.isSet, e13, esrc]
  have ecfg : configOf m c = configOf m c' := by unfold configOf; rw [h.isSet, h.isSet, e9, esrc]
  have ewhat : whatOf c = whatOf c' := by unfold whatOf; rw [h.isSet, h.isSet, h.isSet, e8]
  have eset : ∀ cfg loaders, settingsOf m d c cfg loaders = settingsOf m d c' cfg loaders := by
    intro cfg loaders
    unfold settingsOf
    rw [esrc, etgt, ewhat, e16, h.isSet, h.isSet]
  unfold planFor
  rw [h.isSet, ecfg, esrc]
  simp only [eset]

/-! ## Theorems -/

variable {m : Machine} {kind : Path → Bool} {d : Disk} {now : Nat}

/-- **C93.** The path given with such an option makes no difference: exit status, what is printed to the standard output, and what happens to files are the same as without
the path. -/
theorem C93_ignored {name : Str} (hn : name ∈ queryNames) (path : Str) (before after : List Str) (status : Int) (out : Output) (fs : Build.FileSys Path) :
    Ends m kind d now (before ++ (name ++ '=' :: path) :: after) status out fs ↔ Ends m kind d now (before ++ name :: after) status out fs := by
  have hplan : plan m d (before ++ (name ++ '=' :: path) :: after) = plan m d (before ++ name :: after) := by
    have htab : ∀ n ∈ queryNames, ∃ o ∈ Cli.maikeOptions.take 8 ++ (Cli.maikeOptions.drop 10).take 1, o.name = n := by
      have hmap : queryNames = (Cli.maikeOptions.take 8 ++ (Cli.maikeOptions.drop 10).take 1).map (·.name) := by decide +kernel
      intro n hn
      rw [hmap] at hn
      obtain ⟨o, ho, e⟩ := List.mem_map.mp hn
      exact ⟨o, ho, e⟩
    obtain ⟨o, ho, rfl⟩ := htab name hn
    have hmem : o ∈ Cli.maikeOptions := by
      rcases List.mem_append.mp ho with h | h
      · exact List.mem_of_mem_take h
      · exact List.mem_of_mem_drop (List.mem_of_mem_take h)
    have hprops : o.valueRequired = false ∧ (o.index ≠ 8 ∧ o.index ≠ 9 ∧ o.index ≠ 12 ∧ o.index ≠ 13 ∧ o.index ≠ 16) ∧ ∀ v, (o.convert v).isSome := by
      have h1 : ∀ x ∈ (Cli.maikeOptions.take 8 ++ (Cli.maikeOptions.drop 10).take 1).map fun o => (o.valueRequired, o.index),
          x.1 = false ∧ x.2 ≠ 8 ∧ x.2 ≠ 9 ∧ x.2 ≠ 12 ∧ x.2 ≠ 13 ∧ x.2 ≠ 16 := by decide +kernel
      obtain ⟨h2, h3⟩ := h1 _ (List.mem_map_of_mem ho)
      refine ⟨h2, h3, ?_⟩
      have h4 : (Cli.maikeOptions.take 8 ++ (Cli.maikeOptions.drop 10).take 1).map (·.convert) = List.replicate 9 Cli.pathValue := rfl
      have h5 : o.convert ∈ List.replicate 9 Cli.pathValue := h4 ▸ List.mem_map_of_mem ho
      rw [List.eq_of_mem_replicate h5]
      intro v; rfl
    obtain ⟨hreq, hidx, hconv⟩ := hprops
    have hsafe : ∀ n ∈ Cli.maikeOptions.map (·.name), '=' ∉ n ∧ n ≠ [] := by decide +kernel
    obtain ⟨g0, g1⟩ := hsafe _ (List.mem_map_of_mem hmem)
    obtain ⟨s1, s2, a1, a2⟩ := Cli.C51_full Cli.maikeOptions o hmem g0 path
    unfold plan Cli.collect
    rw [List.foldlM_append, List.foldlM_append]
    cases hb : before.foldlM (Cli.collectOne (Cli.optionNames Cli.maikeOptions)) Cli.Collected.init with
    | none => rfl
    | some c0 =>
      simp only [Option.bind_eq_bind, Option.bind_some, List.foldlM_cons]
      have one : ∀ str, str ≠ [] → Cli.Selects Cli.maikeOptions str o → ∃ v, Cli.collectOne (Cli.optionNames Cli.maikeOptions) c0 str =
          some ⟨fun i => if i = o.index then some v else c0.value i, fun i => if i = o.index then true else c0.isSet i⟩ := by
        intro str hne hsel
        obtain ⟨v, hv⟩ := Option.isSome_iff_exists.mp (hconv (Cli.argValue str))
        refine ⟨v, (Cli.collectOne_eq Cli.maikeOptions_proper _ _ _).mpr (.inr ⟨hne, o, hsel, ?_⟩)⟩
        unfold Cli.setOption
        rw [if_neg (by rw [hreq]; simp), hv]
      obtain ⟨v1, e1⟩ := one _ (by simp) s2
      obtain ⟨v2, e2⟩ := one _ g1 s1
      rw [e1, e2]
      simp only [Option.bind_some]
      have hsame : SameBut o.index ⟨fun i => if i = o.index then some v1 else c0.value i, fun i => if i = o.index then true else c0.isSet i⟩
          ⟨fun i => if i = o.index then some v2 else c0.value i, fun i => if i = o.index then true else c0.isSet i⟩ :=
        ⟨fun _ => rfl, fun i hi => by simp only [if_neg hi]⟩
      rcases sameBut_all (Cli.optionNames Cli.maikeOptions) after hsame with ⟨h1, h2⟩ | ⟨c, c', h1, h2, hcc⟩
      · rw [h1, h2]
      · rw [h1, h2]
        simp only [hcc.isSet, planFor_same hcc hidx]
  constructor
  · intro h
    cases h with
    | printed h => exact .printed (hplan ▸ h)
    | aborted h => exact .aborted (hplan ▸ h)
    | scanFails h h1 h2 => exact .scanFails (hplan ▸ h) h1 h2
    | treeFails h h1 h2 h3 => exact .treeFails (hplan ▸ h) h1 h2 h3
    | listed h h1 h2 => exact .listed (hplan ▸ h) h1 h2
    | graph h h1 h2 => exact .graph (hplan ▸ h) h1 h2
    | cyclic h h1 h2 h3 => exact .cyclic (hplan ▸ h) h1 h2 h3
    | built h h1 h2 h3 h4 h5 => exact .built (hplan ▸ h) h1 h2 h3 h4 h5
    | failed h h1 h2 h3 h4 h5 => exact .failed (hplan ▸ h) h1 h2 h3 h4 h5
    | named h h1 h2 h3 => exact .named (hplan ▸ h) h1 h2 h3
    | namedFails h h1 h2 h3 h4 => exact .namedFails (hplan ▸ h) h1 h2 h3 h4
  · intro h
    cases h with
    | printed h => exact .printed (hplan ▸ h)
    | aborted h => exact .aborted (hplan ▸ h)
    | scanFails h h1 h2 => exact .scanFails (hplan ▸ h) h1 h2
    | treeFails h h1 h2 h3 => exact .treeFails (hplan ▸ h) h1 h2 h3
    | listed h h1 h2 => exact .listed (hplan ▸ h) h1 h2
    | graph h h1 h2 => exact .graph (hplan ▸ h) h1 h2
    | cyclic h h1 h2 h3 => exact .cyclic (hplan ▸ h) h1 h2 h3
    | built h h1 h2 h3 h4 h5 => exact .built (hplan ▸ h) h1 h2 h3 h4 h5
    | failed h h1 h2 h3 h4 h5 => exact .failed (hplan ▸ h) h1 h2 h3 h4 h5
    | named h h1 h2 h3 => exact .named (hplan ▸ h) h1 h2 h3
    | namedFails h h1 h2 h3 h4 => exact .namedFails (hplan ▸ h) h1 h2 h3 h4

/-- **C93.** The property is false: `--help` with the name of a file ends with success, the text goes to the standard output, and there still is no such file. -/
theorem C93_false : ∃ path : Str, path ≠ [] ∧ ∀ (m : Machine) (kind : Path → Bool) (d : Disk) (now : Nat), d.fs (parse path) = none →
    ∃ fs, Ends m kind d now ["--help".toList ++ '=' :: path] 0 (.info .help) fs ∧ fs (parse path) = none := by
  refine ⟨['x'], by simp, fun m kind d now hd => ⟨d.fs, ?_, hd⟩⟩
  refine (C93_ignored (before := []) (by decide +kernel) _ _ _ _ _).mpr (.printed ?_)
  have : (Cli.collect Cli.maikeOptions ["--help".toList]).map (fun c => c.isSet 0) = some true := by decide +kernel
  unfold plan
  simp only [List.nil_append]
  cases hc : Cli.collect Cli.maikeOptions ["--help".toList] with
  | none => rw [hc] at this; cases this
  | some c =>
    rw [hc] at this
    have h0 : c.isSet 0 = true := Option.some.inj this
    simp only [h0, if_true]

end Maike.Main
