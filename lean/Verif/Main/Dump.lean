import Verif.Kvs.ConfigDump
import Verif.Main.Program

/-!
# Configuration files, from bytes to settings and back (C100)
-/

namespace Maike.Main

open Fs Tree Paths Kvs
open Maike.Kvs.JsonText

/-! ## Model -/

/-- What `dumpConfig` writes to the standard output, core/bin/maike.cpp:250-253. -/
def dumpBytes (f : Reals) (cfg : Config) : List UInt8 := utf8 (store f true (.obj [("maikeconfig", .obj cfg.toMembers)]))

/-! ## Specification -/

/-- What is used for the configuration: the decoder follows the standard, and the patterns in the default configuration can be compiled. -/
structure Machine.Standard (m : Machine) (f : Reals) : Prop where
  decoder : JsonText.Standard f m.outside.decoder
  valid : DefaultsValid m.valid

/-! ## Lemmas -/

theorem readCompound_fits {o : Outside} {f : Reals} (hd : JsonText.Standard f o.decoder) {t : List UInt8} {ms : Members} (h : readCompound o t = some ms) :
    Fits maxDepth (.obj ms) := by
  unfold readCompound at h
  split at h
  · rename_i v e
    exact asObj_fits (loadLoop_value (P := Fits maxDepth) hd.fits e) h
  · simp only [Option.some.injEq] at h
    subst h; exact .nil
  · simp at h

/-- The configuration is one that is returned by `loadConfig`, for files that fit. -/
theorem configOf_loaded {m : Machine} {f : Reals} (hm : m.Standard f) (c : Cli.Collected Cli.Value) :
    ∃ files, (∀ ms, some ms ∈ files → Fits maxDepth (.obj ms)) ∧ configOf m c = loadConfig m.valid files := by
  unfold configOf
  split
  · exact ⟨[], by simp, by simp [loadConfig, getReq, lookup]⟩
  · refine ⟨_, ?_, rfl⟩
    intro ms h
    obtain ⟨p, _, e⟩ := List.mem_map.mp h
    obtain ⟨t, _, e⟩ := Option.bind_eq_some_iff.mp e
    exact readCompound_fits hm.decoder e

theorem sameCompiler_toJson {a b : Compiler} (h : SameCompiler a b) : Same a.toJson b.toJson := by
  obtain ⟨r, o, c, u⟩ := a
  obtain ⟨r', o', c', u'⟩ := b
  obtain ⟨h1, h2, h3, h4⟩ := h
  simp only at h1 h2 h3 h4
  subst h1 h2 h4
  simp only [Compiler.toJson, Kvs.set]
  exact .obj (.cons (.refl _) (.cons (.obj h3) (.refl _)))

theorem sameLoader_toJson {a b : Loader} (hk : a.kind = b.kind) (h : SameCompiler a.compiler b.compiler) : Same a.toJson b.toJson := by
  obtain ⟨k, c⟩ := a
  obtain ⟨k', c'⟩ := b
  simp only at hk h
  subst hk
  simp only [Loader.toJson, Kvs.set]
  exact .obj (.cons (sameCompiler_toJson h) (.refl _))

theorem sameLoaders_map {l m : List (String × Loader)} (h : SameLoaders l m) :
    SameMembers (l.map fun x => (x.1, x.2.toJson)) (m.map fun x => (x.1, x.2.toJson)) := by
  induction h with
  | nil => exact .nil
  | cons hk hc _ ih => exact .cons (sameLoader_toJson hk hc) ih

theorem sameConfig_toMembers {a b : Config} (h : SameConfig a b) (ha : Ascending a.loaders) (hb : Ascending b.loaders) :
    Same (.obj [("maikeconfig", .obj a.toMembers)]) (.obj [("maikeconfig", .obj b.toMembers)]) := by
  obtain ⟨t, l, d⟩ := a
  obtain ⟨t', l', d'⟩ := b
  obtain ⟨h1, h2, h3⟩ := h
  simp only at h1 h2 h3 ha hb
  subst h1
  have hl : SameMembers (writeMap Loader.toJson l) (writeMap Loader.toJson l') := by
    rw [writeMap_ascending _ ha, writeMap_ascending _ hb]
    exact sameLoaders_map h2
  simp only [Config.toMembers, Kvs.set]
  exact .obj (.cons (.obj (.cons (.refl _) (.cons (.obj hl) (.cons (sameCompiler_toJson h3) .nil)))) .nil)

theorem fits_wellFormed {d : Nat} {v : Json} (h : Fits d v) : WellFormed v := by
  induction h with
  | arr _ ih => exact .arr ih
  | obj hn _ _ ih => exact .obj hn ih
  | null => exact .null
  | bool => exact .bool _
  | int => exact .int _
  | real => exact .real _
  | str => exact .str _

/-! ## Theorems -/

/-- **C100.** A configuration file, or a rule file, that contains an object, possibly after blanks, and possibly followed by something else, is read as
this object. -/
theorem C100_compound {o : Outside} {f : Reals} (hd : JsonText.Standard f o.decoder) {w x : List Char} {ms : Members} (hw : Blank w) (hx : Value f x (.obj ms))
    (hm : Fits maxDepth (.obj ms)) (rest : List UInt8) : readCompound o (utf8 (w ++ x) ++ rest) = some ms := by
  rw [readCompound, C100_document hd (by decide) hw hx (.inr ⟨ms, rfl⟩) hm rest]
  rfl

/-- **C100.** The program is started with `--configdump`, and again with what it has printed as the only configuration file, possibly followed by something else.
Then the configuration is the same, apart from the order of members, and the second run prints exactly what the first one has printed. -/
theorem C100_configdump {f : Reals} (hf : f.Ok) {m m' : Machine} (hm : m.Standard f) (hm' : m'.Standard f) (hv : m'.valid = m.valid) {kind kind' : Path → Bool} {d d' : Disk}
    {now now' : Nat} {args args' : List Str} {status : Int} {cfg : Config} {fs : Build.FileSys Path}
    (h : Ends m kind d now args status (.info (.config cfg)) fs) {file value : Str} {rest : List UInt8}
    (hc : m'.outside.content (parse file) = some (dumpBytes f cfg ++ rest)) (ha : ∀ str ∈ args', Acceptable str) (hl : LastValue args' "--configfiles" value)
    (hp : Cli.parseList value = [file]) (hn : ¬ Given args' "--config-default") :
    ∃ cfg', ConfigFor m' args' cfg' ∧ SameConfig cfg' cfg ∧ dumpBytes f cfg' = dumpBytes f cfg ∧
      (¬ Given args' "--help" → ¬ Given args' "--version" → ¬ Given args' "--about" → Given args' "--configdump" →
        ∀ status' out' fs', Ends m' kind' d' now' args' status' out' fs' ↔ status' = 0 ∧ out' = .info (.config cfg') ∧ fs' = d'.fs) := by
  have h1 : ∃ files, (∀ ms, some ms ∈ files → Fits maxDepth (.obj ms)) ∧ cfg = loadConfig m.valid files := by
    cases h with
    | printed hp =>
      unfold plan at hp
      split at hp
      · simp at hp
      · rename_i c _
        split at hp
        · simp at hp
        · split at hp
          · simp at hp
          · split at hp
            · simp at hp
            · unfold planFor at hp
              split at hp
              · simp only [Plan.print.injEq, Info.config.injEq] at hp
                rw [← hp]
                exact configOf_loaded hm c
              · split at hp
                · simp at hp
                · split at hp <;> simp at hp
  obtain ⟨files, hfit, rfl⟩ := h1
  obtain ⟨c, hcol⟩ := Option.isSome_iff_exists.mp ((Cli.C51_accepted _ Cli.maikeOptions_proper args').mpr ha)
  have hfor : ConfigFor m' args' (configOf m' c) := configFor_of hcol
  have hpr := C60_loaded hm.valid files
  have hdump : Fits maxDepth (.obj [("maikeconfig", .obj (loadConfig m.valid files).toMembers)]) := loadConfig_fits (d := 2040) hfit
  have hs := same_sortKeys (.obj [("maikeconfig", .obj (loadConfig m.valid files).toMembers)])
  have hval := value_dump hf true 0 (sortKeys (.obj [("maikeconfig", .obj (loadConfig m.valid files).toMembers)]))
  obtain ⟨ms, hms, hsame⟩ := C98_configdump hf m.valid _ hpr.1 (reads_store hf true _)
  rw [hms] at hval hs
  have hread : readCompound m'.outside (dumpBytes f (loadConfig m.valid files) ++ rest) = some ms := by
    have := C100_compound hm'.decoder (w := []) blank_nil hval (hs.fits hdump) rest
    rw [← this, dumpBytes, store, hms]
    rfl
  have hcfg : configOf m' c = loadConfig m.valid [some ms] := by
    rw [hfor.files hn value hl, hp, hv]
    simp [hc, hread]
  rw [hpr.2] at hsame
  rw [← hcfg] at hsame
  have hpr' : (configOf m' c).Proper m.valid := by
    rw [hcfg]; exact (C60_loaded hm.valid _).1
  refine ⟨configOf m' c, hfor, hsame, ?_, ?_⟩
  · have hsm := sameConfig_toMembers hsame hpr'.loaders hpr.1.loaders
    rw [dumpBytes, dumpBytes, ← C98_canonical f true (fits_wellFormed hdump) hsm.symm]
  · intro g1 g2 g3 g4 status' out' fs'
    rw [← given_iff hcol hasIndex_help] at g1
    rw [← given_iff hcol hasIndex_version] at g2
    rw [← given_iff hcol hasIndex_about] at g3
    rw [← given_iff hcol hasIndex_dump] at g4
    refine ends_print ?_ ..
    simp [plan, planFor, hcol, g1, g2, g3, g4]

/-! ## Examples -/

namespace DumpExamples

open JsonText.Examples

/-- A machine where each file contains the dump of the default configuration, and something else. -/
noncomputable def machine : Machine where
  outside :=
    { content := fun _ => some (dumpBytes reals .default ++ [10])
      decoder := JsonText.Examples.standard reals
      search := fun _ _ => false }
  valid := fun _ => true
  systemDir := Path.empty
  configure := fun _ c => some c
  getTags := fun _ _ => none
  message := fun _ => []
  nprocs := 4

theorem machine_standard : machine.Standard reals := ⟨standard_standard reals, rfl, rfl, rfl⟩

/-- The arguments of the first run, and of the second one. -/
def args : List Str := ["--config-default".toList, "--configdump".toList]
def args' : List Str := ["--configdump".toList, "--configfiles=a.json".toList]

theorem first (kind : Path → Bool) (d : Disk) (now : Nat) : Ends machine kind d now args 0 (.info (.config .default)) d.fs := by
  refine .printed ?_
  have : ∃ c, Cli.collect Cli.maikeOptions args = some c ∧ c.isSet 0 = false ∧ c.isSet 1 = false ∧ c.isSet 2 = false ∧ c.isSet 10 = true ∧ c.isSet 11 = true := by
    have : ((Cli.collect Cli.maikeOptions args).any fun c => !c.isSet 0 && !c.isSet 1 && !c.isSet 2 && c.isSet 10 && c.isSet 11) = true := by decide +kernel
    simpa [and_assoc, Option.any_eq_true] using this
  obtain ⟨c, hc, h0, h1, h2, h10, h11⟩ := this
  simp [plan, hc, h0, h1, h2, planFor, h10, configOf, h11]

theorem collected : ∃ c, Cli.collect Cli.maikeOptions args' = some c ∧ c.isSet 0 = false ∧ c.isSet 1 = false ∧ c.isSet 2 = false ∧ c.isSet 10 = true ∧ c.isSet 11 = false ∧
    c.isSet 9 = true := by
  have : ((Cli.collect Cli.maikeOptions args').any fun c => !c.isSet 0 && !c.isSet 1 && !c.isSet 2 && c.isSet 10 && !c.isSet 11 && c.isSet 9) = true := by decide +kernel
  simpa [and_assoc, Option.any_eq_true] using this

theorem lastValue : LastValue args' "--configfiles" "a.json".toList := by
  refine ⟨["--configdump".toList], "--configfiles=a.json".toList, [], ⟨9, "--configfiles".toList, true, Cli.pathsValue⟩, rfl, by decide, ?_, rfl, by simp, by decide +kernel⟩
  exact ⟨by simp [Cli.maikeOptions], by decide +kernel, by decide +kernel⟩

/-- The second run prints what the first one has printed. -/
example (kind : Path → Bool) (d : Disk) (now : Nat) : ∃ cfg', SameConfig cfg' .default ∧ dumpBytes reals cfg' = dumpBytes reals .default ∧
    Ends machine kind d now args' 0 (.info (.config cfg')) d.fs := by
  obtain ⟨c, hc, h0, h1, h2, h10, h11, _⟩ := collected
  have ha : ∀ str ∈ args', Acceptable str := (Cli.C51_accepted _ Cli.maikeOptions_proper args').mp (by rw [hc]; rfl)
  obtain ⟨cfg', _, hs, hd, h⟩ := C100_configdump reals_ok machine_standard machine_standard rfl (kind' := kind) (d' := d) (now' := now) (first kind d now) (file := "a.json".toList)
    (rest := [10]) rfl ha lastValue (by decide +kernel) (by rw [← given_iff hc hasIndex_default, h11]; decide)
  refine ⟨cfg', hs, hd, (h ?_ ?_ ?_ ?_ 0 _ _).mpr ⟨rfl, rfl, rfl⟩⟩
  · rw [← given_iff hc hasIndex_help, h0]; decide
  · rw [← given_iff hc hasIndex_version, h1]; decide
  · rw [← given_iff hc hasIndex_about, h2]; decide
  · rw [← given_iff hc hasIndex_dump, h10]

end DumpExamples

end Maike.Main
