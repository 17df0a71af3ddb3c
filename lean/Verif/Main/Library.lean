import Verif.Main.LinkedExamples
import Verif.Recipes.Archive

/-!
# The way from declarations to the members of a static library (C112)

What is in the library when `recipes/make_lib.py` has executed its command (C81 is about the command, and `Recipes/Archive.lean` about what `ar` does).
-/

namespace Maike.Main

open Fs Tree Paths
open Maike.Kvs (Json Members)
open Maike.Recipes (archiveCommand)
open Maike.Recipes.Archive (Member rcs baseName times filesNamed wanted)

variable {j : Job} {kind : Path → Bool} {d : Disk} {now : Nat} {κ : Type}

/-- **C112 (members).** When the library has been made, everything that is required by the file from which it is made, directly or through other files, and that is declared to be an implementation, is a member, with its
present content. If there was no library before, or one that had no more members of any name than there are parts now, then there are no other members. -/
theorem C112_library_partial (hp : Proper j kind d now) {files : List (Path × FileInfo)} {tree : Db.SourceTree Path} (hl : Loads j d files tree)
    (hap : Apart j d) (hok : (Db.taskListAll tree.graph).1 = .ok) {p : Path} {i : FileInfo} (hs : Scanned j d p i) (hi : i.targets ≠ [])
    (htidy : ∀ x, Declared j d p x → Tidy x) {u : Nat} (hu : tree.graph.PathOf u p.normal) (info : Json) (format : Text.LogFormat) {exe : String} {opts : Members}
    (hc : commandOf files tree info format u = some (exe, opts)) (ar : String) :
    ∃ t parts, i.targets.head? = some t ∧ archiveCommand ar opts = some (ar :: "rcs" :: text t.name :: parts) ∧
      ∀ (read : String → Option κ) (library : Option (List (Member κ))) (result : List (Member κ)), rcs read library parts = some result →
        (∀ b, Part j d p b → ∃ c, read (text b) = some c ∧ ⟨baseName (text b), c⟩ ∈ result) ∧
        ((∀ name, times name (library.getD []) ≤ filesNamed name parts) → result.length = parts.length ∧
          ∀ m ∈ result, ∃ x, Declared j d p x ∧ Implementation x ∧ read (text x.name) = some m.content ∧ m.name = baseName (text x.name)) := by
  obtain ⟨t, parts, h1, h2, hnd, h3, h4⟩ := C81_archive_partial hp hl hap hok hs hi htidy hu info format hc ar
  refine ⟨t, parts, h1, h2, fun read library result hr => ⟨fun b hb => Recipes.Archive.C112_parts hr (h3 b hb), fun hle => ?_⟩⟩
  have hperm := (Recipes.Archive.C112_exact_partial hr).mpr hle
  have hread := (Recipes.Archive.C112_succeeds read library parts).mp (by rw [hr]; rfl)
  constructor
  · rw [hperm.length_eq, wanted]
    clear hle hperm hr h1 h2 h3 h4 hnd
    induction parts with
    | nil => rfl
    | cons f fs ih =>
      obtain ⟨c, hc⟩ := Option.isSome_iff_exists.mp (hread f (by simp))
      simp [hc, ih fun x hx => hread x (by simp [hx])]
  · intro m hm
    obtain ⟨f, hf, e⟩ := List.mem_filterMap.mp (hperm.mem_iff.mp hm)
    obtain ⟨c, hc, rfl⟩ := Option.map_eq_some_iff.mp e
    obtain ⟨x, g1, g2, rfl⟩ := h4 f hf
    exact ⟨x, g1, g2, hc, rfl⟩

namespace LinkedExample

/-- The provisions are met: the library of the example consists of two object files, and it is made from nothing. -/
example : ∃ exe opts t parts, commandOf (files false) (tree false) .null .plainText 11 = some (exe, opts) ∧ archiveCommand "ar" opts = some ("ar" :: "rcs" :: t :: parts) ∧
    ∃ result, rcs (fun f => some f) none parts = some result ∧ (⟨baseName (text aObj), text aObj⟩ : Member String) ∈ result ∧ ⟨baseName (text bObj), text bObj⟩ ∈ result ∧
      ∀ m ∈ result, ∃ x, Implementation x ∧ m.content = text x.name := by
  obtain ⟨p, i, hs, e, hi, hu, hn, x, hx, hxn⟩ := scanned false
  have ha := test_a false hs hu hi hn hx hxn
  obtain ⟨y, hy, rfl', him⟩ := a_b false
  have hb := Requires.tail ha hy
  rw [rfl'] at hb
  have himpl : ∀ b ∈ [aObj, bObj], ∀ x, Declared (job false) disk p x → x.name = b → Implementation x := by
    have : ∀ b ∈ [aObj, bObj], ∀ x ∈ declarations false, x.name = b → Implementation x := by unfold Implementation; decide +kernel
    exact fun b hb x hx => this b hb x (mem_declarations hx)
  have hc : (commandOf (files false) (tree false) .null .plainText 11).isSome = true := by decide +kernel
  obtain ⟨⟨exe, opts⟩, hc⟩ := Option.isSome_iff_exists.mp hc
  obtain ⟨t, parts, _, h1, h2⟩ := C112_library_partial (κ := String) (proper false) (loads false) (apart false) (acyclic false) hs hi (tidy false)
    (by rw [e]; exact path false) .null .plainText hc "ar"
  obtain ⟨result, hr⟩ := Option.isSome_iff_exists.mp ((Recipes.Archive.C112_succeeds (fun f => some f) none parts).mpr fun _ _ => rfl)
  obtain ⟨g1, g2⟩ := h2 _ none result hr
  obtain ⟨_, g3⟩ := g2 fun name => by simp [times]
  refine ⟨exe, opts, _, parts, hc, h1, result, hr, ?_, ?_, fun m hm => ?_⟩
  · obtain ⟨c, hc, h⟩ := g1 _ ⟨ha, himpl _ (by simp)⟩
    cases hc
    exact h
  · obtain ⟨c, hc, h⟩ := g1 _ ⟨hb, himpl _ (by simp)⟩
    cases hc
    exact h
  · obtain ⟨x, _, him, g, _⟩ := g3 m hm
    exact ⟨x, him, (Option.some.inj g).symm⟩

end LinkedExample

end Maike.Main
