import Verif.Recipes.Model

/-!
# What a static library contains (C112)

recipes/make_lib.py:32-37 executes `ar rcs` with the library and its parts. `Recipes/Model.lean` has the command (`archiveCommand`), and C81 says what it consists of. Here is what becomes of the library. It is not removed before,
neither by maike nor by the recipe, so that `ar` changes the library that is left from the previous build.

What `ar` does with the operation `r` is taken from GNU binutils (`replace_members` in `ar.c`) and belongs to the trusted base: a member has the base name of its file. For each file in turn, the first member of this name that
was read from the library is replaced by the file. If there is none, the file is appended. The modifier `c` only suppresses a warning, and `s` writes an index. If a file cannot be read, then `ar` fails, and what is
left is not described.
-/

namespace Maike.Recipes.Archive

/-! ## Model -/

variable {κ : Type}

/-- A member of a library: a name and a content. -/
structure Member (κ : Type) where
  name : List Char
  content : κ
deriving DecidableEq, Repr

/-- What follows the last slash. -/
def baseName (file : String) : List Char := (file.toList.reverse.takeWhile (· ≠ '/')).reverse

/-- An entry in the list of members that `ar` works with. `old`: it was read from the library. -/
structure Entry (κ : Type) where
  old : Bool
  member : Member κ
deriving DecidableEq, Repr

/-- Add one file. -/
def addFile (m : Member κ) : List (Entry κ) → List (Entry κ)
  | [] => [⟨false, m⟩]
  | e :: es => if e.old && e.member.name = m.name then ⟨false, m⟩ :: es else e :: addFile m es

/-- Add files in the order of the command line. `read`: the contents of files. -/
def addFiles (read : String → Option κ) : List String → List (Entry κ) → Option (List (Entry κ))
  | [], es => some es
  | f :: fs, es => do
    let c ← read f
    addFiles read fs (addFile ⟨baseName f, c⟩ es)

/-- `ar rcs library files...`. `library` are the members of the library if it exists; `none` as a result is a failure. -/
def rcs (read : String → Option κ) (library : Option (List (Member κ))) (files : List String) : Option (List (Member κ)) :=
  (addFiles read files ((library.getD []).map fun m => ⟨true, m⟩)).map fun es => es.map Entry.member

/-- A library is made again and again. Each time, there are other contents of files, and other parts. -/
def rebuilt (library : Option (List (Member κ))) : List ((String → Option κ) × List String) → Option (Option (List (Member κ)))
  | [] => some library
  | (read, files) :: builds => do
    let l ← rcs read library files
    rebuilt (some l) builds

/-! ## Specification -/

/-- What a library should contain: each of its parts, as it is now. -/
def wanted (read : String → Option κ) (files : List String) : List (Member κ) := files.filterMap fun f => (read f).map (Member.mk (baseName f))

/-- How often there is a member with this name. -/
def times (name : List Char) (l : List (Member κ)) : Nat := (l.map Member.name).count name

/-- How many of the files have this base name. -/
def filesNamed (name : List Char) (files : List String) : Nat := (files.map baseName).count name

/-! ## Lemmas -/

def news (es : List (Entry κ)) : List (Member κ) := (es.filter fun e => !e.old).map Entry.member

def olds (es : List (Entry κ)) : List (Member κ) := (es.filter Entry.old).map Entry.member

theorem split_perm (es : List (Entry κ)) : (es.map Entry.member).Perm (news es ++ olds es) := by
  have := (List.filter_append_perm Entry.old es).map Entry.member
  rw [List.map_append] at this
  exact this.symm.trans List.perm_append_comm

theorem addFile_news (m : Member κ) (es : List (Entry κ)) : (news (addFile m es)).Perm (m :: news es) := by
  induction es with
  | nil => simp [addFile, news]
  | cons e es ih =>
    rw [addFile]
    split
    · next h =>
      simp only [Bool.and_eq_true] at h
      simp [news, h.1]
    · next h =>
      cases ho : e.old with
      | true => simpa [news, ho] using ih
      | false =>
        simp only [news, ho, List.filter_cons, Bool.not_false, if_true, List.map_cons] at ih ⊢
        exact (ih.cons _).trans (.swap _ _ _)

theorem addFile_olds (m : Member κ) (es : List (Entry κ)) :
    (olds (addFile m es)).Sublist (olds es) ∧ ∀ name, times name (olds (addFile m es)) = times name (olds es) - if name = m.name then 1 else 0 := by
  induction es with
  | nil => simp [addFile, olds, times]
  | cons e es ih =>
    rw [addFile]
    split
    · next h =>
      simp only [Bool.and_eq_true, decide_eq_true_eq] at h
      refine ⟨by simp [olds, h.1], fun name => ?_⟩
      simp only [olds, times, List.filter_cons, h.1, if_true, List.map_cons, List.count_cons, h.2, Bool.false_eq_true, if_false]
      by_cases hn : name = m.name
      · subst hn; simp
      · have : (m.name == name) = false := by simpa using fun h => hn h.symm
        simp [hn, this]
    · next h =>
      simp only [Bool.and_eq_true, decide_eq_true_eq] at h
      cases ho : e.old with
      | false => simpa [olds, ho] using ih
      | true =>
        have hne : e.member.name ≠ m.name := fun hx => h ⟨ho, hx⟩
        refine ⟨by simpa [olds, ho] using ih.1, fun name => ?_⟩
        have := ih.2 name
        simp only [olds, times, List.filter_cons, ho, if_true, List.map_cons, List.count_cons] at this ⊢
        by_cases hn : name = m.name
        · subst hn
          have : (e.member.name == m.name) = false := by simpa using hne
          simp_all
        · simp_all

theorem addFiles_split {read : String → Option κ} {files : List String} : ∀ {es r : List (Entry κ)}, addFiles read files es = some r →
    (news r).Perm (wanted read files ++ news es) ∧ (olds r).Sublist (olds es) ∧ ∀ name, times name (olds r) = times name (olds es) - filesNamed name files := by
  induction files with
  | nil =>
    intro es r h
    cases h
    exact ⟨by simp [wanted], List.Sublist.refl _, fun name => by simp [filesNamed]⟩
  | cons f fs ih =>
    intro es r h
    simp only [addFiles, Option.bind_eq_bind, Option.bind_eq_some_iff] at h
    obtain ⟨c, hc, h⟩ := h
    obtain ⟨h1, h2, h3⟩ := ih h
    obtain ⟨g1, g2⟩ := addFile_olds (⟨baseName f, c⟩ : Member κ) es
    refine ⟨?_, h2.trans g1, fun name => ?_⟩
    · refine h1.trans ?_
      simp only [wanted, List.filterMap_cons, hc, Option.map_some, List.cons_append]
      exact ((addFile_news _ _).append_left _).trans List.perm_middle
    · rw [h3, g2]
      simp only [filesNamed, List.map_cons, List.count_cons]
      by_cases hn : name = baseName f
      · subst hn; simp; omega
      · have : (baseName f == name) = false := by simpa using fun h => hn h.symm
        simp [hn, this]

theorem news_old (l : List (Member κ)) : news (l.map fun m => (⟨true, m⟩ : Entry κ)) = [] := by
  induction l with
  | nil => rfl
  | cons m l ih => simp [news]

theorem olds_old (l : List (Member κ)) : olds (l.map fun m => (⟨true, m⟩ : Entry κ)) = l := by
  induction l with
  | nil => rfl
  | cons m l ih => simpa [olds] using ih

theorem times_wanted {read : String → Option κ} {files : List String} (h : ∀ f ∈ files, (read f).isSome) (name : List Char) :
    times name (wanted read files) = filesNamed name files := by
  induction files with
  | nil => rfl
  | cons f fs ih =>
    obtain ⟨c, hc⟩ := Option.isSome_iff_exists.mp (h f (by simp))
    have := ih fun x hx => h x (by simp [hx])
    simp only [times, wanted, filesNamed, List.filterMap_cons, hc, Option.map_some, List.map_cons, List.count_cons] at this ⊢
    rw [this]

theorem addFiles_isSome (read : String → Option κ) (files : List String) : ∀ es : List (Entry κ), (addFiles read files es).isSome ↔ ∀ f ∈ files, (read f).isSome := by
  induction files with
  | nil => simp [addFiles]
  | cons f fs ih =>
    intro es
    cases hf : read f with
    | none => simp [addFiles, hf]
    | some c => simp [addFiles, hf, ih]

theorem eq_nil_of_times {l : List (Member κ)} (h : ∀ name, times name l = 0) : l = [] := by
  cases l with
  | nil => rfl
  | cons m l => have := h m.name; simp [times] at this

theorem times_perm {l l' : List (Member κ)} (h : l.Perm l') (name : List Char) : times name l = times name l' := (h.map _).count_eq _

theorem times_append (l l' : List (Member κ)) (name : List Char) : times name (l ++ l') = times name l + times name l' := by simp [times]

/-! ## Theorems -/

/-- **C112 (when it succeeds).** The library can be made exactly if each part can be read. -/
theorem C112_succeeds (read : String → Option κ) (library : Option (List (Member κ))) (files : List String) :
    (rcs read library files).isSome ↔ ∀ f ∈ files, (read f).isSome := by
  rw [rcs, Option.isSome_map, addFiles_isSome]

/-- **C112 (in general).** The library consists of its parts, as they are now, and of what is left over from the library that was there before: as many members of each name as there were more than there are parts with
this name. -/
theorem C112_members {read : String → Option κ} {library : Option (List (Member κ))} {files : List String} {result : List (Member κ)} (h : rcs read library files = some result) :
    ∃ rest, result.Perm (wanted read files ++ rest) ∧ rest.Sublist (library.getD []) ∧ ∀ name, times name rest = times name (library.getD []) - filesNamed name files := by
  obtain ⟨es, h1, rfl⟩ := Option.map_eq_some_iff.mp h
  obtain ⟨g1, g2, g3⟩ := addFiles_split h1
  rw [news_old, List.append_nil] at g1
  rw [olds_old] at g2 g3
  exact ⟨olds es, (split_perm es).trans (g1.append_right _), g2, g3⟩

/-- **C112 (nothing is missing).** Each part is a member, with its present content. -/
theorem C112_parts {read : String → Option κ} {library : Option (List (Member κ))} {files : List String} {result : List (Member κ)} (h : rcs read library files = some result)
    {f : String} (hf : f ∈ files) : ∃ c, read f = some c ∧ ⟨baseName f, c⟩ ∈ result := by
  obtain ⟨c, hc⟩ := Option.isSome_iff_exists.mp ((C112_succeeds read library files).mp (by rw [h]; rfl) f hf)
  obtain ⟨rest, hp, _⟩ := C112_members h
  exact ⟨c, hc, hp.mem_iff.mpr (List.mem_append_left _ (List.mem_filterMap.mpr ⟨f, hf, by rw [hc]; rfl⟩))⟩

/-- **C112 (when it is exact).** The library consists of its parts and nothing else if and only if it did not have more members of some name before than there are parts of this name now. In particular, this is so if there was
no library. -/
theorem C112_exact_partial {read : String → Option κ} {library : Option (List (Member κ))} {files : List String} {result : List (Member κ)} (h : rcs read library files = some result) :
    result.Perm (wanted read files) ↔ ∀ name, times name (library.getD []) ≤ filesNamed name files := by
  obtain ⟨rest, hp, _, ht⟩ := C112_members h
  have hw := times_wanted ((C112_succeeds read library files).mp (by rw [h]; rfl))
  constructor
  · intro hr name
    have h1 := times_perm hp name
    rw [times_perm hr name, times_append, ht, hw] at h1
    omega
  · intro hle
    rw [eq_nil_of_times (l := rest) fun name => by rw [ht]; have := hle name; omega, List.append_nil] at hp
    exact hp

/-- **C112 (a new library).** If there was no library, then it consists of its parts and nothing else. -/
theorem C112_new {read : String → Option κ} {files : List String} {result : List (Member κ)} (h : rcs read none files = some result) : result.Perm (wanted read files) :=
  (C112_exact_partial h).mpr fun name => by simp [times]

theorem rebuilt_append (library : Option (List (Member κ))) (bs : List ((String → Option κ) × List String)) (read : String → Option κ) (files : List String) :
    rebuilt library (bs ++ [(read, files)]) = (rebuilt library bs).bind fun l => (rcs read l files).map some := by
  induction bs generalizing library with
  | nil => cases h : rcs read library files <;> simp [rebuilt, h]
  | cons b bs ih =>
    obtain ⟨r, fs⟩ := b
    cases h : rcs r library fs <;> simp [rebuilt, h, ih]

/-- **C112 (again and again).** If no part is taken away from the library from one build to the next, then it consists of the parts of the last build and nothing else, however often it has been made. -/
theorem C112_growing_partial (bs : List ((String → Option κ) × List String)) (read : String → Option κ) (files : List String)
    (hgrow : (bs ++ [(read, files)]).Pairwise fun b b' => ∀ name, filesNamed name b.2 ≤ filesNamed name b'.2) {result : Option (List (Member κ))}
    (h : rebuilt none (bs ++ [(read, files)]) = some result) : ∃ l, result = some l ∧ l.Perm (wanted read files) := by
  rw [rebuilt_append] at h
  simp only [Option.bind_eq_some_iff, Option.map_eq_some_iff] at h
  obtain ⟨l, h1, l', h2, rfl⟩ := h
  refine ⟨l', rfl, (C112_exact_partial h2).mpr ?_⟩
  suffices ∀ bs : List ((String → Option κ) × List String), bs.Pairwise (fun b b' => ∀ name, filesNamed name b.2 ≤ filesNamed name b'.2) → ∀ l, rebuilt none bs = some l →
      (bs = [] ∧ l = none) ∨ ∃ b ∈ bs, ∀ name, times name (l.getD []) = filesNamed name b.2 by
    rw [List.pairwise_append] at hgrow
    rcases this bs hgrow.1 l h1 with ⟨_, rfl⟩ | ⟨b, hb, he⟩
    · simp [times]
    · intro name
      rw [he]
      exact hgrow.2.2 b hb (read, files) (by simp) name
  clear h1 h2 hgrow
  intro bs
  induction hn : bs.length generalizing bs with
  | zero =>
    intro _ l hl
    rw [List.length_eq_zero_iff] at hn
    subst hn
    cases hl
    exact .inl ⟨rfl, rfl⟩
  | succ n ih =>
    intro hp l hl
    obtain ⟨init, last, rfl⟩ : ∃ init last, bs = init ++ [last] := ⟨_, _, (List.dropLast_concat_getLast (by rintro rfl; cases hn)).symm⟩
    obtain ⟨rd, fs⟩ := last
    rw [rebuilt_append] at hl
    simp only [Option.bind_eq_some_iff, Option.map_eq_some_iff] at hl
    obtain ⟨x, h1, y, h2, rfl⟩ := hl
    rw [List.pairwise_append] at hp
    refine .inr ⟨(rd, fs), by simp, fun name => ?_⟩
    have hle : ∀ name, times name (x.getD []) ≤ filesNamed name fs := by
      rcases ih init (by simpa using hn) hp.1 x h1 with ⟨_, rfl⟩ | ⟨b, hb, he⟩
      · simp [times]
      · intro name
        rw [he]
        exact hp.2.2 b hb (rd, fs) (by simp) name
    have hx := (C112_exact_partial h2).mpr hle
    rw [Option.getD_some, times_perm hx, times_wanted ((C112_succeeds _ _ _).mp (by rw [h2]; rfl))]

/-- **C112 (what is left over stays).** A member whose name is not the name of a part stays as it is, however often the library is made. -/
theorem C112_stays {m : Member κ} : ∀ {bs : List ((String → Option κ) × List String)} {library : List (Member κ)} {result : Option (List (Member κ))}, m ∈ library →
    (∀ b ∈ bs, m.name ∉ b.2.map baseName) → rebuilt (some library) bs = some result → ∃ l, result = some l ∧ m ∈ l
  | [], _, _, hm, _, h => by
    cases h
    exact ⟨_, rfl, hm⟩
  | (read, files) :: bs, library, result, hm, hn, h => by
    simp only [rebuilt, Option.bind_eq_bind, Option.bind_eq_some_iff] at h
    obtain ⟨l, h1, h2⟩ := h
    refine C112_stays ?_ (fun b hb => hn b (by simp [hb])) h2
    obtain ⟨es, g1, rfl⟩ := Option.map_eq_some_iff.mp h1
    have hname : m.name ∉ files.map baseName := hn (read, files) (by simp)
    have key : ∀ (files : List String) (es r : List (Entry κ)), m.name ∉ files.map baseName → (⟨true, m⟩ : Entry κ) ∈ es → addFiles read files es = some r → (⟨true, m⟩ : Entry κ) ∈ r := by
      intro files
      induction files with
      | nil =>
        intro es r _ hmem hr
        cases hr
        exact hmem
      | cons f fs ih =>
        intro es r hn hmem hr
        simp only [addFiles, Option.bind_eq_bind, Option.bind_eq_some_iff] at hr
        obtain ⟨c, _, hr⟩ := hr
        simp only [List.map_cons, List.mem_cons, not_or] at hn
        refine ih _ r hn.2 ?_ hr
        clear hr ih
        induction es with
        | nil => cases hmem
        | cons e es ihe =>
          rw [addFile]
          rcases List.mem_cons.mp hmem with rfl | hmem
          · simp [hn.1]
          · split
            · simp [hmem]
            · simp [ihe hmem]
    exact List.mem_map.mpr ⟨_, key files _ es hname (List.mem_map.mpr ⟨m, by simpa using hm, rfl⟩) g1, rfl⟩

/-! ## Examples -/

namespace Example

/-- Contents are numbers. -/
def first : String → Option Nat
  | "x/a.o" => some 1
  | "x/b.o" => some 2
  | "y/a.o" => some 3
  | _ => none

/-- `b.o` has been compiled again. -/
def second : String → Option Nat
  | "x/b.o" => some 4
  | f => first f

def a : List Char := "a.o".toList

def b : List Char := "b.o".toList

example : baseName "x/a.o" = a ∧ baseName "a.o" = a ∧ baseName "/x/y/b.o" = b := by decide +kernel

/-- A new library. -/
example : rcs first none ["x/b.o", "x/a.o"] = some [⟨b, 2⟩, ⟨a, 1⟩] := by decide +kernel

/-- A member is replaced in place. -/
example : rcs second (some [⟨b, 2⟩, ⟨a, 1⟩]) ["x/b.o", "x/a.o"] = some [⟨b, 4⟩, ⟨a, 1⟩] := by decide +kernel

/-- Parts with the same base name are all there, and are all replaced. -/
example : rcs first none ["x/a.o", "y/a.o"] = some [⟨a, 1⟩, ⟨a, 3⟩] ∧ rcs first (some [⟨a, 1⟩, ⟨a, 3⟩]) ["y/a.o", "x/a.o"] = some [⟨a, 3⟩, ⟨a, 1⟩] := by decide +kernel

/-- A part is missing. -/
example : rcs first none ["x/c.o", "x/a.o"] = none := by decide +kernel

end Example

/-- **C112 is false** when a part is taken away: it stays in the library, with its old content, although the library is made again. -/
theorem C112_false : ∃ (read read' : String → Option Nat) (parts parts' : List String) (l l' : List (Member Nat)), rcs read none parts = some l ∧ l.Perm (wanted read parts) ∧
    rcs read' (some l) parts' = some l' ∧ ¬ l'.Perm (wanted read' parts') ∧ ∃ m ∈ l', m ∉ wanted read' parts' ∧ ∀ f, (read' f).map (Member.mk (baseName f)) ≠ some m := by
  refine ⟨Example.first, Example.second, ["x/b.o", "x/a.o"], ["x/a.o"], [⟨Example.b, 2⟩, ⟨Example.a, 1⟩], [⟨Example.b, 2⟩, ⟨Example.a, 1⟩], by decide +kernel,
    C112_new (by decide +kernel), by decide +kernel, by decide +kernel, ⟨Example.b, 2⟩, by simp, by decide +kernel, fun f hf => ?_⟩
  obtain ⟨c, h1, h2⟩ := Option.map_eq_some_iff.mp hf
  simp only [Member.mk.injEq] at h2
  obtain ⟨_, rfl⟩ := h2
  unfold Example.second Example.first at h1
  split at h1
  · cases h1
  · split at h1 <;> cases h1
    next h => exact h rfl

end Maike.Recipes.Archive
