import Verif.Build.Spec
import Verif.TaskList.Theorems

/-!
# Theorems about rebuilding (C11 – C14)
-/

namespace Maike.Build

open Maike.Db (Dep isExternal)

variable {P : Type}

/-! ## C11 -/

/-- **C11.** When the comparison fails. -/
theorem C11_error (fs : FileSys P) (a b : P) :
    ((∃ e, isOlder fs a b = .error e) ↔ ¬ Exists fs a ∧ ¬ Exists fs b) ∧
    ((∃ e, isNewer fs a b = .error e) ↔ ¬ Exists fs a ∧ ¬ Exists fs b) := by
  unfold isOlder isNewer Exists
  cases fs a <;> cases fs b <;> simp

/-- **C11.** What the comparisons mean. -/
theorem C11_meaning (fs : FileSys P) (a b : P) :
    (isOlder fs a b = .ok true ↔ StrictlyNewer fs b a) ∧
    (isNewer fs a b = .ok true ↔ StrictlyNewer fs a b) := by
  unfold isOlder isNewer StrictlyNewer
  cases fs a <;> cases fs b <;> simp

/-- **C11.** They are each other's opposites, irreflexive and asymmetric, and
equal time stamps are neither newer nor older. -/
theorem C11_order (fs : FileSys P) (a b : P) :
    (∀ r, isNewer fs a b = .ok r ↔ isOlder fs b a = .ok r) ∧
    isOlder fs a a ≠ .ok true ∧ isNewer fs a a ≠ .ok true ∧
    (isOlder fs a b = .ok true → isOlder fs b a = .ok false) ∧
    (∀ sa sb, fs a = some sa → fs b = some sb → sa.mtime = sb.mtime →
      isOlder fs a b = .ok false ∧ isNewer fs a b = .ok false) := by
  unfold isOlder isNewer
  refine ⟨?_, ?_, ?_, ?_, ?_⟩
  · cases fs a <;> cases fs b <;> simp
  · cases fs a <;> simp
  · cases fs a <;> simp
  · cases fs a <;> cases fs b <;> simp; omega
  · intro sa sb h1 h2 h3; rw [h1, h2]; simp [h3]

/-- A file system with an old and a new file. -/
def someFiles : FileSys Nat := fun
  | 0 => some ⟨10, false⟩
  | 1 => some ⟨20, false⟩
  | 2 => some ⟨20, false⟩
  | 3 => some ⟨30, true⟩
  | _ => none

example : isOlder someFiles 0 1 = .ok true ∧ isOlder someFiles 1 2 = .ok false ∧
    isOlder someFiles 4 0 = .ok true ∧ isOlder someFiles 0 4 = .ok false ∧
    isOlder someFiles 4 5 = .error (4, 5) := ⟨rfl, rfl, rfl, rfl, rfl⟩

/-! ## C12 -/

theorem allOf_true {α E : Type} {f : α → Except E Bool} {l : List α} :
    allOf f l = .ok true ↔ ∀ x ∈ l, f x = .ok true := by
  induction l with
  | nil => simp [allOf]
  | cons a l ih =>
    simp only [allOf]
    split
    · rename_i h; simp [h]
    · rename_i h; simp [h]
    · rename_i h; simp [h, ih]

theorem allOf_error {α E : Type} {f : α → Except E Bool} {l : List α} {e : E}
    (h : allOf f l = .error e) : ∃ x ∈ l, f x = .error e := by
  induction l with
  | nil => simp [allOf] at h
  | cons a l ih =>
    simp only [allOf] at h
    split at h
    · rename_i e' h'; simp at h; subst h; exact ⟨a, by simp, h'⟩
    · simp at h
    · obtain ⟨x, hx, hf⟩ := ih h; exact ⟨x, by simp [hx], hf⟩

theorem depIsOlder_true {fs : FileSys P} {d : Dep P} {p : P} : depIsOlder fs d p = .ok true ↔
    (isExternal d.origin = false → isDir fs d.name = false → StrictlyNewer fs p d.name) := by
  unfold depIsOlder
  cases isExternal d.origin <;> cases isDir fs d.name <;> simp [(C11_meaning fs d.name p).1]

theorem targetUpToDate_true {fs : FileSys P} {t : Task P} {p : P} :
    targetUpToDate fs t.src t.deps p = .ok true ↔
      (isDir fs p = false → ∀ q, Input fs t q → StrictlyNewer fs p q) := by
  unfold targetUpToDate
  split
  · rename_i h; simp [h]
  · rename_i h
    have h : isDir fs p = false := by simpa using h
    have hm := (C11_meaning fs t.src p).1
    constructor
    · intro hx _ q hq
      split at hx
      · simp at hx
      · simp at hx
      · rename_i ho
        rcases hq with rfl | ⟨d, hd, rfl, he, hdir⟩
        · exact hm.mp ho
        · exact depIsOlder_true.mp (allOf_true.mp hx d hd) he hdir
    · intro hx
      have hs := hx h t.src (.inl rfl)
      rw [hm.mpr hs]
      simp only
      rw [allOf_true]
      intro d hd
      rw [depIsOlder_true]
      intro he hdir
      exact hx h d.name (.inr ⟨d, hd, rfl, he, hdir⟩)

theorem isUpToDate_true {fs : FileSys P} {t : Task P} : isUpToDate fs t = .ok true ↔ UpToDate fs t := by
  unfold isUpToDate UpToDate
  rw [allOf_true]
  constructor
  · intro h p hp; exact targetUpToDate_true.mp (h p hp)
  · intro h p hp; exact targetUpToDate_true.mpr (h p hp)

/-- **C12.** Nothing is executed iff the build is not forced, the policy is not "always", and every
target is a directory, or exists and is strictly newer than the source and all
dependencies that are neither external nor directories. -/
theorem C12_skip (fs : FileSys P) (force : Bool) (t : Task P) :
    shouldRun fs force t = .ok false ↔
      force = false ∧ t.policy ≠ .always ∧ UpToDate fs t := by
  rw [← isUpToDate_true]
  unfold shouldRun
  cases force <;> simp
  split
  · rename_i h; simp [h]
  · rename_i h
    cases hu : isUpToDate fs t with
    | error e => simp
    | ok b => cases b <;> simp [h]

/-- **C12.** When the source exists, the command is executed iff the build is forced, or the policy is "always", or some
target that is not a directory is missing or not strictly newer than some input. -/
theorem C12_run (fs : FileSys P) (force : Bool) (t : Task P) (hsrc : Exists fs t.src) :
    shouldRun fs force t = .ok true ↔ force = true ∨ t.policy = .always ∨
      ∃ p ∈ t.targets, isDir fs p = false ∧
        (¬ Exists fs p ∨ ∃ q sq sp, Input fs t q ∧ fs q = some sq ∧ fs p = some sp ∧ sp.mtime ≤ sq.mtime) := by
  have hnoerr : ∀ e, shouldRun fs force t ≠ .error e := by
    intro e h
    unfold shouldRun at h
    split at h
    · simp at h
    · split at h
      · simp at h
      · split at h
        · rename_i e' he
          obtain ⟨p, hp, hpe⟩ := allOf_error he
          obtain ⟨ss, hss⟩ := hsrc
          unfold targetUpToDate at hpe
          split at hpe
          · simp at hpe
          · split at hpe
            · rename_i e'' ho
              simp [isOlder, hss] at ho
              split at ho <;> simp_all
            · simp at hpe
            · rename_i ho
              obtain ⟨d, hd, hde⟩ := allOf_error hpe
              unfold depIsOlder at hde
              split at hde
              · simp at hde
              · obtain ⟨sp, hsp, _⟩ := (C11_meaning fs t.src p).1.mp ho
                have := (C11_error fs d.name p).1.mp ⟨_, hde⟩
                exact this.2 ⟨sp, hsp⟩
        · simp at h
  have hiff : shouldRun fs force t = .ok true ↔ shouldRun fs force t ≠ .ok false := by
    cases hs : shouldRun fs force t with
    | error e => exact absurd hs (hnoerr e)
    | ok b => cases b <;> simp
  rw [hiff, ne_eq, C12_skip]
  constructor
  · intro h
    cases force with
    | true => exact .inl rfl
    | false =>
      by_cases hp : t.policy = .always
      · exact .inr (.inl hp)
      · right; right
        have hup : ¬ UpToDate fs t := fun hu => h ⟨rfl, hp, hu⟩
        unfold UpToDate at hup
        simp only [Classical.not_forall] at hup
        obtain ⟨p, hp, hd, q, hq, hn⟩ := hup
        refine ⟨p, hp, hd, ?_⟩
        cases hfp : fs p with
        | none => left; rintro ⟨st, hst⟩; rw [hfp] at hst; cases hst
        | some sp =>
          right
          cases hfq : fs q with
          | none => exact absurd ⟨sp, hfp, fun sq h => by rw [hfq] at h; cases h⟩ hn
          | some sq =>
            refine ⟨q, sq, sp, hq, hfq, rfl, ?_⟩
            apply Nat.le_of_not_lt
            intro hlt
            exact hn ⟨sp, hfp, fun sq' h => by rw [hfq] at h; simp at h; subst h; exact hlt⟩
  · rintro (rfl | hp | ⟨p, hp, hd, hbad⟩) ⟨h1, h2, h3⟩
    · cases h1
    · exact h2 hp
    · rcases hbad with hne | ⟨q, sq, sp, hq, hfq, hfp, hle⟩
      · obtain ⟨sp, hsp, _⟩ := h3 p hp hd t.src (.inl rfl)
        exact hne ⟨sp, hsp⟩
      · obtain ⟨sp', hsp', hall⟩ := h3 p hp hd q hq
        rw [hfp] at hsp'; simp at hsp'; subst hsp'
        have := hall sq hfq
        omega

/-- **C12.** An exception means that the source and some target do not exist. -/
theorem C12_error (fs : FileSys P) (force : Bool) (t : Task P) {e : P × P}
    (h : shouldRun fs force t = .error e) :
    ¬ Exists fs t.src ∧ ∃ p ∈ t.targets, ¬ Exists fs p := by
  have hsrc : ¬ Exists fs t.src := by
    intro hs
    have hr := C12_run fs force t hs
    have hk := C12_skip fs force t
    rw [h] at hr hk
    simp only [reduceCtorEq, false_iff, Classical.not_and_iff_not_or_not] at hr hk
    simp only [not_or] at hr
    obtain ⟨h1, h2, h3⟩ := hr
    rcases hk with hk | hk | hk
    · exact hk (by simpa using h1)
    · exact hk h2
    · apply hk
      intro p hp hd q hq
      have hn : ¬ (¬ Exists fs p ∨ ∃ q sq sp, Input fs t q ∧ fs q = some sq ∧ fs p = some sp ∧ sp.mtime ≤ sq.mtime) :=
        fun hbad => h3 ⟨p, hp, hd, hbad⟩
      simp only [not_or, Classical.not_not] at hn
      obtain ⟨⟨sp, hsp⟩, hn2⟩ := hn
      refine ⟨sp, hsp, fun sq hsq => ?_⟩
      apply Nat.lt_of_not_le
      intro hle
      exact hn2 ⟨q, sq, sp, hq, hsq, hsp, hle⟩
  refine ⟨hsrc, ?_⟩
  unfold shouldRun at h
  split at h
  · simp at h
  · split at h
    · simp at h
    · split at h
      · rename_i e' he
        obtain ⟨p, hp, hpe⟩ := allOf_error he
        refine ⟨p, hp, ?_⟩
        unfold targetUpToDate at hpe
        split at hpe
        · simp at hpe
        · split at hpe
          · rename_i ho
            exact ((C11_error fs t.src p).1.mp ⟨_, ho⟩).2
          · simp at hpe
          · obtain ⟨d, hd, hde⟩ := allOf_error hpe
            unfold depIsOlder at hde
            split at hde
            · simp at hde
            · exact ((C11_error fs d.name p).1.mp ⟨_, hde⟩).2
      · simp at h

/-- Up to date, out of date because of a dependency, missing target, directory as target. -/
example : shouldRun someFiles false { src := 0, targets := [1, 3], deps := [⟨0, .project, none, []⟩, ⟨9, .system, none, []⟩] } = .ok false ∧
    shouldRun someFiles false { src := 0, targets := [1], deps := [⟨2, .project, none, []⟩] } = .ok true ∧
    shouldRun someFiles false { src := 0, targets := [7], deps := [] } = .ok true ∧
    shouldRun someFiles false { src := 0, targets := [1], deps := [], policy := .always } = .ok true ∧
    shouldRun someFiles false { src := 8, targets := [7], deps := [] } = .error (8, 7) :=
  ⟨rfl, rfl, rfl, rfl, rfl⟩

end Maike.Build
