import Verif.Db.Model

/-!
# Names of enumerated settings

Strings are C strings: no terminating NUL is modelled, and `strcmp(a, b) == 0` is equality. `none` stands for an exception.
-/

namespace Maike.Text

open Maike.Db (Origin RebuildPolicy)

/-- `LogFormat`, core/db/log_format.hpp:11-15. -/
inductive LogFormat where
  | plainText
  | ansiTerm
deriving DecidableEq, Repr

/-- `CompilationLog::LogLevel`, core/db/compilation_log.hpp:25-30. -/
inductive LogLevel where
  | errors
  | sourceFileInfo
  | compilationCommand
deriving DecidableEq, Repr

/-- `FilenameExtReplacementMode`, core/source_file_info_loaders/generic/source_file_loader.hpp:12-16. -/
inductive ExtMode where
  | append
  | replace
deriving DecidableEq, Repr

/-- `fromString`, core/db/rebuild_policy.cpp:9-18. -/
def rebuildPolicyFromString (s : String) : Option RebuildPolicy :=
  if s = "always" then some .always
  else if s = "only_if_out_of_date" then some .onlyIfOutOfDate
  else none

/-- `toString`, core/db/rebuild_policy.cpp:20-29. -/
def rebuildPolicyToString : RebuildPolicy → String
  | .always => "always"
  | .onlyIfOutOfDate => "only_if_out_of_date"

/-- `fromString`, core/db/source_file_origin.cpp:9-27. -/
def originFromString (s : String) : Option Origin :=
  if s = "generated" then some .generated
  else if s = "project" then some .project
  else if s = "system" then some .system
  else if s = "pkg-config" then some .pkgConfig
  else none

/-- `toString`, core/db/source_file_origin.cpp:29-42. -/
def originToString : Origin → String
  | .project => "project"
  | .system => "system"
  | .pkgConfig => "pkg-config"
  | .generated => "generated"

/-- `fromString`, core/db/log_format.cpp:9-16. -/
def logFormatFromString (s : String) : Option LogFormat :=
  if s = "plain_text" then some .plainText
  else if s = "ansi_term" then some .ansiTerm
  else none

/-- `toString`, core/db/log_format.cpp:18-28. -/
def logFormatToString : LogFormat → String
  | .plainText => "plain_text"
  | .ansiTerm => "ansi_term"

/-- `fromString`, core/db/compilation_log.cpp:112-123. -/
def logLevelFromString (s : String) : Option LogLevel :=
  if s = "errors" then some .errors
  else if s = "source_file_info" then some .sourceFileInfo
  else if s = "compilation_command" then some .compilationCommand
  else none

/-- `toString`, core/db/compilation_log.cpp:125-138. -/
def logLevelToString : LogLevel → String
  | .errors => "errors"
  | .sourceFileInfo => "source_file_info"
  | .compilationCommand => "compilation_command"

/-- `fromString`, core/source_file_info_loaders/generic/source_file_loader.cpp:9-21. -/
def extModeFromString (s : String) : Option ExtMode :=
  if s = "append" then some .append
  else if s = "replace" then some .replace
  else none

/-- `toString`, core/source_file_info_loaders/generic/source_file_loader.cpp:23-31. -/
def extModeToString : ExtMode → String
  | .append => "append"
  | .replace => "replace"

/-! ## Specification -/

/-- `parse` accepts exactly the names given by `print`, and gives back the value that was printed; different values have
different names. -/
structure Names {α : Type} (parse : String → Option α) (print : α → String) : Prop where
  roundTrip : ∀ v, parse (print v) = some v
  onlyNames : ∀ s v, parse s = some v → s = print v
  distinct : ∀ v w, print v = print w → v = w

theorem Names.of {α : Type} {parse : String → Option α} {print : α → String} (h1 : ∀ v, parse (print v) = some v)
    (h2 : ∀ s v, parse s = some v → s = print v) : Names parse print :=
  ⟨h1, h2, fun v w e => by
    have := h1 v
    rw [e, h1 w] at this
    exact (Option.some.inj this).symm⟩

/-! ## Theorems -/

/-- **C30** for rebuild policies. -/
theorem C30_rebuildPolicy : Names rebuildPolicyFromString rebuildPolicyToString := by
  apply Names.of
  · intro v; cases v <;> decide
  · intro s v h
    unfold rebuildPolicyFromString at h
    repeat' split at h
    all_goals first | (cases h; assumption) | cases h

/-- **C30** for origins. -/
theorem C30_origin : Names originFromString originToString := by
  apply Names.of
  · intro v; cases v <;> decide
  · intro s v h
    unfold originFromString at h
    repeat' split at h
    all_goals first | (cases h; assumption) | cases h

/-- **C30** for log formats. -/
theorem C30_logFormat : Names logFormatFromString logFormatToString := by
  apply Names.of
  · intro v; cases v <;> decide
  · intro s v h
    unfold logFormatFromString at h
    repeat' split at h
    all_goals first | (cases h; assumption) | cases h

/-- **C30** for log levels. -/
theorem C30_logLevel : Names logLevelFromString logLevelToString := by
  apply Names.of
  · intro v; cases v <;> decide
  · intro s v h
    unfold logLevelFromString at h
    repeat' split at h
    all_goals first | (cases h; assumption) | cases h

/-- **C30** for the modes of replacing a file name extension. -/
theorem C30_extMode : Names extModeFromString extModeToString := by
  apply Names.of
  · intro v; cases v <;> decide
  · intro s v h
    unfold extModeFromString at h
    repeat' split at h
    all_goals first | (cases h; assumption) | cases h

/-- Every other string is rejected. -/
example : originFromString "Project" = none := by decide

end Maike.Text
