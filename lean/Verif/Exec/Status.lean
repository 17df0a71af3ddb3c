/-!
# Exit status of recipes (C37)

core/exec/exit_status.hpp, core/exec/result.hpp and the decoding of wait statuses in core/exec/execve.cpp. The macros of `sys/wait.h` are
those of glibc on Linux (bits/waitstatus.h).
-/

namespace Maike.Exec

/-! ## Model -/

/-- `WTERMSIG`: `status & 0x7f` -/
def wtermsig (status : Nat) : Nat := status &&& 0x7f

/-- `WEXITSTATUS`: `(status & 0xff00) >> 8` -/
def wexitstatus (status : Nat) : Nat := (status &&& 0xff00) >>> 8

/-- `WIFEXITED`: `WTERMSIG(status) == 0` -/
def wifexited (status : Nat) : Bool := wtermsig status == 0

/-- `WIFSIGNALED`: `((signed char)((status & 0x7f) + 1) >> 1) > 0`. The conversion to `signed char` makes 128 negative. -/
def wifsignaled (status : Nat) : Bool :=
  let x := (status &&& 0x7f) + 1
  x < 128 && (x >>> 1 > 0)

/-- `ExitStatus`, core/exec/exit_status.hpp:9-47. `none` is an indeterminate value: the members have no initialisers. -/
structure ExitStatus where
  signo : Option Int := none
  returnCode : Option Int := none
deriving DecidableEq, Repr

/-- `signo(int)`, core/exec/exit_status.hpp:17-21. -/
def ExitStatus.setSigno (e : ExitStatus) (s : Int) : ExitStatus := { e with signo := some s }

/-- `returnCode(int)`, core/exec/exit_status.hpp:23-28. -/
def ExitStatus.setReturnCode (e : ExitStatus) (s : Int) : ExitStatus := { e with signo := some (-1), returnCode := some s }

/-- `ExitStatus::success`, core/exec/exit_status.hpp:12-15. -/
def ExitStatus.success : ExitStatus := ExitStatus.setReturnCode {} 0

/-- `failed`, core/exec/exit_status.hpp:50-55 and core/exec/result.hpp:48-53. `none`: an indeterminate value is read, which is
undefined behaviour. -/
def failed (e : ExitStatus) : Option Bool :=
  e.signo.bind fun s => if s ≠ -1 then some true else e.returnCode.map fun c => c ≠ 0

/-- The end of `communicateWith`, core/exec/execve.cpp:148-154. `none` is `abort()`. -/
def decode (status : Nat) : Option ExitStatus :=
  if wifexited status then some (ExitStatus.setReturnCode {} (wexitstatus status))
  else if wifsignaled status then some (ExitStatus.setSigno {} (wtermsig status))
  else none

/-! ## Specification -/

/-- How a process can end. -/
inductive End where
  /-- by a call to `exit`, or by return from `main` -/
  | exited (code : Nat)
  /-- by a signal, with or without a core dump -/
  | killed (sig : Nat) (core : Bool)

/-- There are 64 signals on Linux, and exit codes have eight bits. -/
def End.Valid : End → Prop
  | .exited code => code < 256
  | .killed sig _ => 1 ≤ sig ∧ sig ≤ 64

/-- The status which the kernel passes to `waitpid`. -/
def End.status : End → Nat
  | .exited code => 256 * code
  | .killed sig core => sig + if core then 128 else 0

/-! ## Theorems -/

theorem low_bits (n : Nat) : n &&& 0x7f = n % 128 := Nat.and_two_pow_sub_one_eq_mod n 7

theorem high_bits (n : Nat) : (n &&& 0xff00) >>> 8 = n / 256 % 256 := by
  have h1 : (n &&& 0xff00) >>> 8 = (n >>> 8) &&& (0xff00 >>> 8) := Nat.shiftRight_and_distrib
  rw [h1]
  have h2 : (0xff00 >>> 8 : Nat) = 2 ^ 8 - 1 := rfl
  rw [h2, Nat.and_two_pow_sub_one_eq_mod, Nat.shiftRight_eq_div_pow]

/-- **C37.** Whatever way a process ends, this is understood, and it counts as failed exactly if it was killed or its exit code was not
zero. No indeterminate value is read. -/
theorem C37_failed (e : End) (h : e.Valid) :
    ∃ st, decode e.status = some st ∧
      failed st = some (match e with
        | .exited code => code ≠ 0
        | .killed _ _ => true) := by
  cases e with
  | exited code =>
    simp only [End.Valid] at h
    have h1 : wtermsig (256 * code) = 0 := by unfold wtermsig; rw [low_bits]; omega
    have h2 : wexitstatus (256 * code) = code := by unfold wexitstatus; rw [high_bits]; omega
    refine ⟨ExitStatus.setReturnCode {} code, by simp [decode, End.status, wifexited, h1, h2], ?_⟩
    have : ((code : Int) ≠ 0) ↔ code ≠ 0 := by omega
    simp [failed, ExitStatus.setReturnCode]
  | killed sig core =>
    simp only [End.Valid] at h
    have h1 : wtermsig (End.status (.killed sig core)) = sig := by
      unfold wtermsig; rw [low_bits]; unfold End.status; cases core <;> simp <;> omega
    have h2 : wifsignaled (End.status (.killed sig core)) = true := by
      have : End.status (.killed sig core) &&& 0x7f = sig := h1
      unfold wifsignaled
      simp only [this, Bool.and_eq_true, decide_eq_true_eq]
      refine ⟨by omega, ?_⟩
      rw [Nat.shiftRight_eq_div_pow]
      omega
    refine ⟨ExitStatus.setSigno {} sig, ?_, ?_⟩
    · unfold decode
      have : wifexited (End.status (.killed sig core)) = false := by
        simp only [wifexited, h1, beq_eq_false_iff_ne]; omega
      rw [this, h2, h1]
      rfl
    · simp [failed, ExitStatus.setSigno]

/-- **C37.** The exit code, and the number of the signal, are passed on. -/
theorem C37_values (e : End) (h : e.Valid) :
    decode e.status = some (match e with
      | .exited code => ⟨some (-1), some code⟩
      | .killed sig _ => ⟨some sig, none⟩) := by
  cases e with
  | exited code =>
    simp only [End.Valid] at h
    have h1 : wtermsig (256 * code) = 0 := by unfold wtermsig; rw [low_bits]; omega
    have h2 : wexitstatus (256 * code) = code := by unfold wexitstatus; rw [high_bits]; omega
    simp [decode, End.status, wifexited, h1, h2, ExitStatus.setReturnCode]
  | killed sig core =>
    simp only [End.Valid] at h
    have h1 : wtermsig (End.status (.killed sig core)) = sig := by
      unfold wtermsig; rw [low_bits]; unfold End.status; cases core <;> simp <;> omega
    have h2 : wifsignaled (End.status (.killed sig core)) = true := by
      have : End.status (.killed sig core) &&& 0x7f = sig := h1
      unfold wifsignaled
      simp only [this, Bool.and_eq_true, decide_eq_true_eq]
      refine ⟨by omega, ?_⟩
      rw [Nat.shiftRight_eq_div_pow]
      omega
    unfold decode
    have : wifexited (End.status (.killed sig core)) = false := by
      simp only [wifexited, h1, beq_eq_false_iff_ne]; omega
    rw [this, h2, h1]
    rfl

/-- **C37.** For every status at all: the program aborts exactly for those that are not about the end of a process. -/
theorem C37_abort (status : Nat) : decode status = none ↔ status % 128 = 127 := by
  unfold decode wifexited wifsignaled wtermsig
  simp only [low_bits]
  have hlt : status % 128 < 128 := Nat.mod_lt _ (by decide)
  by_cases h0 : status % 128 = 0
  · simp [h0]
  · simp only [beq_iff_eq, h0, if_false]
    by_cases h1 : status % 128 = 127
    · simp [h1]
    · have : (status % 128 + 1) >>> 1 > 0 := by rw [Nat.shiftRight_eq_div_pow]; omega
      have h2 : status % 128 + 1 < 128 := by omega
      simp [this, h2, h1]

/-- **C37.** The result reported by a dry run is not a failure. -/
theorem C37_success : failed ExitStatus.success = some false := rfl

/-- Why `failed` has to look at the signal first: the return code of a killed process is indeterminate. -/
example : (ExitStatus.setSigno {} 11).returnCode = none ∧ failed (ExitStatus.setSigno {} 11) = some true := ⟨rfl, rfl⟩

example : End.Valid (.exited 3) ∧ End.Valid (.killed 9 true) := by simp [End.Valid]

end Maike.Exec
