import Verif.Lib.Errno

/-! C26: error reporting. -/
namespace Cmm.Err
open Cmm.Crt0

/-- doc/chap4.tex:395-430 The messages the manual gives to the errors (the last nine are those
the library itself raises). -/
def libMessage : List (Word × String) :=
  [(ENAME, "Invalid file name"),
   (ENOENT, "No such file or directrory"),
   (EEXIST, "File exists"),
   (EOPENED, "File is opened"),
   (ENFILE, "File table overflow"),
   (EBADF, "Bad file number"),
   (ENOSPC, "No space left on device"),
   (EPATH, "Bad path"),
   (EMODE, "Bad mode"),
   (EFATTR, "Bad attribute"),
   (ENOTEMP, "Directory is not empty"),
   (EINVAL, "Invalid argument"),
   (EMPROC, "Process table overflow"),
   (ENOEXEC, "Bad EXE file"),
   (EMAGIC, "Bad MAGIC number"),
   (EMFILE, "Too many open files"),
   (ECHILD, "No children"),
   (ENOZOMBIE, "No zombie children"),
   (ENOMEM, "Not enough memory"),
   (EAGAIN, "Try again"),
   (ESYSNUM, "Invalid system call number"),
   (EZERODIV, "Zero division"),
   (EPRIVVIO, "Privilege violation"),
   (EILLINST, "Illegal instruction"),
   (EMEMVIO, "Memory violation"),
   (EUSTK, "Stack overflow"),
   (EUMODE, "stdio: Bad open mode"),
   (EUBADF, "stdio: Bad file pointer"),
   (EUEOF, "fgetc: EOF was ignored"),
   (EUNFILE, "fopen: Too many open files"),
   (EUSTDIO, "fclose: Standard i/o should not be closed"),
   (EUFMT, "fprintf: Invalid conversion"),
   (EUNOMEM, "malloc: Insufficient memory"),
   (EUBADA, "free: Bad address")]

/-- A 16-bit int by its signed value. -/
theorem clampErr_cases (err : Word) :
    (-34 ≤ err.toInt ∧ err.toInt < 0 → clampErr err = err) ∧
    (¬ (-34 ≤ err.toInt ∧ err.toInt < 0) → clampErr err = 0) := by
  have e1 : (ilt err ELAST || ile 0 err) = decide (¬ (-34 ≤ err.toInt ∧ err.toInt < 0)) := by
    have hl : ELAST.toInt = -34 := by decide
    have h0 : (0 : Word).toInt = 0 := by decide
    rw [Bool.eq_iff_iff]
    simp only [ilt, ile, BitVec.slt_eq_decide, BitVec.sle_eq_decide, hl, h0, Bool.or_eq_true,
      decide_eq_true_eq]
    omega
  unfold clampErr
  rw [e1]
  constructor
  · intro h; simp [h]
  · intro h; rw [if_pos (decide_eq_true h)]

/-- _perror never reads outside the message table, whatever the error number. -/
theorem C26_in_bounds (err : Word) : perrorIndex err < errList.length ∧
    ∃ s, perrorText err = some s := by
  have hlen : errList.length = 35 := by decide
  have hb : perrorIndex err < 35 := by
    unfold perrorIndex
    by_cases h : -34 ≤ err.toInt ∧ err.toInt < 0
    · rw [(clampErr_cases err).1 h]
      have hlt := err.isLt
      rw [BitVec.toInt_eq_toNat_cond] at h
      rw [BitVec.toNat_neg]
      split at h <;> omega
    · rw [(clampErr_cases err).2 h]; decide
  refine ⟨by omega, ?_⟩
  exact ⟨_, List.getElem?_eq_getElem (by omega)⟩

/-- Error `-k` for `1 ≤ k ≤ 34` prints entry `k`, anything else entry 0. -/
theorem C26_entry (err : Word) : perrorIndex err =
    if -34 ≤ err.toInt ∧ err.toInt < 0 then (-err.toInt).toNat else 0 := by
  unfold perrorIndex
  by_cases h : -34 ≤ err.toInt ∧ err.toInt < 0
  · rw [(clampErr_cases err).1 h, if_pos h]
    have hlt := err.isLt
    rw [BitVec.toInt_eq_toNat_cond] at h ⊢
    rw [BitVec.toNat_neg]
    split at h <;> simp_all <;> omega
  · rw [(clampErr_cases err).2 h, if_neg h]; decide

/-- Every error constant of errno.hmm prints the message of the manual. -/
theorem C26_messages : ∀ p ∈ libMessage, perrorText p.1 = some p.2 := by decide

/-- The full claim "a stack overflow is reported as such" is false: whenever the start-up
code detects a stack overflow, the exit code prints "Memory violation". -/
theorem C26_stack_overflow_false (alcAddr sp e : Word) (h : stkChk alcAddr sp = some e) :
    e ≠ EUSTK ∧ e = EMEMVIO ∧ perrorText e = some "Memory violation" := by
  have : e = -25#16 := by
    unfold stkChk at h; split at h
    · cases h
    · injection h with h; exact h.symm
  subst this
  decide

/-- The overflow check itself stops exactly when fewer than 10 bytes remain between heap and
stack (as long as the heap end is below 65526). -/
theorem C26_stkChk_partial (alcAddr sp : Word) (h : alcAddr.toNat < 65526) :
    stkChk alcAddr sp = none ↔ alcAddr.toNat + 10 < sp.toNat := by
  unfold stkChk carrySub
  have : (alcAddr + 10).toNat = alcAddr.toNat + 10 := by
    have : (10 : Word).toNat = 10 := rfl
    rw [BitVec.toNat_add, this]; omega
  rw [this]
  simp

-- a detected overflow
example : stkChk 1000#16 1005#16 = some (-25#16) := by decide

end Cmm.Err
