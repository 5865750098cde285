import Verif.Lib.Crt0

/- Model of the error table of lib/SrcTac/stdio.cmm and of the constants of
include/errno.hmm. -/
namespace Cmm.Err

/-- include/errno.hmm `ENAME` -/
def ENAME : Word := BitVec.ofInt 16 (-1)
/-- include/errno.hmm `ENOENT` -/
def ENOENT : Word := BitVec.ofInt 16 (-2)
/-- include/errno.hmm `EEXIST` -/
def EEXIST : Word := BitVec.ofInt 16 (-3)
/-- include/errno.hmm `EOPENED` -/
def EOPENED : Word := BitVec.ofInt 16 (-4)
/-- include/errno.hmm `ENFILE` -/
def ENFILE : Word := BitVec.ofInt 16 (-5)
/-- include/errno.hmm `EBADF` -/
def EBADF : Word := BitVec.ofInt 16 (-6)
/-- include/errno.hmm `ENOSPC` -/
def ENOSPC : Word := BitVec.ofInt 16 (-7)
/-- include/errno.hmm `EPATH` -/
def EPATH : Word := BitVec.ofInt 16 (-8)
/-- include/errno.hmm `EMODE` -/
def EMODE : Word := BitVec.ofInt 16 (-9)
/-- include/errno.hmm `EFATTR` -/
def EFATTR : Word := BitVec.ofInt 16 (-10)
/-- include/errno.hmm `ENOTEMP` -/
def ENOTEMP : Word := BitVec.ofInt 16 (-11)
/-- include/errno.hmm `EINVAL` -/
def EINVAL : Word := BitVec.ofInt 16 (-12)
/-- include/errno.hmm `EMPROC` -/
def EMPROC : Word := BitVec.ofInt 16 (-13)
/-- include/errno.hmm `ENOEXEC` -/
def ENOEXEC : Word := BitVec.ofInt 16 (-14)
/-- include/errno.hmm `EMAGIC` -/
def EMAGIC : Word := BitVec.ofInt 16 (-15)
/-- include/errno.hmm `EMFILE` -/
def EMFILE : Word := BitVec.ofInt 16 (-16)
/-- include/errno.hmm `ECHILD` -/
def ECHILD : Word := BitVec.ofInt 16 (-17)
/-- include/errno.hmm `ENOZOMBIE` -/
def ENOZOMBIE : Word := BitVec.ofInt 16 (-18)
/-- include/errno.hmm `ENOMEM` -/
def ENOMEM : Word := BitVec.ofInt 16 (-19)
/-- include/errno.hmm `EAGAIN` -/
def EAGAIN : Word := BitVec.ofInt 16 (-20)
/-- include/errno.hmm `ESYSNUM` -/
def ESYSNUM : Word := BitVec.ofInt 16 (-21)
/-- include/errno.hmm `EZERODIV` -/
def EZERODIV : Word := BitVec.ofInt 16 (-22)
/-- include/errno.hmm `EPRIVVIO` -/
def EPRIVVIO : Word := BitVec.ofInt 16 (-23)
/-- include/errno.hmm `EILLINST` -/
def EILLINST : Word := BitVec.ofInt 16 (-24)
/-- include/errno.hmm `EMEMVIO` -/
def EMEMVIO : Word := BitVec.ofInt 16 (-25)
/-- include/errno.hmm `EUSTK` -/
def EUSTK : Word := BitVec.ofInt 16 (-26)
/-- include/errno.hmm `EUMODE` -/
def EUMODE : Word := BitVec.ofInt 16 (-27)
/-- include/errno.hmm `EUBADF` -/
def EUBADF : Word := BitVec.ofInt 16 (-28)
/-- include/errno.hmm `EUEOF` -/
def EUEOF : Word := BitVec.ofInt 16 (-29)
/-- include/errno.hmm `EUNFILE` -/
def EUNFILE : Word := BitVec.ofInt 16 (-30)
/-- include/errno.hmm `EUSTDIO` -/
def EUSTDIO : Word := BitVec.ofInt 16 (-31)
/-- include/errno.hmm `EUFMT` -/
def EUFMT : Word := BitVec.ofInt 16 (-32)
/-- include/errno.hmm `EUNOMEM` -/
def EUNOMEM : Word := BitVec.ofInt 16 (-33)
/-- include/errno.hmm `EUBADA` -/
def EUBADA : Word := BitVec.ofInt 16 (-34)
/-- include/errno.hmm `ELAST` -/
def ELAST : Word := BitVec.ofInt 16 (-34)

/-- stdio.cmm:340-383 -/
def errList : List String := [
  "Undefined error",
  "Invalid file name",
  "No such file or directrory",
  "File exists",
  "File is opened",
  "File table overflow",
  "Bad file number",
  "No space left on device",
  "Bad path",
  "Bad mode",
  "Bad attribute",
  "Directory is not empty",
  "Invalid argument",
  "Process table overflow",
  "Bad EXE file",
  "Bad MAGIC number",
  "Too many open files",
  "No children",
  "No zombie children",
  "Not enough memory",
  "Try again",
  "Invalid system call number",
  "Zero division",
  "Privilege violation",
  "Illegal instruction",
  "Memory violation",
  "Stack overflow",
  "stdio: Bad open mode",
  "stdio: Bad file pointer",
  "fgetc: EOF was ignored",
  "fopen: Too many open files",
  "fclose: Standard i/o should not be closed",
  "fprintf: Invalid conversion",
  "malloc: Insufficient memory",
  "free: Bad address"]

/-- stdio.cmm:386: the error number after the range check of `_perror`. -/
def clampErr (err : Word) : Word := if ilt err ELAST || ile 0 err then 0 else err

/-- stdio.cmm:389: the index `-err` used to read `errList`. -/
def perrorIndex (err : Word) : Nat := (-(clampErr err)).toNat

/-- stdio.cmm:385-390: the text printed after the optional prefix; `none` is a read outside
the table. -/
def perrorText (err : Word) : Option String := errList[perrorIndex err]?

end Cmm.Err
