import Verif.Conf.Driver
import Verif.Conf.Ic

/-
The modelled compiler as a program (tools/conform.sh). It is not part of any proof.
-/
open Cmm.Conf Cmm.Parse

/-- Arguments: the file, then `vm` for vm2vm.c or `ic` for vm2ic.c, `O0` and `K` for the options of these names. With `cov` the decidable conditions of
C67 on functions are printed. -/
def main (args : List String) : IO Unit := do
  let o : Opts := ⟨!args.contains "O0", args.contains "K"⟩
  let src := (← IO.FS.readBinFile (args.headD "")).toList.map (·.toNat)
  if args.contains "cov" then
    match accept o src with
    | none => IO.println "rejected"
    | some s =>
      let id : Label → Int := fun l => ((s.tab.map Ent.label).eraseDups.idxOf l : Nat)
      let void : Int → Bool := fun i => s.tab.any fun e =>
        id e.label == i && (e.scope == ScPROT || e.scope == ScFUNC) && e.type == TyVOID && e.dim == 0
      for fn in prog id o (fun _ => 0) s.out do
        let ok := tameS ⟨fn.cnt, void⟩ fn.body && decide (Cmm.Tac.needS fn.body ≤ 20) && Cmm.Tac.mulS fn.body && Cmm.Tac.fitS fn.cnt fn.body
        IO.println s!"{fn.f} {ok}"
  else
    match if args.contains "ic" then icAsm o src else asm (args.contains "vm") o src with
    | some x => IO.print (String.ofList x)
    | none => IO.println "rejected"
