import Verif.Props.C24

/-
C25 absPath never writes beyond the caller's buffer: false for buffers of less than 2 bytes, because "/" is copied before the
size is looked at. For buffers of 2 bytes or more (and lengths below 32768) it holds, and EINVAL is
reported exactly if there is no room for the text put together.
-/
namespace Cmm.Environ
open Cmm.Str Cmm.Err

/-- Nothing outside the buffer changes; the error return with EINVAL of a text too long. -/
theorem C25_partial (c : Cst) (stat : Mem → Word → Word × Word) (e : ESt) (path buf : Word) (bufSiz : Nat)
    (t : List Byte) (d : List (List Byte)) (n : Nat) (hc : Call c e path buf bufSiz t n)
    (hs : Start c e buf bufSiz t d n) :
    ∃ r e', absPath c stat e path buf (BitVec.ofNat 16 bufSiz) = some (r, e') ∧
      SameExcept e.mem e'.mem buf bufSiz ∧
      (bufSiz ≤ n + t.length + 2 → r = true ∧ e'.errno = EINVAL) := by
  obtain ⟨full, h1, h2, h3, h4⟩ := hs.full hc
  have hl := hc.len
  rcases absPath_spec (stat := stat) hc.size hc.size_lt hc.str hc.apart hc.slash hc.slash_apart h1 (by omega) h3 with
    ⟨_, m, e1, e2⟩ | ⟨h5, m1, a, b, e2, _, _, _, ⟨_, e1⟩ | ⟨_, _, e1⟩ | ⟨_, _, m, e1, e3, _⟩⟩
  · exact ⟨_, _, e1, e2, fun _ => ⟨rfl, rfl⟩⟩
  · exact ⟨_, _, e1, e2, fun h => by omega⟩
  · exact ⟨_, _, e1, e2, fun h => by omega⟩
  · exact ⟨_, _, e1, e3, fun h => by omega⟩

/-- With a buffer of one byte, absPath of an absolute path writes the byte behind it. -/
theorem C25_false : ∃ (c : Cst) (e : ESt) (path buf : Word) (stat : Mem → Word → Word × Word) (r : Bool) (e' : ESt),
    IsStr e.mem path [47#8] ∧ IsStr e.mem c.slash [47#8] ∧ Apart buf 2 path 2 ∧ Apart buf 2 c.slash 2 ∧
    absPath c stat e path buf 1#16 = some (r, e') ∧ e'.mem (off buf 1) ≠ e.mem (off buf 1) := by
  let m : Mem := fun a => if a = 50#16 ∨ a = 60#16 then 47#8 else if a = 201#16 then 7#8 else 0#8
  let c : Cst := ⟨0, 0, 0, 50#16⟩
  let e : ESt := ⟨⟨m, 0⟩, 0, 0, 0, 0⟩
  have h1 : IsStr m 60#16 [47#8] := ⟨by
    intro k hk
    have : k < 1 := hk
    interval_cases k
    rfl, by decide, by decide, by decide⟩
  have h2 : IsStr m 50#16 [47#8] := ⟨by
    intro k hk
    have : k < 1 := hk
    interval_cases k
    rfl, by decide, by decide, by decide⟩
  have ha : Apart 200#16 2 60#16 2 := fun i j hi hj e =>
    apart_of_nat 60 2 200 2 (by decide) (by decide) j i hj hi e.symm
  have hb : Apart 200#16 2 50#16 2 := fun i j hi hj e =>
    apart_of_nat 50 2 200 2 (by decide) (by decide) j i hj hi e.symm
  obtain ⟨m', e1, e2, _, e4⟩ := C02_strCpy m 200#16 50#16 [47#8] h2 hb
  have hst : absStart c e 60#16 200#16 1#16 = some (some m') := by
    unfold absStart
    rw [if_pos (show e.mem 60#16 = 47#8 from rfl)]
    show (strCpy m 200#16 50#16 >>= _) = _
    rw [e1]
    rfl
  have h1' : IsStr m' 60#16 [47#8] := IsStr_keep h1 e4 ha
  refine ⟨c, e, 60#16, 200#16, fun _ _ => (0, 0), true, { e.setMem m' with errno := EINVAL }, h1, h2, ha, hb, ?_, ?_⟩
  · unfold absPath
    rw [hst]
    simp only [Option.bind_eq_bind, Option.bind_some]
    rw [strLen_eq e2, strLen_eq h1']
    rfl
  · have : m' (off 200#16 1) = 0#8 := e2.nul
    show m' (off 200#16 1) ≠ m (off 200#16 1)
    rw [this]
    decide

/-- The call of C24 stays in its buffer of 80 bytes; with 14 bytes EINVAL is reported. -/
example : ∃ r e', absPath demoCst (fun _ _ => (0, 0x10)) demoSt 100#16 200#16 80#16 = some (r, e') ∧
    SameExcept demoMem e'.mem 200#16 80 := by
  obtain ⟨r, e', h1, h2, _⟩ := C25_partial _ (fun _ _ => (0, 0x10)) _ _ _ _ _ [] 0 demoCall (.inl ⟨rfl, rfl, rfl⟩)
  exact ⟨r, e', h1, h2⟩

end Cmm.Environ
