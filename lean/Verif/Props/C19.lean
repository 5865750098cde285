import Verif.Props.C18
import Mathlib.Tactic.IntervalCases

/-! C19: printf consumes its arguments in order, copies ordinary text and counts what it writes. -/
namespace Cmm.Printf
open Cmm.Ctype Cmm.Str Cmm.Crt0 Cmm.Stdlib

/-! ### Specification -/

/-- The beginning of a conversion: `%`, perhaps `-`, digits of the width. -/
def head (lf : Bool) (ds : List Byte) : List Byte := 0x25#8 :: (if lf then [0x2d#8] else []) ++ ds

/-- The width denoted by the digits. -/
def width (ds : List Byte) : Nat := positional 10 (ds.filterMap decDigit?)

/-- Leading zeros are asked for by a width that starts with 0. -/
def zeroFlag (ds : List Byte) : Bool := decide (ds.head? = some 0x30#8)

/-- A legal width: digits only, value at most 32767. -/
def WidthOk (ds : List Byte) : Prop := (∀ c ∈ ds, 48 ≤ c.toNat ∧ c.toNat ≤ 57) ∧ width ds < 32768

/-- `Conv N m w lf zero k as t`: conversion `k` consumes the arguments `as` and prints `t`. `N` bounds the numbers for which
the `/` of the machine is right: 65536 if it is unsigned, 32768 if it is signed. The text of `%d` is the one C17 asks for, except that
the zeros of a zero padded negative number come before the sign (C17_d_false). -/
inductive Conv (N : Nat) (m : Mem) (w : Nat) (lf zero : Bool) : Byte → List Word → List Byte → Prop
  | d (a : Word) : a.toInt.natAbs < N →
      Conv N m w lf zero 0x64#8 [a] (field w lf (padOf zero) (signOf a.toInt ++ digitsOf a.toInt))
  | o (a : Word) : a.toNat < N → Conv N m w lf zero 0x6f#8 [a] (unsText 8 w lf zero a.toNat)
  | x (a : Word) : a.toNat < N → Conv N m w lf zero 0x78#8 [a] (unsText 16 w lf zero a.toNat)
  | c (a : Word) : Conv N m w lf zero 0x63#8 [a] (field w lf 0x20#8 [chr a])
  | s (a : Word) (t : List Byte) : IsStr m a t → t.length < 32768 → Conv N m w lf zero 0x73#8 [a] (field w lf 0x20#8 t)
  | pct : Conv N m w lf zero 0x25#8 [] [0x25#8]

/-- The characters that may follow the width. -/
def convChars : List Byte := [0x64#8, 0x6f#8, 0x78#8, 0x63#8, 0x73#8, 0x25#8]

/-- `Fmt N prot good m f as t`: with memory `m`, the format `f` applied to the arguments `as` prints `t` and then ends
normally (`good = true`) or meets an invalid conversion (`good = false`). `prot` are the bytes that the numbers printed
with `%ld` must not occupy (they are overwritten). -/
inductive Fmt (N : Nat) (prot : Word → Prop) (good : Bool) : Mem → List Byte → List Word → List Byte → Prop
  | done {m as} : good = true → Fmt N prot good m [] as []
  | lit {m c f as t} : c ≠ 0x25#8 → Fmt N prot good m f as t → Fmt N prot good m (c :: f) as (c :: t)
  | conv {m lf ds k f as bs t u} : WidthOk ds → Conv N m (width ds) lf (zeroFlag ds) k as t →
      Fmt N prot good m f bs u → Fmt N prot good m (head lf ds ++ k :: f) (as ++ bs) (t ++ u)
  | long {m lf ds a f as u} : WidthOk ds → val32 m a < 655360000 → (lf = false ∨ val32 m a < 10000) →
      (∀ i < 4, ¬ prot (off a i)) → (∀ m', Same4 m m' a → Fmt N prot good m' f as u) →
      Fmt N prot good m (head lf ds ++ 0x6c#8 :: 0x64#8 :: f) (a :: as) (unsText 10 (width ds) lf (zeroFlag ds) (val32 m a) ++ u)
  | bad {m lf ds f as} : good = false → (∀ c ∈ ds, 48 ≤ c.toNat ∧ c.toNat ≤ 57) →
      ¬ (48 ≤ (f.headD 0).toNat ∧ (f.headD 0).toNat ≤ 57) → (lf = false → ds = [] → f.headD 0 ≠ 0x2d#8) →
      f.headD 0 ≠ 0x6c#8 → f.headD 0 ∉ convChars → Fmt N prot good m (head lf ds ++ f) as []
  | badLong {m lf ds f as} : good = false → (∀ c ∈ ds, 48 ≤ c.toNat ∧ c.toNat ≤ 57) → f.headD 0 ≠ 0x64#8 →
      Fmt N prot good m (head lf ds ++ 0x6c#8 :: f) as []

/-- Writing characters to a stream one by one: the number of successes and the final state, or the way the program ended. -/
def write {σ : Type} (S : Strm σ) : List Byte → σ → Except Word (Nat × σ)
  | [], o => .ok (0, o)
  | c :: cs, o => match S.fputc c o with
    | .error e => .error e
    | .ok (err, o) => match write S cs o with
      | .error e => .error e
      | .ok (n, o) => .ok (if err then n else n + 1, o)

/-- What is visible of a run of print: the result and the stream, or the way the program ended. -/
def outcome {σ : Type} : E σ → Except Stop (Word × σ)
  | .ok s => .ok (s.cnt, s.out)
  | .error (st, _) => .error st

/-- What print is to do: write `t`; then return the number of successes modulo 65536, or end the program with EUFMT. -/
def expected {σ : Type} (S : Strm σ) (good : Bool) (t : List Byte) (o : σ) : Except Stop (Word × σ) :=
  match write S t o with
  | .error e => .error (.raw e)
  | .ok (n, o) => if good then .ok (BitVec.ofNat 16 n, o) else .error (.exit (-32))

/-! ### Strings in memory -/

theorem IsStr.drop {m : Mem} {a : Word} {u v : List Byte} (h : IsStr m a (u ++ v)) : IsStr m (off a u.length) v := by
  refine ⟨?_, fun c hc => h.nz c (List.mem_append_right _ hc), ?_, ?_⟩
  · intro k hk
    rw [off_off, h.bytes (u.length + k) (by simp; omega)]
    rw [List.getElem_append_right (by omega)]
    simp
  · rw [off_off, ← List.length_append]; exact h.nul
  · have := h.fits; simp at this; omega

theorem IsStr.headD {m : Mem} {a : Word} {u : List Byte} (h : IsStr m a u) : m a = u.headD 0 := by
  cases u with
  | nil => simpa using h.nul
  | cons c u => have := h.bytes 0 (by simp); simpa using this

theorem isDigit_iff (c : Byte) : isDigit c = true ↔ 48 ≤ c.toNat ∧ c.toNat ≤ 57 := C01_isDigit c

theorem widthLoop_spec {m : Mem} {fmt : Word} {rest : List Byte} (hr : ¬ (48 ≤ (rest.headD 0).toNat ∧ (rest.headD 0).toNat ≤ 57)) :
    ∀ (ds : List Byte) (i v : Nat), (∀ c ∈ ds, 48 ≤ c.toNat ∧ c.toNat ≤ 57) → IsStr m (off fmt i) (ds ++ rest) →
    widthLoop m fmt (BitVec.ofNat 16 v) (m (off fmt i)) (BitVec.ofNat 16 i) =
      some (BitVec.ofNat 16 ((ds.filterMap decDigit?).foldl (fun v d => v * 10 + d) v), rest.headD 0, BitVec.ofNat 16 (i + ds.length)) := by
  intro ds
  induction ds with
  | nil =>
    intro i v _ h
    have hc : m (off fmt i) = rest.headD 0 := IsStr.headD h
    rw [widthLoop, if_neg (by rw [isDigit_iff, hc]; exact hr), hc]
    simp
  | cons d ds ih =>
    intro i v hd h
    have hc : m (off fmt i) = d := IsStr.headD h
    have hdd := hd d (by simp)
    have ht : IsStr m (off fmt (i + 1)) (ds ++ rest) := by
      have := IsStr.drop (u := [d]) (v := ds ++ rest) h
      rwa [off_off] at this
    rw [widthLoop, hc, if_pos ((isDigit_iff d).2 hdd), add_ofNat_succ, add_ofNat]
    have hv : BitVec.ofNat 16 v * 10 + (ord d - ord 0x30#8) = BitVec.ofNat 16 (v * 10 + (d.toNat - 48)) := by
      apply BitVec.eq_of_toNat_eq
      have h10 : (10 : Word).toNat = 10 := rfl
      have h48 : (ord 0x30#8).toNat = 48 := rfl
      have hdl : (ord d).toNat = d.toNat := by unfold ord; simp; omega
      simp only [BitVec.toNat_add, BitVec.toNat_mul, BitVec.toNat_sub, BitVec.toNat_ofNat, h10, h48, hdl]
      omega
    rw [hv, ih (i + 1) _ (fun c hc => hd c (by simp [hc])) ht]
    have : decDigit? d = some (d.toNat - 48) := by unfold decDigit?; rw [if_pos hdd]
    simp only [List.filterMap_cons, this, List.foldl_cons, List.length_cons]
    rw [show i + 1 + ds.length = i + (ds.length + 1) by omega]

section
variable {σ : Type} {A : Arith} {S : Strm σ} {tab : Word}

/-- What printLoop does at a `%`. -/
theorem head_step {fmt : Word} {i : Nat} {lf : Bool} {ds rest : List Byte} {s : PS σ} {k : Byte} (hk : rest.headD 0 = k)
    (h : IsStr s.mem (off fmt i) (head lf ds ++ rest)) (hd : ∀ c ∈ ds, 48 ≤ c.toNat ∧ c.toNat ≤ 57)
    (hr : ¬ (48 ≤ k.toNat ∧ k.toNat ≤ 57)) (hm : lf = false → ds = [] → k ≠ 0x2d#8) :
    printLoop A S tab fmt (BitVec.ofNat 16 i) s =
      (let w := BitVec.ofNat 16 (width ds)
       let j := BitVec.ofNat 16 (i + (head lf ds).length)
       if k = 0x6c#8 then
         match conv32 A S tab (s.mem (fmt + (j + 1))) w lf (padOf (zeroFlag ds)) s with
         | none => none
         | some (.error e) => some (.error e)
         | some (.ok s) => printLoop A S tab fmt (j + 1 + 1) s
       else
         match conv16 A S tab k w lf (padOf (zeroFlag ds)) s with
         | none => none
         | some (.error e) => some (.error e)
         | some (.ok s) => printLoop A S tab fmt (j + 1) s) := by
  subst hk
  have h0 : s.mem (off fmt i) = 0x25#8 := IsStr.headD h
  have h1 : IsStr s.mem (off fmt (i + 1)) ((if lf then [0x2d#8] else []) ++ (ds ++ rest)) := by
    have := IsStr.drop (u := [0x25#8]) (v := (if lf then [0x2d#8] else []) ++ (ds ++ rest)) (m := s.mem) (a := off fmt i)
      (by
        have e : head lf ds ++ rest = [0x25#8] ++ ((if lf then [0x2d#8] else []) ++ (ds ++ rest)) := by simp [head]
        rwa [e] at h)
    rwa [off_off] at this
  -- the character after `%` and an optional `-`
  obtain ⟨i1, hi1, hs1, hlf⟩ : ∃ i1, i1 = i + 1 + (if lf then 1 else 0) ∧ IsStr s.mem (off fmt i1) (ds ++ rest) ∧
      decide (s.mem (off fmt (i + 1)) = 0x2d#8) = lf := by
    refine ⟨_, rfl, ?_, ?_⟩
    · have := IsStr.drop h1
      rw [off_off] at this
      cases lf <;> simpa using this
    · have := IsStr.headD h1
      rw [this]
      cases lf with
      | true => simp
      | false =>
        cases ds with
        | nil => simpa using hm rfl rfl
        | cons d ds =>
          have := hd d (by simp)
          simp only [Bool.false_eq_true, if_false, List.nil_append, List.cons_append, List.headD_cons, decide_eq_false_iff_not]
          intro e
          rw [e] at this
          revert this; decide
  have hp : (if s.mem (off fmt i1) = 0x30#8 then 0x30#8 else 0x20#8) = padOf (zeroFlag ds) := by
    have := IsStr.headD hs1
    rw [this]
    unfold padOf zeroFlag
    cases ds with
    | nil =>
      simp only [List.nil_append, List.head?_nil]
      rw [if_neg]
      · simp
      · intro e; rw [e] at hr; exact hr (by decide)
    | cons d ds => simp
  have hwl := widthLoop_spec (rest := rest) hr ds i1 0 hd hs1
  have hj : i1 + ds.length = i + (head lf ds).length := by
    rw [hi1]
    unfold head
    cases lf <;> simp <;> omega
  rw [hj] at hwl
  rw [printLoop, add_ofNat, h0, if_pos (by decide), if_pos rfl]
  simp only [add_ofNat_succ, add_ofNat]
  have hi : (if s.mem (off fmt (i + 1)) = 0x2d#8 then BitVec.ofNat 16 (i + 1 + 1) else BitVec.ofNat 16 (i + 1)) = BitVec.ofNat 16 i1 := by
    rw [hi1]
    by_cases hc : s.mem (off fmt (i + 1)) = 0x2d#8
    · rw [if_pos hc]
      rw [show lf = true from by rw [← hlf]; simpa using hc]
      simp
    · rw [if_neg hc]
      rw [show lf = false from by rw [← hlf]; simpa using hc]
      simp
  rw [hi, add_ofNat, hp, show (0 : Word) = BitVec.ofNat 16 0 from rfl, hwl]
  simp only [hlf, add_ofNat_succ, add_ofNat]
  rfl

/-- Arguments still to be consumed; they are protected. -/
def ArgsAt (prot : Word → Prop) (s : PS σ) (as : List Word) : Prop :=
  ∀ j (h : j < as.length), s.mem.lw (s.args + (s.pos + BitVec.ofNat 16 j) * 2) = as[j] ∧
    prot (s.args + (s.pos + BitVec.ofNat 16 j) * 2) ∧ prot (s.args + (s.pos + BitVec.ofNat 16 j) * 2 + 1)

theorem ArgsAt.next {prot : Word → Prop} {s : PS σ} {a : Word} {as : List Word} (h : ArgsAt prot s (a :: as)) :
    nextArg s = a ∧ ArgsAt prot (tookArg s) as := by
  constructor
  · have := (h 0 (by simp)).1
    simpa [nextArg] using this
  · intro j hj
    have := h (j + 1) (by simpa using hj)
    have e : s.pos + BitVec.ofNat 16 (j + 1) = s.pos + 1 + BitVec.ofNat 16 j := by
      rw [← add_ofNat_succ]; ac_rfl
    rw [e] at this
    simpa [tookArg] using this

/-- A conversion of the 16-bit kind. -/
theorem conv16_spec {N : Nat} (hA : A.OkTo N) {w : Nat} (hw : w < 32768) {lf zero : Bool} {k : Byte} {as bs : List Word} {t : List Byte}
    {prot : Word → Prop} {s : PS σ} (h : Conv N s.mem w lf zero k as t) (ht : Tab s.mem tab) (ha : ArgsAt prot s (as ++ bs)) :
    ∃ s1 : PS σ, s1.mem = s.mem ∧ s1.out = s.out ∧ s1.cnt = s.cnt ∧ s1.args = s.args ∧ ArgsAt prot s1 bs ∧
      conv16 A S tab k (BitVec.ofNat 16 w) lf (padOf zero) s = some (emit S t s1) := by
  cases h with
  | d a h1 =>
    obtain ⟨e, h'⟩ := ha.next
    refine ⟨tookArg s, rfl, rfl, rfl, rfl, h', ?_⟩
    rw [← e] at h1 ⊢
    unfold conv16
    rw [if_neg (by decide), if_pos rfl]
    exact sPutNum_spec hA h1 hw (s := tookArg s) ht
  | o a h1 =>
    obtain ⟨e, h'⟩ := ha.next
    refine ⟨tookArg s, rfl, rfl, rfl, rfl, h', ?_⟩
    rw [← e] at h1 ⊢
    exact C17_o hA hw ht h1
  | x a h1 =>
    obtain ⟨e, h'⟩ := ha.next
    refine ⟨tookArg s, rfl, rfl, rfl, rfl, h', ?_⟩
    rw [← e] at h1 ⊢
    exact C17_x hA hw ht h1
  | c a =>
    obtain ⟨e, h'⟩ := ha.next
    refine ⟨tookArg s, rfl, rfl, rfl, rfl, h', ?_⟩
    rw [← e]
    unfold conv16
    rw [if_neg (by decide), if_neg (by decide), if_neg (by decide), if_pos rfl]
    exact putCW_spec hw
  | s a t h1 h2 =>
    obtain ⟨e, h'⟩ := ha.next
    refine ⟨tookArg s, rfl, rfl, rfl, rfl, h', ?_⟩
    rw [← e] at h1
    unfold conv16
    rw [if_neg (by decide), if_neg (by decide), if_neg (by decide), if_neg (by decide), if_pos rfl]
    exact putS_spec (s := tookArg s) h1 h2 hw
  | pct =>
    refine ⟨s, rfl, rfl, rfl, rfl, ha, ?_⟩
    unfold conv16
    rw [if_neg (by decide), if_neg (by decide), if_neg (by decide), if_neg (by decide), if_neg (by decide), if_pos rfl, emit_one]

theorem Conv.char {N : Nat} {m : Mem} {w : Nat} {lf zero : Bool} {k : Byte} {as : List Word} {t : List Byte}
    (h : Conv N m w lf zero k as t) : k ∈ convChars := by
  cases h <;> decide

/-- The result of writing `t` and then going on normally or ending with EUFMT. -/
def after (good : Bool) (r : E σ) : Except Stop (Word × σ) :=
  match r with
  | .error (st, _) => .error st
  | .ok s => if good then .ok (s.cnt, s.out) else .error (.exit EUFMT)

theorem after_append {good : Bool} {t u : List Byte} {s : PS σ} {r : PS σ → R σ} {x : R σ}
    (hx : x = match emit S t s with
      | .error e => some (.error e)
      | .ok s => r s)
    (h : ∀ s', Same s s' → (r s').map outcome = some (after good (emit S u s'))) :
    x.map outcome = some (after good (emit S (t ++ u) s)) := by
  rw [emit_append, hx]
  cases he : emit S t s with
  | error e => obtain ⟨st, e⟩ := e; rfl
  | ok s' => exact h s' (emit_same he)

theorem emit_congr {t : List Byte} {s s1 : PS σ} (ho : s1.out = s.out) (hc : s1.cnt = s.cnt) (good : Bool) :
    after good (emit S t s1) = after good (emit S t s) := by
  induction t generalizing s s1 with
  | nil => simp [emit, after, ho, hc]
  | cons c t ih =>
    simp only [emit, putC, ho]
    cases S.fputc c s.out with
    | error e => rfl
    | ok r =>
      obtain ⟨b, o⟩ := r
      cases b
      · exact ih rfl (by simp [hc])
      · exact ih rfl (by simp [hc])

theorem ArgsAt.congr {prot : Word → Prop} {s s' : PS σ} {as : List Word} (h : ArgsAt prot s as) (hs : Same s s') :
    ArgsAt prot s' as := by
  intro j hj
  rw [hs.mem, hs.args, hs.pos]
  exact h j hj

theorem off_add_four {x a : Word} (h : ∀ i < 4, x ≠ off a i) : x ≠ a ∧ x ≠ a + 1 ∧ x ≠ a + 2 ∧ x ≠ a + 3 :=
  ⟨by simpa using h 0 (by omega), h 1 (by omega), h 2 (by omega), h 3 (by omega)⟩

theorem printLoop_spec {N : Nat} (hA : A.OkTo N) (hN : 32768 ≤ N) {prot : Word → Prop} {good : Bool} {m : Mem} {f : List Byte} {as : List Word} {t : List Byte}
    (h : Fmt N prot good m f as t) : ∀ (fmt : Word) (i : Nat) (s : PS σ), s.mem = m → IsStr m (off fmt i) f →
    (∀ k ≤ f.length, prot (off fmt (i + k))) → ArgsAt prot s as → Tab m tab → (∀ d < 16, prot (off tab d)) →
    (printLoop A S tab fmt (BitVec.ofNat 16 i) s).map outcome = some (after good (emit S t s)) := by
  have hA' : A.OkTo 32768 := fun x b h1 h2 h3 => hA x b (by omega) h2 h3
  induction h with
  | done hg =>
    intro fmt i s hm hs _ _ _ _
    have hc : s.mem (off fmt i) = 0#8 := by rw [hm]; exact IsStr.headD hs
    rw [printLoop, add_ofNat, hc]
    simp [emit, outcome, after, hg]
  | @lit m c f as t hc _ ih =>
    intro fmt i s hm hs hp ha ht hpt
    have h0 : s.mem (off fmt i) = c := by rw [hm]; exact IsStr.headD hs
    have hcz : c ≠ 0#8 := hs.nz c (by simp)
    have hs' : IsStr m (off fmt (i + 1)) f := by
      have := IsStr.drop (u := [c]) (v := f) hs
      rwa [off_off] at this
    have : printLoop A S tab fmt (BitVec.ofNat 16 i) s = match emit S [c] s with
        | .error e => some (.error e)
        | .ok s => printLoop A S tab fmt (BitVec.ofNat 16 (i + 1)) s := by
      rw [printLoop, add_ofNat, h0, if_pos hcz, if_neg hc, emit_one, add_ofNat_succ]
      cases putC S c s <;> rfl
    refine after_append (t := [c]) (u := t) this fun s' hss => ?_
    refine ih fmt (i + 1) s' (hss.mem.trans hm) hs' ?_ (ha.congr hss) ht hpt
    intro k hk
    rw [show i + 1 + k = i + (k + 1) by omega]
    exact hp (k + 1) (by simpa using hk)
  | @conv m lf ds k f as bs t u hw hcv _ ih =>
    intro fmt i s hm hs hp ha ht hpt
    subst hm
    have hk := hcv.char
    have hk1 : ¬ (48 ≤ k.toNat ∧ k.toNat ≤ 57) := (by decide : ∀ k ∈ convChars, ¬ (48 ≤ k.toNat ∧ k.toNat ≤ 57)) k hk
    have hk2 : k ≠ 0x2d#8 := (by decide : ∀ k ∈ convChars, k ≠ 0x2d#8) k hk
    have hk3 : k ≠ 0x6c#8 := (by decide : ∀ k ∈ convChars, k ≠ 0x6c#8) k hk
    have hst := head_step (A := A) (S := S) (tab := tab) (k := k) rfl hs hw.1 hk1 (fun _ _ => hk2)
    simp only [] at hst
    rw [if_neg hk3] at hst
    obtain ⟨s1, e1, e2, e3, e4, e5, e6⟩ := conv16_spec (S := S) hA hw.2 hcv ht ha
    rw [e6] at hst
    rw [← emit_congr e2 e3]
    have hs' : IsStr s.mem (off fmt (i + (head lf ds).length + 1)) f := by
      have := IsStr.drop (u := head lf ds ++ [k]) (v := f) (m := s.mem) (a := off fmt i) (by simpa using hs)
      rw [off_off] at this
      simpa [Nat.add_assoc] using this
    refine after_append (t := t) (u := u) (s := s1) (r := fun s => printLoop A S tab fmt (BitVec.ofNat 16 (i + (head lf ds).length + 1)) s) ?_ fun s' hss => ?_
    · rw [hst, add_ofNat_succ]
      cases emit S t s1 <;> rfl
    · refine ih fmt (i + (head lf ds).length + 1) s' (hss.mem.trans e1) hs' ?_ (e5.congr hss) ht hpt
      intro k' hk'
      rw [show i + (head lf ds).length + 1 + k' = i + ((head lf ds).length + 1 + k') by omega]
      exact hp _ (by simp; omega)
  | @long m lf ds a f as u hw hv hlf hna _ ih =>
    intro fmt i s hm hs hp ha ht hpt
    subst hm
    have hst := head_step (A := A) (S := S) (tab := tab) (k := 0x6c#8) rfl hs hw.1 (by decide) (fun _ _ => by decide)
    simp only [if_true] at hst
    have hd : s.mem (off fmt (i + (head lf ds).length + 1)) = 0x64#8 := by
      have := IsStr.drop (u := head lf ds ++ [0x6c#8]) (v := 0x64#8 :: f) (m := s.mem) (a := off fmt i) (by simpa using hs)
      rw [off_off] at this
      have := IsStr.headD this
      simpa [Nat.add_assoc] using this
    rw [add_ofNat_succ, add_ofNat, hd] at hst
    obtain ⟨ea, ha'⟩ := ha.next
    have napart : ∀ x, prot x → x ≠ a ∧ x ≠ a + 1 ∧ x ≠ a + 2 ∧ x ≠ a + 3 := fun x hx =>
      off_add_four fun j hj e => hna j hj (e ▸ hx)
    have hap : TabApart tab (nextArg s) := by
      rw [ea]; exact fun d hd => napart _ (hpt d hd)
    obtain ⟨m', hm', hc⟩ : ∃ m', Same4 s.mem m' (nextArg s) ∧
        conv32 A S tab 0x64#8 (BitVec.ofNat 16 (width ds)) lf (padOf (zeroFlag ds)) s =
        some (emit S (unsText 10 (width ds) lf (zeroFlag ds) (val32 s.mem (nextArg s))) { tookArg s with mem := m' }) := by
      by_cases hl : lf = false
      · subst hl
        exact C18_partial hA' hw.2 ht hap (by rw [ea]; exact hv)
      · have hl : lf = true := by simpa using hl
        subst hl
        exact C18_left_partial hA' hw.2 ht hap (by rw [ea]; simpa using hlf)
    rw [hc, ea] at hst
    rw [ea] at hm'
    have keep : ∀ x, prot x → m' x = s.mem x := fun x hx => by
      obtain ⟨h0, h1, h2, h3⟩ := napart x hx
      exact hm' x h0 h1 h2 h3
    have hs' : IsStr m' (off fmt (i + (head lf ds).length + 1 + 1)) f := by
      have := IsStr.drop (u := head lf ds ++ [0x6c#8, 0x64#8]) (v := f) (m := s.mem) (a := off fmt i) (by simpa using hs)
      rw [off_off] at this
      rw [show i + (head lf ds ++ [0x6c#8, 0x64#8]).length = i + (head lf ds).length + 1 + 1 by simp; omega] at this
      refine this.congr fun j hj => keep _ ?_
      rw [off_off, show i + (head lf ds).length + 1 + 1 + j = i + ((head lf ds).length + 1 + 1 + j) by omega]
      exact hp _ (by simp; omega)
    have ht' : Tab m' tab := fun d hd => by rw [keep _ (hpt d hd)]; exact ht d hd
    have ha2 : ArgsAt prot { tookArg s with mem := m' } as := by
      intro j hj
      obtain ⟨q1, q2, q3⟩ := ha' j hj
      refine ⟨?_, q2, q3⟩
      rw [← q1]
      show Mem.lw m' _ = _
      unfold Mem.lw
      rw [keep _ q2, keep _ q3]
      rfl
    rw [← emit_congr (s := s) (s1 := { tookArg s with mem := m' }) rfl rfl]
    refine after_append (s := { tookArg s with mem := m' }) (r := fun s => printLoop A S tab fmt (BitVec.ofNat 16 (i + (head lf ds).length + 1 + 1)) s) ?_ fun s' hss => ?_
    · rw [hst, add_ofNat_succ]
      cases emit S _ { tookArg s with mem := m' } <;> rfl
    · refine ih m' hm' fmt _ s' hss.mem hs' ?_ (ha2.congr hss) ht' hpt
      intro k' hk'
      rw [show i + (head lf ds).length + 1 + 1 + k' = i + ((head lf ds).length + 1 + 1 + k') by omega]
      exact hp _ (by simp; omega)
  | @bad m lf ds f as hg hd h1 h2 h3 h4 =>
    intro fmt i s hm hs hp ha ht hpt
    subst hm
    have hst := head_step (A := A) (S := S) (tab := tab) rfl hs hd h1 h2
    simp only [] at hst
    rw [if_neg h3] at hst
    have hc : conv16 A S tab (f.headD 0) (BitVec.ofNat 16 (width ds)) lf (padOf (zeroFlag ds)) s = some (.error (.exit EUFMT, s)) := by
      simp only [convChars, List.mem_cons, List.not_mem_nil, or_false, not_or] at h4
      obtain ⟨n1, n2, n3, n4, n5, n6⟩ := h4
      unfold conv16
      rw [if_neg n2, if_neg n1, if_neg n3, if_neg n4, if_neg n5, if_neg n6]
    rw [hst, hc]
    simp [emit, outcome, after, hg]
  | @badLong m lf ds f as hg hd h1 =>
    intro fmt i s hm hs hp ha ht hpt
    subst hm
    have hst := head_step (A := A) (S := S) (tab := tab) (k := 0x6c#8) rfl hs hd (by decide) (fun _ _ => by decide)
    simp only [if_true] at hst
    have hd : s.mem (off fmt (i + (head lf ds).length + 1)) = f.headD 0 := by
      have := IsStr.drop (u := head lf ds ++ [0x6c#8]) (v := f) (m := s.mem) (a := off fmt i) (by simpa using hs)
      rw [off_off] at this
      have := IsStr.headD this
      simpa [Nat.add_assoc] using this
    rw [add_ofNat_succ, add_ofNat, hd] at hst
    have hc : conv32 A S tab (f.headD 0) (BitVec.ofNat 16 (width ds)) lf (padOf (zeroFlag ds)) s = some (.error (.exit EUFMT, tookArg s)) := by
      unfold conv32
      simp only []
      rw [if_neg h1]; rfl
    rw [hst, hc]
    simp [emit, outcome, after, hg]

theorem after_expected {good : Bool} (t : List Byte) (s : PS σ) (k : Nat) (hk : s.cnt = BitVec.ofNat 16 k) :
    after good (emit S t s) = match write S t s.out with
      | .error e => .error (.raw e)
      | .ok (n, o) => if good then .ok (BitVec.ofNat 16 (k + n), o) else .error (.exit EUFMT) := by
  induction t generalizing s k with
  | nil => simp [emit, after, write, hk]
  | cons c t ih =>
    simp only [emit, putC, write]
    cases hc : S.fputc c s.out with
    | error e => rfl
    | ok r =>
      obtain ⟨b, o⟩ := r
      cases b
      · simp only [Bool.not_false, if_true]
        rw [ih { s with out := o, cnt := s.cnt + 1 } (k + 1) (by rw [hk, add_ofNat_succ])]
        cases hw : write S t o with
        | error e => rfl
        | ok r => simp [Nat.add_assoc, Nat.add_comm 1]
      · simp only [Bool.not_true, Bool.false_eq_true, if_false]
        rw [ih { s with out := o } k hk]
        cases hw : write S t o with
        | error e => rfl
        | ok r => simp

/-- print: the argument array at `arg` holds the format at index `offs` and then the arguments `as`; the format `f` with these
arguments prints `t`. Then the run writes exactly `t` to the stream and returns the number of characters written, or, if the format is
invalid, writes what comes before the invalid conversion and ends with EUFMT. Missing for the full claim: `%ld` outside the limits
stated in `Fmt`, where the code is wrong (C18_big_false, C18_left_false), widths and strings beyond 32767. -/
theorem C19_partial {N : Nat} (hA : A.OkTo N) (hN : 32768 ≤ N) {prot : Word → Prop} {good : Bool} {m : Mem} {f : List Byte} {as : List Word} {t : List Byte}
    {arg fmt : Word} {offs : Nat} {o : σ} (h : Fmt N prot good m f as t)
    (hfmt : m.lw (off arg (2 * offs)) = fmt) (hf : IsStr m fmt f) (hpf : ∀ k ≤ f.length, prot (off fmt k))
    (has : ∀ j (h : j < as.length), m.lw (off arg (2 * (offs + 1 + j))) = as[j])
    (hpa : ∀ j < as.length, prot (off arg (2 * (offs + 1 + j))) ∧ prot (off arg (2 * (offs + 1 + j) + 1)))
    (ht : Tab m tab) (hpt : ∀ d < 16, prot (off tab d)) :
    (print A S tab m arg (BitVec.ofNat 16 offs) o).map outcome = some (expected S good t o) := by
  have e : ∀ j, arg + (BitVec.ofNat 16 offs + 1 + BitVec.ofNat 16 j) * 2 = off arg (2 * (offs + 1 + j)) := by
    intro j
    unfold off
    congr 1
    apply BitVec.eq_of_toNat_eq
    have h1 : (1 : Word).toNat = 1 := rfl
    have h2 : (2 : Word).toNat = 2 := rfl
    simp only [BitVec.toNat_mul, BitVec.toNat_add, BitVec.toNat_ofNat, h1, h2]
    omega
  have e0 : arg + BitVec.ofNat 16 offs * 2 = off arg (2 * offs) := by
    unfold off
    congr 1
    apply BitVec.eq_of_toNat_eq
    have h2 : (2 : Word).toNat = 2 := rfl
    simp only [BitVec.toNat_mul, BitVec.toNat_ofNat, h2]
    omega
  have hl := printLoop_spec (S := S) (tab := tab) hA hN h fmt 0 { mem := m, cnt := 0, args := arg, pos := BitVec.ofNat 16 offs + 1, out := o } rfl
    (by simpa using hf) (by simpa using hpf)
    (by
      intro j hj
      simp only [e]
      refine ⟨has j hj, (hpa j hj).1, ?_⟩
      have := (hpa j hj).2
      rw [← off_off] at this
      exact this) ht hpt
  have hp : print A S tab m arg (BitVec.ofNat 16 offs) o =
      printLoop A S tab fmt (BitVec.ofNat 16 0) { mem := m, cnt := 0, args := arg, pos := BitVec.ofNat 16 offs + 1, out := o } := by
    unfold print getArg
    simp only [e0, hfmt]
    rfl
  rw [hp, hl, after_expected _ _ 0 rfl]
  unfold expected
  simp only [Nat.zero_add]
  rfl

end

/-! ### A concrete case -/

theorem write_rec (t o : List Byte) : write rec t o = .ok (t.length, o ++ t) := by
  induction t generalizing o with
  | nil => simp [write]
  | cons c t ih =>
    have := ih (o ++ [c])
    simp only [write]
    rw [show rec.fputc c o = .ok (false, o ++ [c]) from rfl]
    simp only []
    rw [this]
    simp

/-- Memory from a list of areas, 0 elsewhere. -/
def layout (l : List (Nat × List Byte)) : Mem := fun a =>
  (l.findSome? fun (b, bs) => if b ≤ a.toNat then bs[a.toNat - b]? else none).getD 0

theorem isStr_of {m : Mem} {a : Word} {s : List Byte}
    (h : (List.range s.length).all (fun k => decide (m (off a k) = s.getD k 0)) = true) (h1 : s.all (fun c => decide (c ≠ 0#8)) = true)
    (h2 : m (off a s.length) = 0#8) (h3 : s.length < 65536) : IsStr m a s := by
  refine ⟨?_, ?_, h2, h3⟩
  · intro k hk
    rw [List.all_eq_true] at h
    have := h k (by simpa using hk)
    simp only [decide_eq_true_eq] at this
    rw [this]; simp [hk]
  · intro c hc
    rw [List.all_eq_true] at h1
    simpa using h1 c hc

/-- "0123456789abcdef" -/
def zDigits : List Byte := (List.range 16).map fun d => byte (Nat.digitChar d)
/-- "x=%3d, %s%%" -/
def zFmt : List Byte := "x=%3d, %s%%".toList.map byte
/-- "%d%q" -/
def zBad : List Byte := "%d%q".toList.map byte
/-- The digits at 0x10, the formats at 0x100 and 0x180, the argument array at 0x200 (format, 42, 0x300) and at 0x280 (bad format, 7),
the string "ok" at 0x300. -/
def zMem : Mem := layout [(0x10, zDigits), (0x100, zFmt), (0x180, zBad), (0x200, [1, 0, 0, 42, 3, 0]), (0x280, [1, 0x80, 0, 7]),
  (0x300, "ok".toList.map byte)]

theorem zTab : Tab zMem 0x10 := by
  intro d hd
  interval_cases d <;> decide +kernel

theorem zOk : Fmt 32768 (fun _ => True) true zMem zFmt [42, 0x300] ("x= 42, ok%".toList.map byte) := by
  have h5 : Fmt 32768 (fun _ => True) true zMem ("%%".toList.map byte) [] ("%".toList.map byte) :=
    .conv (lf := false) (ds := []) (as := []) (t := [0x25#8]) (u := []) ⟨by simp, by decide⟩ .pct (.done rfl)
  have h4 : Fmt 32768 (fun _ => True) true zMem ("%s%%".toList.map byte) [0x300] ("ok%".toList.map byte) :=
    .conv (lf := false) (ds := []) (as := [0x300]) (t := field 0 false 0x20#8 ("ok".toList.map byte)) ⟨by simp, by decide⟩
      (.s _ _ (isStr_of (by decide +kernel) (by decide) (by decide +kernel) (by decide)) (by decide)) h5
  have h3 : Fmt 32768 (fun _ => True) true zMem (", %s%%".toList.map byte) [0x300] (", ok%".toList.map byte) :=
    .lit (by decide) (.lit (by decide) h4)
  have h2 : Fmt 32768 (fun _ => True) true zMem ("%3d, %s%%".toList.map byte) [42, 0x300] (" 42, ok%".toList.map byte) :=
    .conv (lf := false) (ds := [0x33#8]) (as := [42]) (t := field 3 false 0x20#8 (digitsOf 42)) ⟨by decide, by decide⟩
      (.d 42 (by decide)) h3
  exact .lit (by decide) (.lit (by decide) h2)

/-- printf("x=%3d, %s%%", 42, "ok") writes "x= 42, ok%" and returns 10. -/
example (A : Arith) (hA : A.OkTo 32768) :
    (printf A rec 0x10 zMem 0x200 []).map outcome = some (.ok (10, "x= 42, ok%".toList.map byte)) := by
  have := C19_partial (S := rec) (tab := 0x10) (o := []) hA (Nat.le_refl _) zOk (arg := 0x200) (fmt := 0x100) (offs := 0) (by decide +kernel)
    (isStr_of (by decide +kernel) (by decide) (by decide +kernel) (by decide)) (fun _ _ => trivial)
    (by
      intro j hj
      have : j = 0 ∨ j = 1 := by simp at hj; omega
      rcases this with rfl | rfl <;> simp only [List.getElem_cons_zero, List.getElem_cons_succ] <;> clear hj <;> decide +kernel)
    (fun _ _ => ⟨trivial, trivial⟩) zTab (fun _ _ => trivial)
  rw [show printf A rec 0x10 zMem 0x200 [] = print A rec 0x10 zMem 0x200 (BitVec.ofNat 16 0) [] from rfl, this]
  unfold expected
  rw [write_rec]
  decide

/-- printf("%d%q", 7) writes "7" and ends the program with EUFMT. -/
example (A : Arith) (hA : A.OkTo 32768) :
    (printf A rec 0x10 zMem 0x280 []).map outcome = some (.error (.exit (-32))) := by
  have hb : Fmt 32768 (fun _ => True) false zMem zBad [7] [0x37#8] :=
    .conv (lf := false) (ds := []) (as := [7]) (bs := []) (t := field 0 false 0x20#8 (digitsOf 7)) (u := []) ⟨by simp, by decide⟩
      (.d 7 (by decide))
      (.bad (lf := false) (ds := []) (f := [0x71#8]) rfl (by simp) (by decide) (by decide) (by decide) (by decide))
  have := C19_partial (S := rec) (tab := 0x10) (o := []) hA (Nat.le_refl _) hb (arg := 0x280) (fmt := 0x180) (offs := 0) (by decide +kernel)
    (isStr_of (by decide +kernel) (by decide) (by decide +kernel) (by decide)) (fun _ _ => trivial)
    (by
      intro j hj
      have : j = 0 := by simp at hj; omega
      subst this
      simp only [List.getElem_cons_zero]
      clear hj
      decide +kernel)
    (fun _ _ => ⟨trivial, trivial⟩) zTab (fun _ _ => trivial)
  rw [show printf A rec 0x10 zMem 0x280 [] = print A rec 0x10 zMem 0x280 (BitVec.ofNat 16 0) [] from rfl, this]
  unfold expected
  rw [write_rec]
  decide

end Cmm.Printf
