import Verif.Lib.PathSpec
import Verif.Props.C02
import Verif.Props.C05

/- absPath as a whole. -/
namespace Cmm.Environ
open Cmm.Str Cmm.Err

/-- The text absPath puts together: the path behind a slash, or behind the working directory and a slash. -/
def FullText (c : Cst) (e : ESt) (bufSiz : Nat) (buf path : Word) (t full : List Byte) : Prop :=
  (t.head? = some 47#8 ∧ full = 47#8 :: t) ∨
  (t.head? ≠ some 47#8 ∧ ∃ pw P, getWd c e = some pw ∧ IsStr e.mem pw P ∧
    Apart buf bufSiz pw (P.length + 1) ∧ P.length < 32768 ∧ full = P ++ 47#8 :: t)

theorem apart_mono {a : Word} {n : Nat} {b : Word} {k n' k' : Nat} (h : Apart a n b k) (hn : n' ≤ n) (hk : k' ≤ k) :
    Apart a n' b k' := fun i j hi hj => h i j (by omega) (by omega)

theorem IsStr_keep {m m' : Mem} {p : Word} {t : List Byte} {buf : Word} {n : Nat} (h : IsStr m p t)
    (hs : SameExcept m m' buf n) (ha : Apart buf n p (t.length + 1)) : IsStr m' p t := by
  apply h.congr
  intro i hi
  exact hs _ (fun j hj e => ha j i hj (by omega) e.symm)

theorem sameExcept_off {m m' : Mem} {p : Word} {a n k : Nat} (h : SameExcept m m' (off p a) n) (hk : a + n ≤ k) :
    SameExcept m m' p k := by
  intro x hx
  apply h x
  intro i hi
  rw [off_off]
  exact hx _ (by omega)

theorem ile_sub (b k n : Nat) (hb : b < 32768) (hn : n < 32768) (hk : k ≤ b) :
    ile (BitVec.ofNat 16 b - BitVec.ofNat 16 k) (BitVec.ofNat 16 n) = decide (b - k ≤ n) := by
  have : BitVec.ofNat 16 b - BitVec.ofNat 16 k = BitVec.ofNat 16 (b - k) := by
    apply BitVec.eq_of_toNat_eq
    simp [BitVec.toNat_sub]
    omega
  rw [this, ile_ofNat (by omega) hn]

/-- The beginning of absPath. -/
theorem absStart_spec {c : Cst} {e : ESt} {path buf : Word} {bufSiz : Nat} {t full : List Byte}
    (hb2 : 2 ≤ bufSiz) (hb : bufSiz < 32768) (ht : IsStr e.mem path t) (hsl : IsStr e.mem c.slash [47#8])
    (hasl : Apart buf bufSiz c.slash 2) (hfull : FullText c e bufSiz buf path t full) :
    (∃ m s0, absStart c e path buf (BitVec.ofNat 16 bufSiz) = some (some m) ∧ full = s0 ++ t ∧ IsStr m buf s0 ∧
      s0.length + 1 ≤ bufSiz ∧ SameExcept e.mem m buf bufSiz) ∨
    (absStart c e path buf (BitVec.ofNat 16 bufSiz) = some none ∧ bufSiz ≤ full.length + 1) := by
  have hh : e.mem path = t.head?.getD 0#8 := isStr_head ht
  rcases hfull with ⟨h1, rfl⟩ | ⟨h1, pw, P, hw, hP, haP, hPl, rfl⟩
  · left
    obtain ⟨m, e1, e2, _, e4⟩ := C02_strCpy e.mem buf c.slash [47#8] hsl (apart_mono hasl hb2 (Nat.le_refl _))
    refine ⟨m, [47#8], ?_, rfl, e2, hb2, e4.mono hb2⟩
    unfold absStart
    rw [if_pos (by rw [hh, h1]; rfl), e1]
    rfl
  · have hne : ¬ e.mem path = 47#8 := by
      rw [hh]
      cases t with
      | nil => simp
      | cons d t => simpa using h1
    have hle := ile_sub bufSiz 2 P.length hb hPl hb2
    by_cases hlen : bufSiz - 2 ≤ P.length
    · right
      refine ⟨?_, by simp; omega⟩
      unfold absStart
      rw [if_neg hne, hw]
      simp only [Option.bind_eq_bind, Option.bind_some]
      rw [strLen_eq hP]
      simp only [Option.bind_some]
      rw [if_pos (by rw [show (2 : Word) = BitVec.ofNat 16 2 from rfl, hle]; simpa using hlen)]
      rfl
    · left
      obtain ⟨m, e1, e2, e3, e4⟩ := C02_strCpy e.mem buf pw P hP (apart_mono haP (by omega) (Nat.le_refl _))
      have hsl' : IsStr m c.slash [47#8] := IsStr_keep hsl (e4.mono (by omega)) hasl
      obtain ⟨m', f1, f2, f3⟩ := C02_strCat m buf c.slash P [47#8] e2 hsl' (by simp; omega) (by
        intro i j hi hj
        simp at hi hj
        rw [off_off]
        exact hasl _ j (by omega) (by omega))
      refine ⟨m', P ++ [47#8], ?_, by simp, f2, by simp; omega, ?_⟩
      · unfold absStart
        rw [if_neg hne, hw]
        simp only [Option.bind_eq_bind, Option.bind_some]
        rw [strLen_eq hP]
        simp only [Option.bind_some]
        rw [if_neg (by rw [show (2 : Word) = BitVec.ofNat 16 2 from rfl, hle]; simpa using hlen), e1]
        simp only [Option.bind_some]
        rw [f1]
        rfl
      · exact (e4.mono (by omega)).trans (sameExcept_off f3 (by simp; omega))

theorem absEnd_spec {c : Cst} {m : Mem} {buf : Word} {t : List Byte} {n : Nat} (h : IsStr m buf t) (hl : t.length < 32768)
    (htn : t.length + 1 ≤ n) (hn : 2 ≤ n)
    (hsl : IsStr m c.slash [47#8]) (hasl : Apart buf n c.slash 2) :
    ∃ m', absEnd c m buf = some m' ∧ IsStr m' buf (orRoot (delDotDot [] t)) ∧ SameExcept m m' buf n := by
  obtain ⟨m1, e1, e2, e3⟩ := delDotDotDir_spec h hl
  have h0 : m1 buf = (delDotDot [] t).head?.getD 0#8 := isStr_head e2
  unfold absEnd
  rw [e1]
  simp only [Option.bind_eq_bind, Option.bind_some]
  by_cases he : delDotDot [] t = []
  · rw [he] at h0
    rw [if_pos (by rw [h0]; rfl)]
    have hsl' : IsStr m1 c.slash [47#8] := IsStr_keep hsl (e3.mono htn) hasl
    obtain ⟨m2, f1, f2, _, f4⟩ := C02_strCpy m1 buf c.slash [47#8] hsl' (apart_mono hasl (by simpa using hn) (Nat.le_refl _))
    rw [f1]
    refine ⟨m2, rfl, by rw [he]; exact f2, (e3.mono htn).trans (f4.mono (by simpa using hn))⟩
  · have hne : ¬ m1 buf = 0#8 := by
      rw [h0]
      cases hx : delDotDot [] t with
      | nil => exact absurd hx he
      | cons d r =>
        have := e2.nz d (by rw [hx]; simp)
        simpa using this
    rw [if_neg hne]
    refine ⟨m1, rfl, ?_, e3.mono htn⟩
    unfold orRoot
    rw [if_neg he]
    exact e2

theorem pathOf_head (d : List (List Byte)) : ∃ r, pathOf d = 47#8 :: r := by
  cases d with
  | nil => exact ⟨[], rfl⟩
  | cons w ws => exact ⟨w ++ ws.flatMap (47#8 :: ·), by simp [pathOf]⟩

theorem strip_length (t : List Byte) : (strip t).length ≤ t.length := by
  unfold strip
  split
  · simp
  · exact Nat.le_refl _

/-- absPath: with too little room it reports EINVAL; otherwise the part up to the last slash is checked, and
the result is the path of the directory reached. -/
theorem absPath_spec {c : Cst} {stat : Mem → Word → Word × Word} {e : ESt} {path buf : Word} {bufSiz : Nat}
    {t full : List Byte} (hb2 : 2 ≤ bufSiz) (hb : bufSiz < 32768) (ht : IsStr e.mem path t)
    (hap : Apart buf bufSiz path (t.length + 1)) (hsl : IsStr e.mem c.slash [47#8])
    (hasl : Apart buf bufSiz c.slash 2) (hfull : FullText c e bufSiz buf path t full) (hlen : full.length < 32768)
    (hroot : full.head? = some 47#8) :
    (bufSiz ≤ full.length + 1 ∧ ∃ m, absPath c stat e path buf (BitVec.ofNat 16 bufSiz) =
        some (true, { e.setMem m with errno := EINVAL }) ∧ SameExcept e.mem m buf bufSiz) ∨
    (full.length + 1 < bufSiz ∧ ∃ m1 a b, SameExcept e.mem m1 buf bufSiz ∧ IsStr m1 buf (a ++ [47#8]) ∧
      a ++ 47#8 :: b = pathOf (((comps full).map undot).filter (· ≠ [])) ∧ 47#8 ∉ b ∧
      ((ilt (stat m1 buf).1 0 ∧ absPath c stat e path buf (BitVec.ofNat 16 bufSiz) =
          some (true, { e.setMem m1 with attr := (stat m1 buf).2, errno := (stat m1 buf).1 })) ∨
       (¬ ilt (stat m1 buf).1 0 ∧ (stat m1 buf).2 &&& 0x10#16 = 0 ∧
          absPath c stat e path buf (BitVec.ofNat 16 bufSiz) =
            some (true, { e.setMem m1 with attr := (stat m1 buf).2, errno := ENOENT })) ∨
       (¬ ilt (stat m1 buf).1 0 ∧ (stat m1 buf).2 &&& 0x10#16 ≠ 0 ∧
          ∃ m, absPath c stat e path buf (BitVec.ofNat 16 bufSiz) =
            some (false, { e.setMem m with attr := (stat m1 buf).2 }) ∧ SameExcept e.mem m buf bufSiz ∧
            IsStr m buf (pathOf (walk (comps full)))))) := by
  rcases absStart_spec hb2 hb ht hsl hasl hfull with ⟨m, s0, e1, rfl, e3, e4, e5⟩ | ⟨e1, e2⟩
  · have ht' : IsStr m path t := IsStr_keep ht e5 hap
    have hsl' : IsStr m c.slash [47#8] := IsStr_keep hsl e5 hasl
    simp only [List.length_append] at hlen
    have hle := ile_sub bufSiz 1 (s0.length + t.length) hb hlen (by omega)
    unfold absPath
    rw [e1]
    simp only [Option.bind_eq_bind, Option.bind_some]
    rw [strLen_eq e3, strLen_eq ht']
    simp only [Option.bind_some, ofNat_add]
    rw [show (1 : Word) = BitVec.ofNat 16 1 from rfl, hle]
    by_cases hfit : bufSiz - 1 ≤ s0.length + t.length
    · left
      refine ⟨by simp; omega, m, ?_, e5⟩
      rw [if_pos (by simpa using hfit)]
      rfl
    · right
      rw [if_neg (by simpa using hfit)]
      refine ⟨by simp; omega, ?_⟩
      -- the text
      obtain ⟨m2, f1, f2, f3⟩ := C02_strCat m buf path s0 t e3 ht' (by omega) (by
        intro i j hi hj
        rw [off_off]
        exact hap _ j (by omega) (by omega))
      have s2 : SameExcept e.mem m2 buf bufSiz := e5.trans (sameExcept_off f3 (by omega))
      obtain ⟨m3, g1, g2, g3⟩ := delDotDir_spec f2
      have hl3 := delDot_length (s0 ++ t)
      simp only [List.length_append] at hl3
      have s3 : SameExcept e.mem m3 buf bufSiz := s2.trans (g3.mono (by simp; omega))
      obtain ⟨m4, k1, k2, k3⟩ := oneSlash_spec g2 (by omega)
      have s4 : SameExcept e.mem m4 buf bufSiz := s3.trans (k3.mono (by omega))
      obtain ⟨p1, p2⟩ := passes hroot
      have hl4 : (strip (oneS (delDot (s0 ++ t)))).length + 1 < bufSiz := by
        have := strip_length (oneS (delDot (s0 ++ t)))
        have := oneS_length (delDot (s0 ++ t))
        omega
      generalize hT : strip (oneS (delDot (s0 ++ t))) = T at p1 p2 k2 hl4
      obtain ⟨r, hr⟩ := pathOf_head (((comps (s0 ++ t)).map undot).filter (· ≠ []))
      have hT1 : T = 47#8 :: r := p1.trans hr
      -- the last slash
      have hmem : 47#8 ∈ T := by rw [hT1]; simp
      obtain ⟨i, hi, q1, hc, hlast⟩ := (C05_strRchr m4 buf T 47#8 k2 (by decide)).2 hmem
      have hcat : T.take i ++ 47#8 :: T.drop (i + 1) = T := by
        have := List.take_append_drop i T
        rw [List.drop_eq_getElem_cons hi, hc] at this
        exact this
      have hnb : 47#8 ∉ T.drop (i + 1) := by
        intro hm
        obtain ⟨n, hn, he⟩ := List.mem_iff_getElem.1 hm
        simp at hn
        rw [List.getElem_drop] at he
        exact hlast (i + 1 + n) (by omega) (by omega) he
      have hi1 : BitVec.ofNat 16 i + BitVec.ofNat 16 1 = BitVec.ofNat 16 (i + 1) := ofNat_add i 1
      have hpos : ilt 0 (BitVec.ofNat 16 (i + 1)) = true := by
        have := ilt_ofNat (i := 0) (j := i + 1) (by omega) (by omega)
        rw [show (0 : Word) = BitVec.ofNat 16 0 from rfl, this]
        simp
      have s5 : SameExcept e.mem (m4.set (off buf (i + 1)) 0#8) buf bufSiz :=
        s4.trans (sameExcept_set _ _ _ (by omega))
      have htl : (T.take i ++ [47#8]).length = i + 1 := by simp; omega
      have h5 : IsStr (m4.set (off buf (i + 1)) 0#8) buf (T.take i ++ [47#8]) := by
        refine ⟨?_, ?_, by rw [htl]; simp, by rw [htl]; omega⟩
        · intro n hn
          rw [htl] at hn
          rw [Mem.set_ne _ _ (fun he => by have := off_inj (by omega) (by omega) he; omega), k2.bytes n (by omega)]
          have : T = (T.take i ++ [47#8]) ++ T.drop (i + 1) := by simpa using hcat.symm
          conv_lhs => rw [List.getElem_of_eq this]
          rw [List.getElem_append_left (by rw [htl]; exact hn)]
        · intro x hx
          rcases List.mem_append.1 hx with hx | hx
          · exact k2.nz x (List.mem_of_mem_take hx)
          · simp at hx
            subst hx
            decide
      refine ⟨m4.set (off buf (i + 1)) 0#8, T.take i, T.drop (i + 1), s5, h5, hcat.trans p1, hnb, ?_⟩
      have hrest : ((m4.set (off buf (i + 1)) 0#8).set (off buf (i + 1)) (m4 (off buf (i + 1)))) = m4 := by
        funext x
        unfold Mem.set
        split
        · rename_i h; rw [h]
        · rfl
      obtain ⟨m6, r1, r2, r3⟩ := absEnd_spec (c := c) k2 (by omega) (show T.length + 1 ≤ bufSiz by omega) hb2
        (IsStr_keep hsl s4 hasl) hasl
      rw [f1]
      simp only [Option.bind_some]
      rw [g1]
      simp only [Option.bind_some]
      rw [k1]
      simp only [Option.bind_some]
      rw [q1]
      simp only [Option.bind_some, hi1, hpos, if_true]
      simp only [add_ofNat, hrest]
      by_cases hs1 : ilt (stat (m4.set (off buf (i + 1)) 0#8) buf).1 0
      · left
        refine ⟨hs1, ?_⟩
        rw [if_pos hs1]
        rfl
      · right
        by_cases hs2 : (stat (m4.set (off buf (i + 1)) 0#8) buf).2 &&& 0x10#16 = 0
        · left
          refine ⟨hs1, hs2, ?_⟩
          rw [if_neg hs1, if_pos hs2]
          rfl
        · right
          refine ⟨hs1, hs2, m6, ?_, s4.trans r3, by rw [← p2]; exact r2⟩
          rw [if_neg hs1, if_neg hs2, r1]
          rfl
  · left
    refine ⟨e2, e.mem, ?_, SameExcept.refl _ _ _⟩
    unfold absPath
    rw [e1]
    rfl

end Cmm.Environ
