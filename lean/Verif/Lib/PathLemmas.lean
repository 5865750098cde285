import Verif.Lib.Environ
import Verif.Lib.StringLemmas
import Mathlib.Order.Nat

/- The passes of absPath over the buffer as functions on lists of bytes. -/
namespace Cmm.Environ
open Cmm.Str

/-- The next bytes are "." and the end of the component. -/
def dotNext : List Byte → Bool
  | c :: r => c == 46#8 && (r.head? == some 47#8 || r == [])
  | [] => false

/-- delDotDir on lists. -/
def delDot (t : List Byte) : List Byte :=
  match t with
  | [] => []
  | c :: r => if c = 47#8 ∧ dotNext r then c :: delDot r.tail else c :: delDot r
termination_by t.length
decreasing_by all_goals simp <;> omega

/-- The loop of oneSlash on lists. -/
def oneS : List Byte → List Byte
  | [] => []
  | c :: r => if c = 47#8 ∧ r.head? = some 47#8 then oneS r else c :: oneS r

/-- The last slash is removed. -/
def strip (t : List Byte) : List Byte :=
  if 1 < t.length ∧ t.getLast? = some 47#8 then t.dropLast else t

/-- The last component is removed. -/
def pop (t : List Byte) : List Byte :=
  match t.length with
  | 0 => []
  | n + 1 => back t n
where
  back (t : List Byte) : Nat → List Byte
    | 0 => []
    | n + 1 => if t[n + 1]? = some 47#8 then t.take (n + 1) else back t n

/-- The next bytes are ".." and the end of the component. -/
def dotDotNext : List Byte → Bool
  | c :: d :: r => c == 46#8 && d == 46#8 && (r.head? == some 47#8 || r == [])
  | _ => false

/-- The loop of delDotDotDir on lists. -/
def delDotDot (out t : List Byte) : List Byte :=
  match t with
  | [] => out
  | c :: r =>
    if c = 47#8 ∧ dotDotNext r then delDotDot (pop out) r.tail.tail
    else if c = 47#8 ∧ r = [] then out
    else delDotDot (out ++ [c]) r
termination_by t.length
decreasing_by all_goals simp <;> omega

/-! The state of a pass over the buffer: `out` is written at the beginning, `rest` is not yet read and begins at `h`. -/

structure Pack (m : Mem) (p : Word) (out rest : List Byte) (h : Nat) : Prop where
  held : Holds m p out
  str : IsStr m (off p h) rest
  le : out.length ≤ h
  fits : h + rest.length < 65536

theorem set_same_val (m : Mem) (a : Word) : m.set a (m a) = m := by
  funext x
  unfold Mem.set
  split
  · rename_i e; rw [e]
  · rfl

theorem isStr_tail {m : Mem} {a : Word} {c : Byte} {r : List Byte} {h : Nat} (hs : IsStr m (off a h) (c :: r)) :
    IsStr m (off a (h + 1)) r := by
  refine ⟨?_, fun d hd => hs.nz d (by simp [hd]), ?_, by have := hs.fits; simp at this; omega⟩
  · intro k hk
    have := hs.bytes (k + 1) (by simp; omega)
    rw [off_off] at this ⊢
    rw [show h + 1 + k = h + (k + 1) by omega, this]
    simp
  · have := hs.nul
    rw [off_off] at this ⊢
    simp only [List.length_cons] at this
    rw [show h + 1 + r.length = h + (r.length + 1) by omega, this]

theorem isStr_head {m : Mem} {a : Word} {t : List Byte} (hs : IsStr m a t) :
    m a = t.head?.getD 0#8 := by
  cases t with
  | nil => simpa using hs.nul
  | cons c r =>
    have := hs.bytes 0 (by simp)
    rw [off_zero] at this
    exact this

theorem off_add (p : Word) (h k : Nat) : p + (BitVec.ofNat 16 h + BitVec.ofNat 16 k) = off p (h + k) := by
  unfold off
  congr 1
  apply BitVec.eq_of_toNat_eq
  simp [BitVec.toNat_add, BitVec.toNat_ofNat]

theorem Pack.at0 {m p out rest h} (k : Pack m p out rest h) : m (off p h) = rest.head?.getD 0#8 :=
  isStr_head k.str

theorem Pack.skip {m p out c rest h} (k : Pack m p out (c :: rest) h) : Pack m p out rest (h + 1) :=
  ⟨k.held, isStr_tail k.str, by have := k.le; omega, by have := k.fits; simp at this; omega⟩

theorem Pack.write {m p out c rest h} (k : Pack m p out (c :: rest) h) :
    Pack (m.set (off p out.length) c) p (out ++ [c]) rest (h + 1) := by
  have hl := k.le
  have hf := k.fits
  simp only [List.length_cons] at hf
  refine ⟨?_, ?_, by simp; omega, by omega⟩
  · intro i hi
    simp at hi
    by_cases he : i = out.length
    · subst he
      simp
    · rw [Mem.set_ne, List.getElem_append_left (by omega)]
      · exact k.held i (by omega)
      · intro e
        exact he (off_inj (by omega) (by omega) e)
  · apply (isStr_tail k.str).congr
    intro i hi
    rw [off_off, Mem.set_ne]
    intro e
    have := off_inj (by omega) (by omega) e
    omega

/-- Writing the byte already read does not change what is read at `h`. -/
theorem Pack.write_at {m p out c rest h} (k : Pack m p out (c :: rest) h) (i : Nat) (hi : i ≤ rest.length + 1) :
    (m.set (off p out.length) c) (off p (h + i)) = m (off p (h + i)) := by
  have hl := k.le
  have hf := k.fits
  simp only [List.length_cons] at hf
  by_cases he : h + i = out.length
  · have h1 : i = 0 := by omega
    subst h1
    rw [he, Mem.set_same]
    have := k.at0
    rw [Nat.add_zero] at he
    rw [he] at this
    rw [this]
    rfl
  · rw [Mem.set_ne]
    intro e
    exact he (off_inj (by omega) (by omega) e)

theorem ofNat_add (a b : Nat) : BitVec.ofNat 16 a + BitVec.ofNat 16 b = BitVec.ofNat 16 (a + b) := by
  apply BitVec.eq_of_toNat_eq
  simp [BitVec.toNat_add, BitVec.toNat_ofNat]

/-- What the passes leave: the bytes `t` at the beginning; nothing behind `n` is changed. -/
def Packed (m m' : Mem) (p : Word) (t : List Byte) (n : Nat) : Prop :=
  Holds m' p t ∧ t.length ≤ n ∧ SameExcept m m' p n

theorem sameExcept_set (m : Mem) (p : Word) {i n : Nat} (v : Byte) (hi : i < n) :
    SameExcept m (m.set (off p i) v) p n := by
  intro x hx
  exact Mem.set_ne _ _ (hx i hi)

theorem _root_.Cmm.SameExcept.trans {m1 m2 m3 : Mem} {p : Word} {n : Nat} (h : SameExcept m1 m2 p n)
    (h' : SameExcept m2 m3 p n) : SameExcept m1 m3 p n := by
  intro x hx
  rw [h' x hx, h x hx]

theorem _root_.Cmm.SameExcept.mono {m1 m2 : Mem} {p : Word} {n k : Nat} (h : SameExcept m1 m2 p n) (hk : n ≤ k) :
    SameExcept m1 m2 p k := by
  intro x hx
  exact h x (fun i hi => hx i (by omega))

theorem _root_.Cmm.SameExcept.refl (m : Mem) (p : Word) (n : Nat) : SameExcept m m p n := fun _ _ => rfl

theorem dotNext_iff {m : Mem} {p : Word} {h : Nat} {c : Byte} {r : List Byte} (hs : IsStr m (off p h) (c :: r)) :
    (m (off p (h + 1)) = 46#8 ∧ (m (off p (h + 2)) = 47#8 ∨ m (off p (h + 2)) = 0#8)) ↔ dotNext r = true := by
  have h1 := isStr_tail hs
  have e1 := isStr_head h1
  cases r with
  | nil =>
    rw [e1]
    simp [dotNext]
  | cons d r =>
    have h2 := isStr_tail h1
    have e2 := isStr_head h2
    rw [e1, e2]
    have hz : ∀ x ∈ r, x ≠ 0#8 := fun x hx => hs.nz x (by simp [hx])
    simp only [dotNext, List.head?_cons, Option.getD_some]
    cases r with
    | nil => simp
    | cons x r =>
      have := hz x (by simp)
      simp [this]

theorem dotDotNext_iff {m : Mem} {p : Word} {h : Nat} {c : Byte} {r : List Byte} (hs : IsStr m (off p h) (c :: r)) :
    (m (off p (h + 1)) = 46#8 ∧ m (off p (h + 2)) = 46#8 ∧
      (m (off p (h + 3)) = 47#8 ∨ m (off p (h + 3)) = 0#8)) ↔ dotDotNext r = true := by
  have h1 := isStr_tail hs
  have e1 := isStr_head h1
  cases r with
  | nil =>
    rw [e1]
    simp [dotDotNext]
  | cons d r =>
    have h2 := dotNext_iff h1
    rw [e1]
    simp only [List.head?_cons, Option.getD_some]
    rw [show h + 2 = h + 1 + 1 from rfl, show h + 3 = h + 1 + 2 from rfl, h2]
    cases r with
    | nil => simp [dotDotNext, dotNext]
    | cons x r => simp [dotDotNext, dotNext, and_assoc]

theorem dotNext_tail {r : List Byte} (h : dotNext r = true) : ∃ d q, r = d :: q := by
  cases r with
  | nil => simp [dotNext] at h
  | cons d q => exact ⟨d, q, rfl⟩

theorem delDotDirLoop_spec (p : Word) (t : List Byte) : ∀ (m : Mem) (out : List Byte) (h : Nat),
    Pack m p out t h →
    ∃ m', delDotDirLoop p m (BitVec.ofNat 16 out.length) (BitVec.ofNat 16 h) =
        some (m', BitVec.ofNat 16 (out ++ delDot t).length) ∧ Packed m m' p (out ++ delDot t) (h + t.length) := by
  induction hn : t.length using Nat.strong_induction_on generalizing t with
  | _ n ih =>
    subst hn
    intro m out h k
    have hat := k.at0
    cases t with
    | nil =>
      refine ⟨m, ?_, ?_⟩
      · rw [delDotDirLoop, add_ofNat, hat]
        simp [delDot]
      · simp only [delDot, List.append_nil]
        exact ⟨k.held, by have := k.le; simpa using this, SameExcept.refl _ _ _⟩
    | cons c r =>
      have hc : c ≠ 0#8 := k.str.nz c (by simp)
      simp only [List.head?_cons, Option.getD_some] at hat
      have hw := k.write
      have hl := k.le
      have w0 := k.write_at 0 (by omega)
      have w1 := k.write_at 1 (by omega)
      have hd : (m.set (off p out.length) c (off p (h + 1)) = 46#8 ∧
          (m.set (off p out.length) c (off p (h + 2)) = 47#8 ∨ m.set (off p out.length) c (off p (h + 2)) = 0#8)) ↔
          dotNext r = true := by
        rw [w1, ← dotNext_iff k.str]
        cases r with
        | nil =>
          have h0 : m (off p (h + 1)) = 0#8 := isStr_head (isStr_tail k.str)
          rw [h0]
          simp
        | cons d r =>
          have w2 := k.write_at 2 (by simp)
          rw [w2]
      rw [Nat.add_zero] at w0
      rw [delDotDirLoop, add_ofNat, add_ofNat, hat, if_pos hc]
      simp only [add_ofNat_succ]
      rw [show (2 : Word) = BitVec.ofNat 16 2 from rfl]
      simp only [ofNat_add]
      simp only [add_ofNat, w0, hat, hd]
      rw [delDot]
      have hset : SameExcept m (m.set (off p out.length) c) p (h + (c :: r).length) :=
        sameExcept_set m p c (by simp; omega)
      split
      · rename_i hcd
        obtain ⟨d, q, rfl⟩ := dotNext_tail hcd.2
        obtain ⟨m', e1, e2, e3, e4⟩ := ih q.length (by simp; omega) q rfl _ (out ++ [c]) (h + 1 + 1) hw.skip
        refine ⟨m', ?_, ?_, ?_, ?_⟩
        · simp only [List.length_append, List.length_cons, List.length_nil, Nat.zero_add] at e1
          rw [e1]
          simp [List.tail]
          congr 1
          omega
        · simpa using e2
        · simp at e3 ⊢
          omega
        · exact hset.trans (e4.mono (by simp; omega))
      · obtain ⟨m', e1, e2, e3, e4⟩ := ih r.length (by simp) r rfl _ (out ++ [c]) (h + 1) hw
        refine ⟨m', ?_, ?_, ?_, ?_⟩
        · simp only [List.length_append, List.length_cons, List.length_nil, Nat.zero_add] at e1
          rw [e1]
          simp
          congr 1
          omega
        · simpa using e2
        · simp at e3 ⊢
          omega
        · exact hset.trans (e4.mono (by simp; omega))

/-- From a packed buffer to a string. -/
theorem Packed.finish {m m' : Mem} {p : Word} {t : List Byte} {n : Nat} (h : Packed m m' p t n) (hn : n < 65536)
    (hz : ∀ c ∈ t, c ≠ 0#8) :
    IsStr (m'.set (off p t.length) 0#8) p t ∧ SameExcept m (m'.set (off p t.length) 0#8) p (n + 1) := by
  obtain ⟨h1, h2, h3⟩ := h
  refine ⟨⟨?_, hz, by simp, by omega⟩, ?_⟩
  · intro k hk
    rw [Mem.set_ne]
    · exact h1 k hk
    · intro e
      have := off_inj (by omega) (by omega) e
      omega
  · exact (h3.mono (by omega)).trans (sameExcept_set m' p _ (by omega))

theorem pack_start {m : Mem} {p : Word} {t : List Byte} (h : IsStr m p t) : Pack m p [] t 0 :=
  ⟨fun k hk => by simp at hk, by rw [off_zero]; exact h, by simp, by have := h.fits; omega⟩

theorem delDot_mem {t : List Byte} : ∀ c ∈ delDot t, c ∈ t := by
  induction hn : t.length using Nat.strong_induction_on generalizing t with
  | _ n ih =>
    subst hn
    intro c hc
    cases t with
    | nil => simp [delDot] at hc
    | cons d r =>
      rw [delDot] at hc
      split at hc
      · rcases List.mem_cons.1 hc with rfl | hc
        · simp
        · exact List.mem_cons_of_mem _ (List.mem_of_mem_tail (ih r.tail.length (by simp; omega) rfl c hc))
      · rcases List.mem_cons.1 hc with rfl | hc
        · simp
        · exact List.mem_cons_of_mem _ (ih r.length (by simp) rfl c hc)

theorem delDotDir_spec {m : Mem} {p : Word} {t : List Byte} (h : IsStr m p t) :
    ∃ m', delDotDir m p = some m' ∧ IsStr m' p (delDot t) ∧ SameExcept m m' p (t.length + 1) := by
  obtain ⟨m', e, hp⟩ := delDotDirLoop_spec p t m [] 0 (pack_start h)
  rw [List.nil_append, Nat.zero_add] at hp
  have hf := hp.finish h.fits (fun c hc => h.nz c (delDot_mem c hc))
  refine ⟨_, ?_, hf⟩
  unfold delDotDir
  simp only [List.length_nil, List.nil_append] at e
  show (delDotDirLoop p m (BitVec.ofNat 16 0) (BitVec.ofNat 16 0) >>= _) = _
  rw [e]
  rfl

theorem delDot_length (t : List Byte) : (delDot t).length ≤ t.length := by
  induction hn : t.length using Nat.strong_induction_on generalizing t with
  | _ n ih =>
    subst hn
    cases t with
    | nil => simp [delDot]
    | cons d r =>
      rw [delDot]
      split
      · have := ih r.tail.length (by simp; omega) r.tail rfl
        simp at this ⊢
        omega
      · have := ih r.length (by simp) r rfl
        simp
        omega

/-! oneSlash -/

theorem oneSlashLoop_spec (p : Word) (t : List Byte) : ∀ (m : Mem) (out : List Byte) (h : Nat),
    Pack m p out t h →
    (t ≠ [] → ∃ h' c r, slashLoop p m (BitVec.ofNat 16 h) = some (BitVec.ofNat 16 h') ∧ oneS t = c :: oneS r ∧
      Pack m p out (c :: r) h' ∧ h' + (c :: r).length = h + t.length ∧ r.length < t.length) := by
  intro m out h k
  induction t generalizing h with
  | nil => simp
  | cons c r ih =>
    intro _
    have hat := k.at0
    have hat1 := isStr_head (isStr_tail k.str)
    simp only [List.head?_cons, Option.getD_some] at hat
    have hz : ∀ x ∈ r, x ≠ 0#8 := fun x hx => k.str.nz x (by simp [hx])
    rw [slashLoop, add_ofNat_succ, add_ofNat, add_ofNat, hat, hat1, oneS]
    have hiff : (c = 47#8 ∧ r.head?.getD 0#8 = 47#8) ↔ (c = 47#8 ∧ r.head? = some 47#8) := by
      cases r with
      | nil => simp
      | cons d r => simp
    simp only [hiff]
    split
    · rename_i hc
      have hne : r ≠ [] := by
        rintro rfl
        simp at hc
      obtain ⟨h', d, q, e1, e2, e3, e4, e5⟩ := ih (h + 1) k.skip hne
      exact ⟨h', d, q, e1, e2, e3, by simp at e4 ⊢; omega, by simp; omega⟩
    · exact ⟨h, c, r, rfl, rfl, k, rfl, by simp⟩

theorem oneSlashLoop_run (p : Word) (t : List Byte) : ∀ (m : Mem) (out : List Byte) (h : Nat),
    Pack m p out t h →
    ∃ m', oneSlashLoop p m (BitVec.ofNat 16 out.length) (BitVec.ofNat 16 h) =
        some (m', BitVec.ofNat 16 (out ++ oneS t).length) ∧ Packed m m' p (out ++ oneS t) (h + t.length) := by
  induction hn : t.length using Nat.strong_induction_on generalizing t with
  | _ n ih =>
    subst hn
    intro m out h k
    have hat := k.at0
    cases t with
    | nil =>
      refine ⟨m, ?_, ?_⟩
      · rw [oneSlashLoop, add_ofNat, hat]
        simp [oneS]
      · simp only [oneS, List.append_nil]
        exact ⟨k.held, by have := k.le; simpa using this, SameExcept.refl _ _ _⟩
    | cons c r =>
      have hc : c ≠ 0#8 := k.str.nz c (by simp)
      simp only [List.head?_cons, Option.getD_some] at hat
      obtain ⟨h', d, q, e1, e2, e3, e4, e5⟩ := oneSlashLoop_spec p (c :: r) m out h k (by simp)
      rw [oneSlashLoop, add_ofNat, hat, if_pos hc, e1]
      simp only [add_ofNat_succ, add_ofNat]
      have hd : m (off p h') = d := e3.at0
      rw [hd, e2]
      have hl := e3.le
      obtain ⟨m', f1, f2, f3, f4⟩ := ih q.length e5 q rfl _ (out ++ [d]) (h' + 1) e3.write
      have hlen : h + (c :: r).length = h' + 1 + q.length := by rw [← e4]; simp; omega
      rw [hlen]
      refine ⟨m', ?_, ?_, ?_, ?_⟩
      · simp only [List.length_append, List.length_cons, List.length_nil, Nat.zero_add] at f1
        rw [f1]
        simp
        congr 1
        omega
      · simpa using f2
      · simp at f3 ⊢
        omega
      · exact (sameExcept_set m p d (by omega)).trans f4

theorem oneS_mem {t : List Byte} : ∀ c ∈ oneS t, c ∈ t := by
  induction t with
  | nil => simp [oneS]
  | cons d r ih =>
    intro c hc
    rw [oneS] at hc
    split at hc
    · exact List.mem_cons_of_mem _ (ih c hc)
    · rcases List.mem_cons.1 hc with rfl | hc
      · simp
      · exact List.mem_cons_of_mem _ (ih c hc)

theorem oneS_length (t : List Byte) : (oneS t).length ≤ t.length := by
  induction t with
  | nil => simp [oneS]
  | cons d r ih =>
    rw [oneS]
    split
    · simp; omega
    · simp; omega

theorem oneSlash_spec {m : Mem} {p : Word} {t : List Byte} (h : IsStr m p t) (hl : t.length < 32768) :
    ∃ m', oneSlash m p = some m' ∧ IsStr m' p (strip (oneS t)) ∧ SameExcept m m' p (t.length + 1) := by
  obtain ⟨m', e, hp⟩ := oneSlashLoop_run p t m [] 0 (pack_start h)
  rw [List.nil_append, Nat.zero_add] at hp
  simp only [List.length_nil, List.nil_append] at e
  have hlen := oneS_length t
  have hz : ∀ c ∈ oneS t, c ≠ 0#8 := fun c hc => h.nz c (oneS_mem c hc)
  have hcond : (ilt 1 (BitVec.ofNat 16 (oneS t).length) = true ∧
      m' (p + (BitVec.ofNat 16 (oneS t).length - 1)) = 47#8) ↔
      (1 < (oneS t).length ∧ (oneS t).getLast? = some 47#8) := by
    have h1 : ilt 1 (BitVec.ofNat 16 (oneS t).length) = decide (1 < (oneS t).length) :=
      ilt_ofNat (i := 1) (by omega) (by omega)
    rw [h1, decide_eq_true_eq]
    apply and_congr_right
    intro hgt
    have h2 : BitVec.ofNat 16 (oneS t).length - 1 = BitVec.ofNat 16 ((oneS t).length - 1) := by
      apply BitVec.eq_of_toNat_eq
      simp [BitVec.toNat_sub]
      omega
    rw [h2, add_ofNat, hp.1 _ (by omega), List.getLast?_eq_getElem?, List.getElem?_eq_getElem (by omega)]
    simp
  unfold oneSlash
  rw [show (0 : Word) = BitVec.ofNat 16 0 from rfl, e]
  simp only [Option.bind_eq_bind, Option.bind_some, Option.pure_def, Option.some.injEq]
  unfold strip
  by_cases hc : 1 < (oneS t).length ∧ (oneS t).getLast? = some 47#8
  · rw [if_pos (hcond.2 hc), if_pos hc]
    have h2 : BitVec.ofNat 16 (oneS t).length - 1 = BitVec.ofNat 16 (oneS t).dropLast.length := by
      apply BitVec.eq_of_toNat_eq
      simp [BitVec.toNat_sub]
      omega
    have hp' : Packed m m' p (oneS t).dropLast t.length := by
      refine ⟨?_, by simp; omega, hp.2.2⟩
      intro k hk
      simp at hk
      rw [hp.1 k (by omega)]
      simp
    have hf := hp'.finish h.fits (fun c hc => hz c (List.dropLast_subset _ hc))
    refine ⟨_, ?_, hf⟩
    rw [h2, add_ofNat]
  · rw [if_neg (fun h => hc (hcond.1 h)), if_neg hc]
    have hf := hp.finish h.fits hz
    exact ⟨_, by rw [add_ofNat], hf⟩

/-! delDotDotDir -/

theorem pop_back {out : List Byte} (n : Nat) (hn : n < out.length) :
    ∃ k, pop.back out n = out.take k ∧ k ≤ n := by
  induction n with
  | zero => exact ⟨0, by simp [pop.back], by omega⟩
  | succ n ih =>
    rw [pop.back]
    split
    · exact ⟨n + 1, rfl, by omega⟩
    · obtain ⟨k, e, hk⟩ := ih (by omega)
      exact ⟨k, e, by omega⟩

theorem backLoop_spec {m : Mem} {p : Word} {out : List Byte} (ho : Holds m p out) (n : Nat) (hn : n < out.length)
    (hs : n < 32768) :
    backLoop p m (BitVec.ofNat 16 n) = some (BitVec.ofNat 16 (pop.back out n).length) := by
  induction n with
  | zero =>
    rw [backLoop, if_neg]
    · simp [pop.back]
    · rintro ⟨h, _⟩
      revert h
      decide
  | succ n ih =>
    have h1 : ilt 0 (BitVec.ofNat 16 (n + 1)) = true := by
      have := ilt_ofNat (i := 0) (j := n + 1) (by omega) hs
      rw [show (0 : Word) = BitVec.ofNat 16 0 from rfl, this]
      simp
    have h2 : BitVec.ofNat 16 (n + 1) - 1 = BitVec.ofNat 16 n := by
      apply BitVec.eq_of_toNat_eq
      simp [BitVec.toNat_sub]
      omega
    rw [backLoop, h1, add_ofNat, ho _ hn, h2, pop.back, List.getElem?_eq_getElem hn]
    simp only [true_and, Option.some.injEq]
    split
    · rename_i hc
      exact ih (by omega) (by omega)
    · rename_i hc
      simp only [ne_eq, Decidable.not_not] at hc
      rw [if_pos hc]
      simp
      congr 1
      omega

theorem pop_prefix (out : List Byte) : ∃ k, pop out = out.take k ∧ k ≤ out.length := by
  unfold pop
  split
  · exact ⟨0, by simp, by omega⟩
  · rename_i n h
    obtain ⟨k, e, hk⟩ := pop_back (out := out) n (by omega)
    exact ⟨k, e, by omega⟩

theorem Pack.popped {m p out rest h} (k : Pack m p out rest h) : Pack m p (pop out) rest h := by
  obtain ⟨n, e, hn⟩ := pop_prefix out
  rw [e]
  refine ⟨?_, k.str, by have := k.le; simp; omega, k.fits⟩
  intro i hi
  simp at hi
  rw [k.held i (by omega)]
  simp

theorem delDotDotLoop_spec (p : Word) (t : List Byte) : ∀ (m : Mem) (out : List Byte) (h : Nat),
    Pack m p out t h → h + t.length < 32768 →
    ∃ m', delDotDotLoop p m (BitVec.ofNat 16 out.length) (BitVec.ofNat 16 h) =
        some (m', BitVec.ofNat 16 (delDotDot out t).length) ∧ Packed m m' p (delDotDot out t) (h + t.length) := by
  induction hn : t.length using Nat.strong_induction_on generalizing t with
  | _ n ih =>
    subst hn
    intro m out h k hs
    have hat := k.at0
    have hl := k.le
    cases t with
    | nil =>
      refine ⟨m, ?_, ?_⟩
      · rw [delDotDotLoop, add_ofNat, hat]
        simp [delDotDot]
      · simp only [delDotDot]
        exact ⟨k.held, by simpa using hl, SameExcept.refl _ _ _⟩
    | cons c r =>
      have hc : c ≠ 0#8 := k.str.nz c (by simp)
      simp only [List.head?_cons, Option.getD_some] at hat
      rw [delDotDotLoop, add_ofNat, hat, if_pos hc]
      rw [show (2 : Word) = BitVec.ofNat 16 2 from rfl, show (3 : Word) = BitVec.ofNat 16 3 from rfl]
      simp only [add_ofNat_succ, ofNat_add]
      simp only [add_ofNat, dotDotNext_iff k.str]
      have h1 : (m (off p (h + 1)) = 0#8) ↔ r = [] := by
        rw [isStr_head (isStr_tail k.str)]
        cases r with
        | nil => simp
        | cons d r => simpa using k.str.nz d (by simp)
      simp only [h1]
      rw [delDotDot]
      split
      · rename_i hcd
        have hr : ∃ d e q, r = d :: e :: q := by
          cases r with
          | nil => simp [dotDotNext] at hcd
          | cons d r =>
            cases r with
            | nil => simp [dotDotNext] at hcd
            | cons e q => exact ⟨d, e, q, rfl⟩
        obtain ⟨d, e, q, rfl⟩ := hr
        have k' := k.skip.skip.skip.popped
        obtain ⟨m', f1, f2, f3, f4⟩ := ih q.length (by simp; omega) q rfl m (pop out) (h + 1 + 1 + 1) k'
          (by simp at hs; omega)
        have hpop : (if ilt 0 (BitVec.ofNat 16 out.length) = true then
              match backLoop p m (BitVec.ofNat 16 out.length - 1) with
              | none => none
              | some l => delDotDotLoop p m l (BitVec.ofNat 16 (h + 2 + 1))
            else delDotDotLoop p m (BitVec.ofNat 16 out.length) (BitVec.ofNat 16 (h + 2 + 1))) =
            delDotDotLoop p m (BitVec.ofNat 16 (pop out).length) (BitVec.ofNat 16 (h + 2 + 1)) := by
          have hlt : ilt 0 (BitVec.ofNat 16 out.length) = decide (0 < out.length) :=
            ilt_ofNat (i := 0) (by omega) (by omega)
          rw [hlt]
          by_cases h0 : 0 < out.length
          · rw [if_pos (by simpa using h0)]
            have h2 : BitVec.ofNat 16 out.length - 1 = BitVec.ofNat 16 (out.length - 1) := by
              apply BitVec.eq_of_toNat_eq
              simp [BitVec.toNat_sub]
              omega
            rw [h2, backLoop_spec k.held (out.length - 1) (by omega) (by omega)]
            have : pop out = pop.back out (out.length - 1) := by
              unfold pop
              split
              · omega
              · rename_i n hn
                rw [hn]
                rfl
            rw [this]
          · rw [if_neg (by simpa using h0)]
            have : out = [] := by
              cases out with
              | nil => rfl
              | cons a l => simp at h0
            subst this
            rfl
        refine ⟨m', hpop.trans f1, f2, ?_, ?_⟩
        · simp at f3 ⊢
          omega
        · exact f4.mono (by simp; omega)
      · split
        · refine ⟨m, rfl, k.held, by simp; omega, SameExcept.refl _ _ _⟩
        · obtain ⟨m', f1, f2, f3, f4⟩ := ih r.length (by simp) r rfl _ (out ++ [c]) (h + 1) k.write
            (by simp at hs; omega)
          refine ⟨m', ?_, f2, ?_, ?_⟩
          · simp only [List.length_append, List.length_cons, List.length_nil, Nat.zero_add] at f1
            rw [f1]
          · simp at f3 ⊢
            omega
          · exact (sameExcept_set m p c (by simp; omega)).trans (f4.mono (by simp; omega))

theorem delDotDot_mem {out t : List Byte} : ∀ c ∈ delDotDot out t, c ∈ out ∨ c ∈ t := by
  induction hn : t.length using Nat.strong_induction_on generalizing t out with
  | _ n ih =>
    subst hn
    intro c hc
    cases t with
    | nil =>
      simp [delDotDot] at hc
      exact .inl hc
    | cons d r =>
      rw [delDotDot] at hc
      split at hc
      · rcases ih r.tail.tail.length (by simp; omega) rfl c hc with h | h
        · obtain ⟨k, e, _⟩ := pop_prefix out
          rw [e] at h
          exact .inl (List.mem_of_mem_take h)
        · exact .inr (List.mem_cons_of_mem _ (List.mem_of_mem_tail (List.mem_of_mem_tail h)))
      · split at hc
        · exact .inl hc
        · rcases ih r.length (by simp) rfl c hc with h | h
          · rcases List.mem_append.1 h with h | h
            · exact .inl h
            · simp at h
              subst h
              exact .inr (by simp)
          · exact .inr (List.mem_cons_of_mem _ h)

theorem delDotDotDir_spec {m : Mem} {p : Word} {t : List Byte} (h : IsStr m p t) (hl : t.length < 32768) :
    ∃ m', delDotDotDir m p = some m' ∧ IsStr m' p (delDotDot [] t) ∧ SameExcept m m' p (t.length + 1) := by
  obtain ⟨m', e, hp⟩ := delDotDotLoop_spec p t m [] 0 (pack_start h) (by omega)
  rw [Nat.zero_add] at hp
  have hf := hp.finish h.fits (fun c hc => h.nz c ((delDotDot_mem c hc).resolve_left (by simp)))
  refine ⟨_, ?_, hf⟩
  unfold delDotDotDir
  simp only [List.length_nil] at e
  show (delDotDotLoop p m (BitVec.ofNat 16 0) (BitVec.ofNat 16 0) >>= _) = _
  rw [e]
  rfl

end Cmm.Environ
