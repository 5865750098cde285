import Verif.Props.C59

/-
What can be said about the virtual stack of src/vm2tac.c without knowing which accumulators are busy: an abstraction of the
state that is computed from the stack code alone. It decides `Fits` (Verif/Props/C59.lean). For Verif/Props/C63.lean.
-/
namespace Cmm.Tac
open Cmm.Gen (Instr A1 A2)

/-- What a value on the virtual stack still depends on. -/
inductive D
  /-- Perhaps the constant 0. -/
  | zero
  /-- Nothing. -/
  | free
  /-- A global variable. -/
  | glb
  /-- A parameter or a local variable in the frame. -/
  | frame
  /-- The variable in register `r`. -/
  | reg (r : Int)
  /-- Memory. -/
  | ind
  /-- Memory and the variable in register `r`. -/
  | indR (r : Int)
deriving DecidableEq

/-- The value does not change with the memory. -/
def D.memFree : D → Bool
  | .zero | .free | .reg _ => true
  | _ => false

/-- The value does not change with register `r`. -/
def D.regFree (r : Int) : D → Bool
  | .reg x | .indR x => x != r
  | _ => true

/-- The value is not changed by a called function. -/
def D.callFree : D → Bool
  | .glb | .indR _ => false
  | _ => true

/-- After reading through the value as an address. -/
def D.deref : D → D
  | .reg r => .indR r
  | _ => .ind

/-- After the value was stored in memory: in its register or in an accumulator. -/
def D.kept : D → D
  | .reg r => .reg r
  | _ => .free

structure Vw where
  stk : List D
  /-- The entry the flags may belong to. -/
  pt : Option Nat
  g : Gh
  /-- The top is in the flags. -/
  fg : Bool
  /-- The top is not on the hardware stack. -/
  h0 : Bool
  /-- Neither is the one below. -/
  h1 : Bool

/-- A variable or constant is pushed. -/
def Vw.push (d : D) (a : Vw) : Vw := ⟨d :: a.stk, a.pt, a.g, false, true, a.h0⟩

/-- What a local variable stands for. -/
def locD (cnt : Int → Int) (n : Int) : D := if cnt n ≤ 9 then .reg (cnt n + 2) else .frame

/-- What a comparison with operands `d1` and `d0` asks for; `n` entries are below. -/
def cmpFit (eq : Bool) (d0 d1 : D) (n : Nat) (a : Vw) : Bool :=
  (!(decide (d0 = .zero) && decide (a.pt = some n)) || (a.h1 && (if eq then a.g != .no else a.g == .all))) &&
  (!(decide (d1 = .zero) && decide (a.pt = some (n + 1))) || (if eq then a.g != .no else a.g == .all))

/-- One instruction; `none` if it is not known to be translated correctly. -/
def view (cnt : Int → Int) (i : Instr) (a : Vw) : Option Vw :=
  match i, a.stk with
  | .lab _, [] | .jmp _, [] => some ⟨[], none, .all, false, false, false⟩
  | .jt _, _ :: P | .jf _, _ :: P =>
    if a.h0 && (a.fg || decide (a.pt ≠ some P.length) || a.g != .no) then
      some ⟨P, cutFlg a.pt P.length, sgh a.g i, false, false, false⟩ else none
  | .mreg, _ :: P | .pop, _ :: P | .arg, _ :: P =>
    if a.h0 then some ⟨P, cutFlg a.pt P.length, sgh a.g i, false, false, false⟩ else none
  | .ldC v, _ => some (a.push (if v = 0 then .zero else .free))
  | .ldG _, _ => some (a.push .glb)
  | .ldL n, _ => some (a.push (locD cnt n))
  | .ldP _, _ => some (a.push .frame)
  | .ldLab _, _ | .ldNam _, _ => some (a.push .free)
  | .callF .., P => if P.all D.callFree then some ⟨.free :: P, a.pt, .no, false, true, false⟩ else none
  | .callP .., P => if P.all D.callFree then some ⟨P, a.pt, .no, false, false, false⟩ else none
  | .ldW, _ :: d1 :: P | .ldB, _ :: d1 :: P =>
    if a.h0 then some ⟨d1.deref :: P, cutFlg a.pt (P.length + 1), .no, false, true, false⟩ else none
  | .stG _, d :: P | .stP _, d :: P =>
    if a.h0 && P.all D.memFree then some ⟨d.kept :: P, a.pt, a.g, false, true, false⟩ else none
  | .stL n, d :: P =>
    if a.h0 && P.all (if cnt n ≤ 9 then D.regFree (cnt n + 2) else D.memFree) then
      some ⟨(if cnt n ≤ 9 then .reg (cnt n + 2) else d.kept) :: P, a.pt, a.g, false, true, false⟩ else none
  | .stW, _ :: _ :: d2 :: P | .stB, _ :: _ :: d2 :: P =>
    if a.h0 && P.all D.memFree then some ⟨d2.kept :: P, cutFlg a.pt (P.length + 1), .no, false, true, false⟩ else none
  | .a1 _, _ :: P => if a.h0 then some ⟨.free :: P, some P.length, sgh a.g i, false, true, false⟩ else none
  | .a2 o, d0 :: d1 :: P =>
    if a.h0 && (match o with
      | .EQ | .NE => cmpFit true d0 d1 P.length a
      | .GT | .GE | .LT | .LE => cmpFit false d0 d1 P.length a
      | _ => true) then
      some ⟨.free :: P, some P.length, sgh a.g i, isCmp (.a2 o), true, false⟩ else none
  | _, _ => none

/-- A sequence of instructions. -/
def views (cnt : Int → Int) : List Instr → Vw → Option Vw
  | [], a => some a
  | i :: is, a => (view cnt i a).bind (views cnt is)

theorem views_append {cnt : Int → Int} (c c' : List Instr) (a : Vw) : views cnt (c ++ c') a = (views cnt c a).bind (views cnt c') := by
  induction c generalizing a with
  | nil => rfl
  | cons i c ih =>
    simp only [List.cons_append, views]
    cases view cnt i a with
    | none => rfl
    | some a' => exact ih a'

/-! ### The abstraction is right -/

/-- The entry is one of those `d` stands for. -/
def Cov (K : Int → Bool) (d : D) (e : Ent) : Prop :=
  match e.sta with
  | .ACC | .STK | .FLAG | .LABEL | .NAME => True
  | .CNST => e.aux = 0 → d = .zero
  | .GVAR => d = .glb
  | .LVAR => d = .frame ∧ K (-e.aux) = true ∧ K (-e.aux + 1) = true
  | .PRM => d = .frame ∧ K e.aux = true ∧ K (e.aux + 1) = true
  | .RVAR => d = .reg e.aux
  | .WINDR | .BINDR => (e.aux < 3 ∧ (d = .ind ∨ ∃ r, d = .indR r)) ∨ d = .indR e.aux

structure Seen (K : Int → Bool) (a : Vw) (t : T) : Prop where
  cov : List.Forall₂ (Cov K) a.stk t.stk
  pt : ∀ k, t.flg = some k → a.pt = some k
  fg : a.fg = true → ∃ e es, t.stk = e :: es ∧ e.sta = .FLAG
  h0 : a.h0 = true → Hot t
  h1 : a.h1 = true → ∀ e0 e1 es, t.stk = e0 :: e1 :: es → e1.sta ≠ .STK

/-- Variables of the frame are in the part `K` of the frame. -/
def Framed (cnt : Int → Int) (K : Int → Bool) (P : List Instr) : Prop :=
  (∀ n, .ldL n ∈ P → 9 < cnt n → K (-((cnt n - 9) * 2)) = true ∧ K (-((cnt n - 9) * 2) + 1) = true) ∧
  ∀ n, .ldP n ∈ P → K ((cnt n + 2) * 2) = true ∧ K ((cnt n + 2) * 2 + 1) = true

section
variable {K : Int → Bool} {cnt : Int → Int}

theorem Cov.moved {d : D} {e e' : Ent} (h : Cov K d e) (hm : Moved e e') : Cov K d e' := by
  rcases hm with rfl | hm | hm
  · exact h
  · simp [Cov, hm]
  · simp [Cov, hm]

theorem cov_moved {P : List D} {es es' : List Ent} (h : List.Forall₂ (Cov K) P es) (hm : List.Forall₂ Moved es es') :
    List.Forall₂ (Cov K) P es' := by
  induction h generalizing es' with
  | nil => cases hm; exact .nil
  | cons h1 _ ih =>
    cases hm with
    | cons h2 h3 => exact .cons (h1.moved h2) (ih h3)

theorem cov_mem {d : D} {e : Ent} (h : Cov K d e) (hd : d.memFree = true) : memFree e = true := by
  obtain ⟨sta, a⟩ := e
  cases sta <;> simp only [Cov, memFree] at h ⊢
  · subst h; cases hd
  · rw [h.1] at hd; cases hd
  · rw [h.1] at hd; cases hd
  · rcases h with ⟨-, rfl | ⟨r, rfl⟩⟩ | rfl <;> cases hd
  · rcases h with ⟨-, rfl | ⟨r, rfl⟩⟩ | rfl <;> cases hd

theorem cov_reg {r : Int} (hr : 3 ≤ r) {d : D} {e : Ent} (h : Cov K d e) (hd : d.regFree r = true) : regFree r e = true := by
  obtain ⟨sta, a⟩ := e
  cases sta <;> simp only [Cov, regFree] at h ⊢
  · subst h; exact hd
  · rcases h with ⟨h, -⟩ | rfl
    · simp; omega
    · exact hd
  · rcases h with ⟨h, -⟩ | rfl
    · simp; omega
    · exact hd

theorem cov_call {d : D} {e : Ent} (h : Cov K d e) (hd : d.callFree = true) : callFree K e = true := by
  obtain ⟨sta, a⟩ := e
  cases sta <;> simp only [Cov] at h
  case GVAR => subst h; cases hd
  case LVAR => simp [callFree, h.2.1, h.2.2]
  case PRM => simp [callFree, h.2.1, h.2.2]
  case WINDR =>
    rcases h with ⟨h, -⟩ | rfl
    · simp [callFree, isAcc, AccSIZ, h]
    · cases hd
  case BINDR =>
    rcases h with ⟨h, -⟩ | rfl
    · simp [callFree, isAcc, AccSIZ, h]
    · cases hd
  all_goals simp [callFree, isAcc]

theorem cov_all {p : D → Bool} {q : Ent → Bool} (hpq : ∀ d e, Cov K d e → p d = true → q e = true) {P : List D} {es : List Ent}
    (h : List.Forall₂ (Cov K) P es) (hp : P.all p = true) : es.all q = true := by
  induction h with
  | nil => rfl
  | cons h1 _ ih =>
    simp only [List.all_cons, Bool.and_eq_true] at hp ⊢
    exact ⟨hpq _ _ h1 hp.1, ih hp.2⟩

theorem cov_zero {d : D} {e : Ent} (h : Cov K d e) (hc : isCnst0 e = true) : d = .zero := by
  obtain ⟨sta, a⟩ := e
  simp only [isCnst0, Bool.and_eq_true, decide_eq_true_eq] at hc
  obtain ⟨rfl, rfl⟩ := hc
  exact h rfl

theorem if_some {α : Type} {c : Prop} [Decidable c] {x y : α} (h : (if c then some x else none) = some y) : c ∧ x = y := by
  by_cases hc : c
  · rw [if_pos hc] at h; exact ⟨hc, Option.some.inj h⟩
  · rw [if_neg hc] at h; cases h

/-- A step the abstraction allows meets none of the known defects. -/
theorem view_fit {a a' : Vw} {t : T} {i : Instr} (hc : Counted cnt [.i i]) (hs : Seen K a t) (h : view cnt i a = some a') :
    fit cnt K a.g t i = true := by
  obtain ⟨stk, pt, g, fg, h0, h1⟩ := a
  obtain ⟨cov, hpt, hfg, hh0, hh1⟩ := hs
  have jump : ∀ {d : D} {P : List D}, stk = d :: P → (fg || decide (pt ≠ some P.length) || g != .no) = true →
      (!borrowed t || g != .no) = true := by
    intro d P he hx
    subst he
    dsimp only at cov
    rcases hts : t.stk with _ | ⟨e, es⟩
    · simp [borrowed, hts]
    rw [hts] at cov
    obtain ⟨c1, c2⟩ := List.forall₂_cons.1 cov
    have hl : P.length = es.length := c2.length_eq
    simp only [Bool.or_eq_true, decide_eq_true_eq] at hx
    rcases hx with (hx | hx) | hx
    · obtain ⟨e', es', h1, h2⟩ := hfg hx
      rw [hts] at h1
      cases h1
      simp [borrowed, hts, h2]
    · have : ¬ t.flg = some es.length := fun hf => hx (by rw [hl]; exact hpt _ hf)
      simp [borrowed, hts, this]
    · simp [hx]
  have comp : ∀ {d0 d1 : D} {P : List D} (eq : Bool), stk = d0 :: d1 :: P → cmpFit eq d0 d1 P.length ⟨stk, pt, g, fg, h0, h1⟩ = true →
      (!elided t || (secondIn t && (if eq then g != .no else g == .all))) = true := by
    intro d0 d1 P eq he hx
    subst he
    dsimp only at cov
    rcases hts : t.stk with _ | ⟨e0, _ | ⟨e1, es⟩⟩
    · simp [elided, hts]
    · simp [elided, hts]
    rw [hts] at cov
    obtain ⟨c0, c⟩ := List.forall₂_cons.1 cov
    obtain ⟨c1, c⟩ := List.forall₂_cons.1 c
    have hl : P.length = es.length := c.length_eq
    by_cases hel : elided t = true
    · rw [hel]
      simp only [cmpFit, Bool.and_eq_true, Bool.or_eq_true, Bool.not_eq_true', Bool.and_eq_false_iff, decide_eq_false_iff_not] at hx
      simp only [elided, hts, Bool.or_eq_true, Bool.and_eq_true, beq_iff_eq] at hel
      simp only [Bool.not_true, Bool.false_or, Bool.and_eq_true, secondIn, hts, bne_iff_ne, ne_eq]
      rcases hel with ⟨k1, k2⟩ | ⟨k1, k2⟩
      · have z := cov_zero c0 k1
        have p := hpt _ k2
        rcases hx.1 with (hx | hx) | hx
        · exact absurd z hx
        · exact absurd (by rw [hl]; exact p) hx
        · exact ⟨hh1 hx.1 _ _ _ hts, hx.2⟩
      · have z := cov_zero c1 k1
        have p := hpt _ k2
        simp only [isCnst0, Bool.and_eq_true, decide_eq_true_eq] at k1
        rcases hx.2 with (hx | hx) | hx
        · exact absurd z hx
        · exact absurd (by rw [hl]; exact p) hx
        · exact ⟨by rw [k1.1]; simp, hx⟩
    · simp [hel]
  cases i <;> simp only [fit]
  case jt n =>
    rcases stk with _ | ⟨d, P⟩ <;> simp only [view, reduceCtorEq] at h
    · have hx := (if_some h).1; simp only [Bool.and_eq_true] at hx; exact jump rfl hx.2
  case jf n =>
    rcases stk with _ | ⟨d, P⟩ <;> simp only [view, reduceCtorEq] at h
    · have hx := (if_some h).1; simp only [Bool.and_eq_true] at hx; exact jump rfl hx.2
  case a2 o =>
    rcases stk with _ | ⟨d0, _ | ⟨d1, P⟩⟩ <;> simp only [view, reduceCtorEq] at h
    · have hx := (if_some h).1
      simp only [Bool.and_eq_true] at hx
      cases o <;> first
        | rfl
        | exact comp true rfl hx.2
        | exact comp false rfl hx.2
  case stG n =>
    rcases stk with _ | ⟨d, P⟩ <;> simp only [view, reduceCtorEq] at h
    · have hx := (if_some h).1
      simp only [Bool.and_eq_true] at hx
      generalize t.stk = es at cov
      cases cov with
      | cons _ c => exact cov_all (fun _ _ => cov_mem) c hx.2
  case stP n =>
    rcases stk with _ | ⟨d, P⟩ <;> simp only [view, reduceCtorEq] at h
    · have hx := (if_some h).1
      simp only [Bool.and_eq_true] at hx
      generalize t.stk = es at cov
      cases cov with
      | cons _ c => exact cov_all (fun _ _ => cov_mem) c hx.2
  case stL n =>
    have hn := hc n (.inr (by simp))
    rcases stk with _ | ⟨d, P⟩ <;> simp only [view, reduceCtorEq] at h
    · have hx := (if_some h).1
      simp only [Bool.and_eq_true] at hx
      generalize t.stk = es at cov
      cases cov with
      | cons _ c =>
        refine cov_all (fun d e hc hd => ?_) c hx.2
        split
        · rename_i hh
          rw [if_pos hh] at hd
          exact cov_reg (by omega) hc hd
        · rename_i hh
          rw [if_neg hh] at hd
          exact cov_mem hc hd
  case stW =>
    rcases stk with _ | ⟨d0, _ | ⟨d1, _ | ⟨d2, P⟩⟩⟩ <;> simp only [view, reduceCtorEq] at h
    · have hx := (if_some h).1
      simp only [Bool.and_eq_true] at hx
      generalize t.stk = es at cov
      rcases cov with _ | ⟨_, _ | ⟨_, _ | ⟨_, c⟩⟩⟩
      exact cov_all (fun _ _ => cov_mem) c hx.2
  case stB =>
    rcases stk with _ | ⟨d0, _ | ⟨d1, _ | ⟨d2, P⟩⟩⟩ <;> simp only [view, reduceCtorEq] at h
    · have hx := (if_some h).1
      simp only [Bool.and_eq_true] at hx
      generalize t.stk = es at cov
      rcases cov with _ | ⟨_, _ | ⟨_, _ | ⟨_, c⟩⟩⟩
      exact cov_all (fun _ _ => cov_mem) c hx.2
  case callF n f =>
    simp only [view] at h
    · have hx := (if_some h).1; exact cov_all (fun _ _ => cov_call) cov hx
  case callP n f =>
    simp only [view] at h
    · have hx := (if_some h).1; exact cov_all (fun _ _ => cov_call) cov hx

/-! #### One step -/

theorem cut_sub {f p : Option Nat} (h : ∀ k, f = some k → p = some k) (n : Nat) : ∀ k, cutFlg f n = some k → cutFlg p n = some k := by
  intro k hk
  cases f with
  | none => cases hk
  | some j => rw [h j rfl]; exact hk

theorem cut_le {f : Option Nat} {n k : Nat} (h : cutFlg f n = some k) : f = some k ∧ k < n := by
  cases f with
  | none => cases h
  | some j =>
    simp only [cutFlg] at h
    split at h
    · cases h
    · cases h; exact ⟨rfl, by omega⟩

theorem cut_lt {k n : Nat} (h : k < n) : cutFlg (some k) n = some k := by
  simp only [cutFlg]
  rw [if_neg (by omega)]

theorem flg_sub {κ : Nat} {t t1 : T} {p : Option Nat} (mi : Mics κ t t1) (h : ∀ k, t.flg = some k → p = some k) :
    ∀ k, t1.flg = some k → p = some k := by
  intro k hk
  rcases mi.flg with hf | hf
  · exact h k (hf ▸ hk)
  · rw [hf] at hk; cases hk

/-- An entry that was kept for a store. -/
theorem cov_kept {d : D} {e e' : Ent} (h : Cov K d e') (he : e'.sta = .RVAR ∨ e'.sta = .ACC) : Cov K d.kept e' := by
  obtain ⟨sta, a⟩ := e'
  simp only at he
  rcases he with rfl | rfl
  · simp only [Cov] at h ⊢
    subst h
    rfl
  · simp [Cov]

theorem cov_deref {d : D} {k : Sta} {r : Int} (hk : k = .WINDR ∨ k = .BINDR) (h : (0 ≤ r ∧ r < 3) ∨ d = .reg r) : Cov K d.deref ⟨k, r⟩ := by
  have : (r < 3 ∧ (d.deref = .ind ∨ ∃ x, d.deref = .indR x)) ∨ d.deref = .indR r := by
    rcases h with h | rfl
    · left
      refine ⟨h.2, ?_⟩
      cases d <;> simp [D.deref]
    · right; rfl
  rcases hk with rfl | rfl <;> exact this

theorem acc_rng {t : T} (w : W t) {e : Ent} (he : e ∈ t.stk) (ha : isAcc e = true) : 0 ≤ e.aux ∧ e.aux < 3 := by
  apply w.rng
  obtain ⟨hi, lo, h⟩ := List.append_of_mem he
  rw [h, accs_split, acc1_acc ha]
  simp

theorem ldForm_view {o : TOp} {k : Sta} {a : Vw} {t t' : T} {e0 e1 : Ent} {es : List Ent} {d0 d1 : D} {P : List D} (w : W t)
    (hk : k = .WINDR ∨ k = .BINDR) (hs : t.stk = e0 :: e1 :: es) (hst : a.stk = d0 :: d1 :: P) (hsm : Seen K a t)
    (h : LdForm o k t t' e0 e1 es) :
    Seen K ⟨d1.deref :: P, cutFlg a.pt (P.length + 1), .no, false, true, false⟩ t' := by
  have cov := hsm.cov
  rw [hs, hst] at cov
  have hl : P.length = es.length := by have := cov.length_eq; simpa using this
  obtain ⟨c0, c⟩ := List.forall₂_cons.1 cov
  obtain ⟨c1, c⟩ := List.forall₂_cons.1 c
  have fin : ∀ r es', t'.stk = ⟨k, r⟩ :: es' → List.Forall₂ (Cov K) P es' → ((0 ≤ r ∧ r < 3) ∨ d1 = .reg r) →
      (∀ j, t'.flg = some j → cutFlg a.pt (P.length + 1) = some j) →
      Seen K ⟨d1.deref :: P, cutFlg a.pt (P.length + 1), .no, false, true, false⟩ t' := by
    intro r es' h1 h2 h3 h4
    refine ⟨?_, h4, nofun, fun _ => ⟨_, _, h1, ?_⟩, nofun⟩
    · rw [h1]; exact .cons (cov_deref hk h3) h2
    · rcases hk with rfl | rfl <;> simp
  rcases h with ⟨_, hr, rfl⟩ | ⟨_, t1, x, es', mi, hs1, hl1, rfl⟩ | ⟨t1, x, es', sr, mi, hs1, hl1, _, hf, rfl⟩
  · refine fin _ _ rfl c (.inr ?_) ?_
    · obtain ⟨sta, y⟩ := e1
      simp only at hr
      subst hr
      exact c1
    · intro j hj
      have hj : cutFlg t.flg (t.stk.length - 1) = some j := hj
      have := cut_sub hsm.pt _ _ hj
      rw [hs] at this
      simpa [hl] using this
  · have hmv := mi.moved
    rw [hs, hs1] at hmv
    have w1 := mi.W w
    refine fin _ _ rfl (cov_moved c (List.forall₂_cons.1 (List.forall₂_cons.1 hmv).2).2) (.inl ?_) ?_
    · exact acc_rng w1 (e := ⟨.ACC, x⟩) (by rw [hs1]; simp) rfl
    · intro j hj
      have hj : cutFlg t1.flg (t1.stk.length - 1) = some j := hj
      have := cut_sub (flg_sub mi hsm.pt) _ _ hj
      rw [hs1] at this
      simpa [hl, hl1] using this
  · have hmv := mi.moved
    rw [hs, hs1] at hmv
    have w1 := mi.W w
    refine fin _ _ rfl (cov_moved c (List.forall₂_cons.1 (List.forall₂_cons.1 hmv).2).2) (.inl ?_) ?_
    · exact acc_rng w1 (e := ⟨.ACC, x⟩) (by rw [hs1]; simp) rfl
    · intro j hj
      have hj : cutFlg t1.flg _ = some j := hj
      rw [hf] at hj
      cases hj

theorem ldByt_view {a : Vw} {t t' : T} {e0 e1 : Ent} {es : List Ent} {d0 d1 : D} {P : List D} (w : W t)
    (hs : t.stk = e0 :: e1 :: es) (h0 : e0.sta ≠ .STK) (hst : a.stk = d0 :: d1 :: P) (hsm : Seen K a t) (h : vmLdByt t = some t') :
    Seen K ⟨d1.deref :: P, cutFlg a.pt (P.length + 1), .no, false, true, false⟩ t' := by
  rcases vmLdByt_form w hs h0 h with h | ⟨ha, _, t1, sr, es', mi, hs1, hl, hop, hf, rfl⟩
  · exact ldForm_view w (.inr rfl) hs hst hsm h
  · have cov := hsm.cov
    rw [hs, hst] at cov
    obtain ⟨c0, c⟩ := List.forall₂_cons.1 cov
    obtain ⟨c1, c⟩ := List.forall₂_cons.1 c
    have hmv := mi.moved
    rw [hs, hs1] at hmv
    refine ⟨.cons (cov_deref (.inr rfl) (.inl ?_)) (cov_moved c (List.forall₂_cons.1 (List.forall₂_cons.1 hmv).2).2), ?_, nofun,
      fun _ => ⟨_, _, rfl, by simp⟩, nofun⟩
    · exact acc_rng w (e := e0) (by rw [hs]; simp) (by simp [isAcc, ha])
    · intro j hj
      have hj : cutFlg t1.flg _ = some j := hj
      rw [hf] at hj
      cases hj

theorem stForm_view {s : Src} {a : Vw} {t t' : T} {e : Ent} {es : List Ent} {d : D} {P : List D}
    (hs : t.stk = e :: es) (hst : a.stk = d :: P) (hsm : Seen K a t) (h : StForm s t t' es) :
    Seen K ⟨d.kept :: P, a.pt, a.g, false, true, false⟩ t' := by
  obtain ⟨t1, e', es', mi, hs1, he, hl, rfl⟩ := h
  have cov := cov_moved hsm.cov mi.moved
  rw [hs1, hst] at cov
  obtain ⟨c0, c⟩ := List.forall₂_cons.1 cov
  refine ⟨?_, fun k (hk : t1.flg = some k) => flg_sub mi hsm.pt k hk, nofun, fun _ => ⟨e', es', hs1, ?_⟩, nofun⟩
  · show List.Forall₂ _ _ t1.stk
    rw [hs1]
    exact .cons (cov_kept (e := e) c0 he) c
  · rcases he with he | he <;> rw [he] <;> simp

theorem storeInd_view {d : Int → Src} {a : Vw} {t t' : T} {k : Sta} {r : Int} {es : List Ent} {d0 d1 : D} {P : List D}
    (w : W t) (hs : t.stk = ⟨k, r⟩ :: es) (hk : k = .WINDR ∨ k = .BINDR) (hst : a.stk = d0 :: d1 :: P) (hsm : Seen K a t)
    (h : storeInd d t = some t') : Seen K ⟨d1.kept :: P, cutFlg a.pt (P.length + 1), .no, false, true, false⟩ t' := by
  have cov := hsm.cov
  rw [hs, hst] at cov
  obtain ⟨c0, c⟩ := List.forall₂_cons.1 cov
  rcases es with _ | ⟨e1, es⟩
  · cases c
  obtain ⟨t1, e', es', mi, hs1, he, hl, rfl⟩ := storeInd_form w hs hk h
  have hlp : P.length = es.length := by have := c.length_eq; simpa using this
  have cov := cov_moved hsm.cov mi.moved
  rw [hs1, hst] at cov
  obtain ⟨c0, c⟩ := List.forall₂_cons.1 cov
  obtain ⟨c1, c⟩ := List.forall₂_cons.1 c
  refine ⟨?_, ?_, nofun, fun _ => ⟨e', es', by simp [relDrop, hs1], ?_⟩, nofun⟩
  · simp only [relDrop, hs1, List.tail_cons]
    exact .cons (cov_kept (e := e1) c1 he) c
  · intro j hj
    have hj : cutFlg t1.flg (t1.stk.length - 1) = some j := hj
    have := cut_sub (flg_sub mi hsm.pt) _ _ hj
    rw [hs1] at this
    simpa [hl, hlp] using this
  · rcases he with he | he <;> rw [he] <;> simp

theorem drop_view {a : Vw} {κ : Nat} {g : Gh} {t t1 t' : T} {e : Ent} {es : List Ent} {d : D} {P : List D} (mi : Mics κ t t1)
    (hs : t1.stk = e :: es) (hst : a.stk = d :: P) (hsm : Seen K a t) (hs' : t'.stk = es) (hf : t'.flg = cutFlg t1.flg es.length) :
    Seen K ⟨P, cutFlg a.pt P.length, g, false, false, false⟩ t' := by
  have cov := cov_moved hsm.cov mi.moved
  rw [hs, hst] at cov
  obtain ⟨c0, c⟩ := List.forall₂_cons.1 cov
  refine ⟨by rw [hs']; exact c, ?_, nofun, nofun, nofun⟩
  intro j hj
  rw [hf, ← c.length_eq] at hj
  exact cut_sub (flg_sub mi hsm.pt) _ _ hj

theorem cal_view {o : TOp} {g : Gh} {t t' : T} {e0 e1 : Ent} {es : List Ent} {P : List D} (w : W t) (hs : t.stk = e0 :: e1 :: es)
    (h0 : e0.sta ≠ .STK) (c : List.Forall₂ (Cov K) P es) (h : cal o t = some t') :
    Seen K ⟨.free :: P, some P.length, g, false, true, false⟩ t' := by
  obtain ⟨t1, a, es', sr, mi, hs1, hl, ho, hf, rfl⟩ := cal_form w hs h0 h
  have hmv := mi.moved
  rw [hs, hs1] at hmv
  have c' := cov_moved c (List.forall₂_cons.1 (List.forall₂_cons.1 hmv).2).2
  refine ⟨?_, ?_, nofun, fun _ => ⟨⟨.ACC, a⟩, es', by simp [relDrop, hs1], by simp⟩, nofun⟩
  · simp only [relDrop, hs1, List.tail_cons]
    exact .cons trivial c'
  · intro k hk
    have hk : some es'.length = some k := hk
    cases hk
    simp [c'.length_eq]

theorem rcal_view {o : TOp} {g : Gh} {t t' : T} {e0 e1 : Ent} {es : List Ent} {P : List D} (w : W t) (hs : t.stk = e0 :: e1 :: es)
    (h0 : e0.sta ≠ .STK) (c : List.Forall₂ (Cov K) P es) (h : rcal o t = some t') :
    Seen K ⟨.free :: P, some P.length, g, false, true, false⟩ t' := by
  rcases rcal_form hs h with h | ⟨ha, k1, k2, h⟩
  · exact cal_view w hs h0 c h
  · exact cal_view (w.swap hs ⟨h0, by rw [ha]; simp⟩ ⟨k1, k2⟩) (e0 := e1) (e1 := e0) (es := es) (by simp [setTwo, hs]) k1 c h

theorem cmpEnd_flg {j : Nat} {t t' : T} {e0 e1 : Ent} {es : List Ent} (w : W t) (hs : t.stk = e0 :: e1 :: es)
    (h : cmpEnd j t = some t') : t'.flg = some es.length := by
  obtain ⟨t2, a, mi, _, _, hl, _, rfl⟩ := cmpEnd_form w hs h
  show some t2.stk.length = _
  rw [hl]

theorem cmp_flg {j : Nat} {t t' : T} {e0 e1 : Ent} {es : List Ent} (w : W t) (hs : t.stk = e0 :: e1 :: es)
    (h0 : e0.sta ≠ .STK) (h : cmp j t = some t') : t'.flg = some es.length := by
  rw [cmp_eq j hs] at h
  split at h
  · exact cmpEnd_flg w hs h
  · split at h
    · exact cmpEnd_flg w hs h
    · cases h1 : cmpCode j t with
      | none => rw [h1] at h; cases h
      | some xx =>
        rw [h1] at h
        simp only [Option.bind_some] at h
        obtain ⟨sw, f0, f1, t1, r, es', sr, hsw, hff, mi, hst, hl, ho, hf, rfl⟩ := cmpCode_form w hs h0 h1
        have w0 : W (if sw = true then setTwo e1 e0 t else t) := by
          cases sw with
          | false => exact w
          | true =>
            simp only [if_true, Prod.mk.injEq] at hff ⊢
            obtain ⟨ha, k1, k2⟩ := hsw rfl
            exact w.swap hs ⟨h0, by rcases ha with h | h <;> rw [h] <;> simp⟩ ⟨k1, k2⟩
        have w1 := mi.W w0
        have hst' : ∃ y0 y1, t1.stk = y0 :: y1 :: es' := by
          rcases hst with ⟨_, _, h⟩ | h <;> exact ⟨_, _, h⟩
        obtain ⟨y0, y1, hst'⟩ := hst'
        rw [cmpEnd_flg (w1.out (t1.out ++ [.op .CMP (.g r) sr])) hst' h, hl]

theorem cmp_view {j : Nat} {g : Gh} {t t' : T} {e0 e1 : Ent} {es : List Ent} {P : List D} (w : W t) (hs : t.stk = e0 :: e1 :: es)
    (h0 : e0.sta ≠ .STK) (c : List.Forall₂ (Cov K) P es) (h : cmp j t = some t') :
    Seen K ⟨.free :: P, some P.length, g, true, true, false⟩ t' := by
  obtain ⟨a, es', h1, h2⟩ := cmp_moved w hs h0 h
  refine ⟨?_, ?_, fun _ => ⟨_, _, h1, rfl⟩, fun _ => ⟨_, _, h1, by simp⟩, nofun⟩
  · rw [h1]; exact .cons trivial (cov_moved c h2)
  · intro k hk
    rw [cmp_flg w hs h0 h] at hk
    rw [← hk, c.length_eq]

theorem binary_view {o : A2} {g : Gh} {t t' : T} {e0 e1 : Ent} {es : List Ent} {P : List D} (w : W t) (hs : t.stk = e0 :: e1 :: es)
    (h0 : e0.sta ≠ .STK) (c : List.Forall₂ (Cov K) P es) (h : binary o t = some t') :
    Seen K ⟨.free :: P, some P.length, g, isCmp (.a2 o), true, false⟩ t' := by
  cases o with
  | ADD => exact rcal_view w hs h0 c h
  | SUB => exact cal_view w hs h0 c h
  | SHL => exact cal_view w hs h0 c h
  | SHR => exact cal_view w hs h0 c h
  | BAND => exact rcal_view w hs h0 c h
  | BXOR => exact rcal_view w hs h0 c h
  | BOR => exact rcal_view w hs h0 c h
  | MUL =>
    rcases vmMul_form w hs h with ⟨hc, hp, h⟩ | ⟨hc, hp, hnf, h⟩ | h
    · exact cal_view (w.setCst' hs hc) (e0 := ⟨.CNST, isPower2 e0.aux⟩) (e1 := e1) (es := es) (by simp [setTop, hs]) (by simp) c h
    · exact cal_view (mul_left_swap (c := isPower2 e1.aux) w hs hc h0 hnf) (e0 := ⟨.CNST, isPower2 e1.aux⟩) (e1 := e0) (es := es)
        (by simp [setTwo, hs]) (by simp) c h
    · exact rcal_view w hs h0 c h
  | DIV =>
    have h : vmDiv t = some t' := h
    unfold vmDiv at h
    simp only [Tac.top, hs, List.head?_cons, Option.bind_eq_bind, Option.bind_some] at h
    split at h
    · rename_i hc
      exact cal_view (w.setCst' hs hc.1) (e0 := ⟨.CNST, isPower2 e0.aux⟩) (e1 := e1) (es := es) (by simp [setTop, hs]) (by simp) c h
    · exact cal_view w hs h0 c h
  | MOD =>
    have h : vmMod t = some t' := h
    unfold vmMod at h
    simp only [Tac.top, hs, List.head?_cons, Option.bind_eq_bind, Option.bind_some] at h
    split at h
    · rename_i hc
      exact rcal_view (w.setCst' hs hc.1) (e0 := ⟨.CNST, 2 ^ (isPower2 e0.aux).toNat - 1⟩) (e1 := e1) (es := es) (by simp [setTop, hs]) (by simp) c h
    · exact cal_view w hs h0 c h
  | GT => exact cmp_view w hs h0 c h
  | GE => exact cmp_view w hs h0 c h
  | LT => exact cmp_view w hs h0 c h
  | LE => exact cmp_view w hs h0 c h
  | EQ => exact cmp_view w hs h0 c h
  | NE => exact cmp_view w hs h0 c h

theorem push_view {d : D} {e : Ent} {a : Vw} {t t' : T} (hc : Cov K d e) (he : e.sta ≠ .STK) (hsm : Seen K a t)
    (h : pushStk e t = some t') : Seen K (a.push d) t' := by
  rw [pushStk_form h]
  refine ⟨.cons hc hsm.cov, hsm.pt, nofun, fun _ => ⟨_, _, rfl, he⟩, fun hh e0 e1 es hs => ?_⟩
  obtain ⟨x, xs, h1, h2⟩ := hsm.h0 hh
  have hs : e :: t.stk = e0 :: e1 :: es := hs
  rw [h1] at hs
  cases hs
  exact h2

/-- The abstraction follows the translation. -/
theorem view_emit {a a' : Vw} {t t' : T} {i : Instr} (w : W t) (hc : Counted cnt [.i i]) (hK : Framed cnt K [i]) (hsm : Seen K a t)
    (hv : view cnt i a = some a') (h : emit cnt i t = some t') : Seen K a' t' := by
  have one : ∀ {d : D} {P : List D}, a.stk = d :: P → a.h0 = true →
      ∃ e es, t.stk = e :: es ∧ e.sta ≠ .STK ∧ Cov K d e ∧ List.Forall₂ (Cov K) P es := by
    intro d P hP hh
    obtain ⟨e, es, hs, h0⟩ := hsm.h0 hh
    have cov := hsm.cov
    rw [hs, hP] at cov
    exact ⟨e, es, hs, h0, (List.forall₂_cons.1 cov).1, (List.forall₂_cons.1 cov).2⟩
  have two : ∀ {d0 d1 : D} {P : List D}, a.stk = d0 :: d1 :: P → a.h0 = true →
      ∃ e0 e1 es, t.stk = e0 :: e1 :: es ∧ e0.sta ≠ .STK ∧ List.Forall₂ (Cov K) P es := by
    intro d0 d1 P hP hh
    obtain ⟨e, es, hs, h0, -, c⟩ := one hP hh
    cases c with
    | cons c1 c2 => exact ⟨_, _, _, hs, h0, c2⟩
  cases i with
  | lab n =>
    cases h
    cases hst : a.stk with
    | cons d P => simp only [view, hst, reduceCtorEq] at hv
    | nil =>
      simp only [view, hst, Option.some.injEq] at hv
      subst hv
      have cov := hsm.cov
      rw [hst] at cov
      have he : t.stk = [] := by generalize t.stk = l at cov; cases cov; rfl
      refine ⟨by show List.Forall₂ _ _ t.stk; rw [he]; exact .nil, fun k hk => ?_, nofun, nofun, nofun⟩
      have := w.flt k hk
      rw [he] at this
      exact absurd this (Nat.not_lt_zero _)
  | jmp n =>
    cases h
    cases hst : a.stk with
    | cons d P => simp only [view, hst, reduceCtorEq] at hv
    | nil =>
      simp only [view, hst, Option.some.injEq] at hv
      subst hv
      have cov := hsm.cov
      rw [hst] at cov
      have he : t.stk = [] := by generalize t.stk = l at cov; cases cov; rfl
      refine ⟨by show List.Forall₂ _ _ t.stk; rw [he]; exact .nil, fun k hk => ?_, nofun, nofun, nofun⟩
      have := w.flt k hk
      rw [he] at this
      exact absurd this (Nat.not_lt_zero _)
  | jt n =>
    rcases hst : a.stk with _ | ⟨d, P⟩ <;> simp only [view, hst, reduceCtorEq] at hv
    obtain ⟨hx, rfl⟩ := if_some hv
    simp only [Bool.and_eq_true] at hx
    obtain ⟨e, es, hs, h0, -, -⟩ := one hst hx.1
    rcases boolJmp_form w hs h0 h with ⟨-, -, rfl⟩ | ⟨-, -, rfl⟩ | ⟨t1, e', es', mi, hs1, he, hl, -, rfl⟩
    · exact drop_view (κ := 0) .refl hs hst hsm (by simp [relDrop, hs]) (by simp [relDrop, hs])
    · exact drop_view (κ := 0) .refl hs hst hsm (by simp [relDrop, hs]) (by simp [relDrop, hs])
    · exact drop_view mi hs1 hst hsm (by simp [relDrop, hs1]) (by simp [relDrop, hs1])
  | jf n =>
    rcases hst : a.stk with _ | ⟨d, P⟩ <;> simp only [view, hst, reduceCtorEq] at hv
    obtain ⟨hx, rfl⟩ := if_some hv
    simp only [Bool.and_eq_true] at hx
    obtain ⟨e, es, hs, h0, -, -⟩ := one hst hx.1
    rcases boolJmp_form w hs h0 h with ⟨-, -, rfl⟩ | ⟨-, -, rfl⟩ | ⟨t1, e', es', mi, hs1, he, hl, -, rfl⟩
    · exact drop_view (κ := 0) .refl hs hst hsm (by simp [relDrop, hs]) (by simp [relDrop, hs])
    · exact drop_view (κ := 0) .refl hs hst hsm (by simp [relDrop, hs]) (by simp [relDrop, hs])
    · exact drop_view mi hs1 hst hsm (by simp [relDrop, hs1]) (by simp [relDrop, hs1])
  | mreg =>
    rcases hst : a.stk with _ | ⟨d, P⟩ <;> simp only [view, hst, reduceCtorEq] at hv
    obtain ⟨hx, rfl⟩ := if_some hv
    obtain ⟨e, es, hs, h0, -, -⟩ := one hst hx
    rcases vmMReg_form w hs h0 h with ⟨-, rfl⟩ | ⟨-, rfl⟩ | ⟨-, -, -, rfl⟩ <;>
      exact drop_view (κ := 0) .refl hs hst hsm (by simp [relDrop, hs]) (by simp [relDrop, hs])
  | ldC v =>
    simp only [view, Option.some.injEq] at hv
    subst hv
    refine push_view ?_ (by simp) hsm h
    intro (h : v = 0)
    simp [h]
  | ldG n => simp only [view, Option.some.injEq] at hv; subst hv; exact push_view (e := ⟨.GVAR, n⟩) rfl (by simp) hsm h
  | ldL n =>
    simp only [view, Option.some.injEq] at hv
    subst hv
    have h : vmLdLoc (cnt n) t = some t' := h
    unfold vmLdLoc at h
    have hk := hK.1 n (by simp)
    by_cases hh : cnt n ≤ 9
    · rw [if_pos (show cnt n ≤ RVarSIZ from hh)] at h
      refine push_view ?_ (by simp) hsm h
      show locD cnt n = _
      simp only [locD, if_pos hh]
      simp only [AccSIZ]
      congr 1
      omega
    · rw [if_neg (show ¬ cnt n ≤ RVarSIZ from hh)] at h
      refine push_view ?_ (by simp) hsm h
      refine ⟨?_, hk (by omega)⟩
      simp only [locD, if_neg hh]
  | ldP n =>
    simp only [view, Option.some.injEq] at hv
    subst hv
    exact push_view (e := ⟨.PRM, (cnt n + 2) * 2⟩) ⟨rfl, hK.2 n (by simp)⟩ (by simp) hsm h
  | ldLab n => simp only [view, Option.some.injEq] at hv; subst hv; exact push_view (e := ⟨.LABEL, n⟩) trivial (by simp) hsm h
  | ldNam n => simp only [view, Option.some.injEq] at hv; subst hv; exact push_view (e := ⟨.NAME, n⟩) trivial (by simp) hsm h
  | nam f => simp only [view, reduceCtorEq] at hv
  | entry d => simp only [view, reduceCtorEq] at hv
  | entryK d => simp only [view, reduceCtorEq] at hv
  | entryI d => simp only [view, reduceCtorEq] at hv
  | ret => simp only [view, reduceCtorEq] at hv
  | retI => simp only [view, reduceCtorEq] at hv
  | bug => simp only [view, reduceCtorEq] at hv
  | callF n f =>
    obtain ⟨t1, mi, ha, hf, hs, rfl⟩ := vmCallF_form w h
    simp only [view] at hv
    obtain ⟨hx, rfl⟩ := if_some hv
    exact ⟨.cons trivial (cov_moved hsm.cov mi.moved), fun k (hk : t1.flg = some k) => flg_sub mi hsm.pt k hk, nofun, fun _ => ⟨_, _, rfl, by simp⟩, nofun⟩
  | callP n f =>
    obtain ⟨t1, mi, ha, hf, hs, rfl⟩ := call_form w h
    simp only [view] at hv
    obtain ⟨hx, rfl⟩ := if_some hv
    exact ⟨cov_moved hsm.cov mi.moved, fun k (hk : t1.flg = some k) => flg_sub mi hsm.pt k hk, nofun, nofun, nofun⟩
  | ldW =>
    rcases hst : a.stk with _ | ⟨d0, _ | ⟨d1, P⟩⟩ <;> simp only [view, hst, reduceCtorEq] at hv
    obtain ⟨hx, rfl⟩ := if_some hv
    obtain ⟨e0, e1, es, hs, h0, -⟩ := two hst hx
    exact ldForm_view w (.inl rfl) hs hst hsm (vmLdWrd_form w hs h0 h)
  | ldB =>
    rcases hst : a.stk with _ | ⟨d0, _ | ⟨d1, P⟩⟩ <;> simp only [view, hst, reduceCtorEq] at hv
    obtain ⟨hx, rfl⟩ := if_some hv
    obtain ⟨e0, e1, es, hs, h0, -⟩ := two hst hx
    exact ldByt_view w hs h0 hst hsm h
  | stG n =>
    rcases hst : a.stk with _ | ⟨d, P⟩ <;> simp only [view, hst, reduceCtorEq] at hv
    obtain ⟨hx, rfl⟩ := if_some hv
    simp only [Bool.and_eq_true] at hx
    obtain ⟨e, es, hs, h0, -, -⟩ := one hst hx.1
    exact stForm_view hs hst hsm (vmStGlb_form w hs h)
  | stP n =>
    rcases hst : a.stk with _ | ⟨d, P⟩ <;> simp only [view, hst, reduceCtorEq] at hv
    obtain ⟨hx, rfl⟩ := if_some hv
    simp only [Bool.and_eq_true] at hx
    obtain ⟨e, es, hs, h0, -, -⟩ := one hst hx.1
    exact stForm_view hs hst hsm (vmStPrm_form w hs h)
  | stL n =>
    rcases hst : a.stk with _ | ⟨d, P⟩ <;> simp only [view, hst, reduceCtorEq] at hv
    obtain ⟨hx, rfl⟩ := if_some hv
    simp only [Bool.and_eq_true] at hx
    obtain ⟨e, es, hs, h0, c0, c⟩ := one hst hx.1
    rcases vmStLoc_form w hs h0 h with ⟨hn, h⟩ | ⟨hn, rfl, rfl⟩ | ⟨hn, he, hne, rfl⟩ | ⟨hn, he, rfl⟩ | ⟨hn, hf, ha, hne, sr, ho, rfl⟩
    · simp only [RVarSIZ] at hn
      rw [if_neg (by omega)]
      exact stForm_view hs hst hsm h
    all_goals
      simp only [RVarSIZ] at hn
      rw [if_pos hn]
    · exact ⟨by rw [hs]; exact .cons rfl c, hsm.pt, nofun, fun _ => ⟨_, _, hs, by simp⟩, nofun⟩
    · exact ⟨by show List.Forall₂ _ _ t.stk; rw [hs]; exact .cons (by simp [Cov, he]) c, hsm.pt, nofun, fun _ => ⟨_, _, hs, h0⟩, nofun⟩
    · exact ⟨.cons rfl c, hsm.pt, nofun, fun _ => ⟨_, _, rfl, by simp⟩, nofun⟩
    · exact ⟨.cons rfl c, hsm.pt, nofun, fun _ => ⟨_, _, rfl, by simp⟩, nofun⟩
  | stW =>
    rcases hst : a.stk with _ | ⟨d0, _ | ⟨d1, _ | ⟨d2, P⟩⟩⟩ <;> simp only [view, hst, reduceCtorEq] at hv
    obtain ⟨hx, rfl⟩ := if_some hv
    simp only [Bool.and_eq_true] at hx
    obtain ⟨e0, e1, es, hs, h0, -⟩ := two hst hx.1
    have h : (vmLdWrd t).bind (storeInd .ind) = some t' := h
    cases h1 : vmLdWrd t with
    | none => rw [h1] at h; cases h
    | some t1 =>
      rw [h1] at h
      have s1 := ldForm_view w (.inl rfl) hs hst hsm (vmLdWrd_form w hs h0 h1)
      obtain ⟨r, es', hs1, hmv⟩ := ldForm_moved hs (vmLdWrd_form w hs h0 h1)
      obtain ⟨w1, _⟩ := vmLdWrd_step w ⟨e0, _, hs, h0⟩ h1
      have := storeInd_view w1 hs1 (.inl rfl) rfl s1 h
      refine ⟨this.cov, fun k hk => ?_, this.fg, this.h0, this.h1⟩
      obtain ⟨h2, h3⟩ := cut_le (this.pt k hk)
      obtain ⟨h2, -⟩ := cut_le h2
      show cutFlg a.pt _ = _
      rw [h2, cut_lt h3]
  | stB =>
    rcases hst : a.stk with _ | ⟨d0, _ | ⟨d1, _ | ⟨d2, P⟩⟩⟩ <;> simp only [view, hst, reduceCtorEq] at hv
    obtain ⟨hx, rfl⟩ := if_some hv
    simp only [Bool.and_eq_true] at hx
    obtain ⟨e0, e1, es, hs, h0, -⟩ := two hst hx.1
    have h : (vmLdByt t).bind (storeInd .byt) = some t' := h
    cases h1 : vmLdByt t with
    | none => rw [h1] at h; cases h
    | some t1 =>
      rw [h1] at h
      have s1 := ldByt_view w hs h0 hst hsm h1
      obtain ⟨r, es', hs1, hmv⟩ := vmLdByt_moved w hs h0 h1
      obtain ⟨w1, _⟩ := vmLdByt_step w ⟨e0, _, hs, h0⟩ h1
      have := storeInd_view w1 hs1 (.inr rfl) rfl s1 h
      refine ⟨this.cov, fun k hk => ?_, this.fg, this.h0, this.h1⟩
      obtain ⟨h2, h3⟩ := cut_le (this.pt k hk)
      obtain ⟨h2, -⟩ := cut_le h2
      show cutFlg a.pt _ = _
      rw [h2, cut_lt h3]
  | a1 o =>
    rcases hst : a.stk with _ | ⟨d, P⟩ <;> simp only [view, hst, reduceCtorEq] at hv
    obtain ⟨hx, rfl⟩ := if_some hv
    obtain ⟨e, es, hs, h0, c0, c⟩ := one hst hx
    obtain ⟨t1, x, es', mi, hs1, hl1, hf, rfl⟩ := unary_form w hs h
    have hmv := mi.moved
    rw [hs, hs1] at hmv
    have c' := cov_moved c (List.forall₂_cons.1 hmv).2
    refine ⟨by show List.Forall₂ _ _ t1.stk; rw [hs1]; exact .cons trivial c', ?_, nofun, fun _ => ⟨_, _, hs1, by simp⟩, nofun⟩
    intro k hk
    have hk : some es'.length = some k := hk
    rw [← hk, c'.length_eq]
  | a2 o =>
    rcases hst : a.stk with _ | ⟨d0, _ | ⟨d1, P⟩⟩ <;> simp only [view, hst, reduceCtorEq] at hv
    obtain ⟨hx, rfl⟩ := if_some hv
    simp only [Bool.and_eq_true] at hx
    obtain ⟨e0, e1, es, hs, h0, c⟩ := two hst hx.1
    exact binary_view w hs h0 c h
  | pop =>
    rcases hst : a.stk with _ | ⟨d, P⟩ <;> simp only [view, hst, reduceCtorEq] at hv
    obtain ⟨hx, rfl⟩ := if_some hv
    obtain ⟨e, es, hs, h0, -, -⟩ := one hst hx
    rw [vmPop_form hs h]
    exact drop_view (κ := 0) .refl hs hst hsm (by simp [relDrop, hs]) (by simp [relDrop, hs])
  | arg =>
    rcases hst : a.stk with _ | ⟨d, P⟩ <;> simp only [view, hst, reduceCtorEq] at hv
    obtain ⟨hx, rfl⟩ := if_some hv
    obtain ⟨e, es, hs, h0, -, -⟩ := one hst hx
    rcases vmArg_form w hs h with ⟨hrv, t1, es', mi, hs1, hl, ha, rfl⟩ | ⟨t1, x, es', mi, hs1, hl, ha, rfl⟩
    · exact drop_view mi hs1 hst hsm (by simp [relDrop, hs1]) (by simp [relDrop, hs1])
    · exact drop_view mi hs1 hst hsm (by simp [relDrop, hs1]) (by simp [relDrop, hs1])

theorem view_hot {a a' : Vw} {i : Instr} (hv : view cnt i a = some a') (hu : uses (.i i) = true) : a.h0 = true := by
  rcases hst : a.stk with _ | ⟨d0, _ | ⟨d1, _ | ⟨d2, P⟩⟩⟩ <;> cases i <;> simp only [uses, Bool.false_eq_true] at hu <;>
    simp only [view, hst, reduceCtorEq] at hv <;> have hx := (if_some hv).1 <;>
    first
    | exact hx
    | (simp only [Bool.and_eq_true] at hx; exact hx.1)

theorem view_g {a a' : Vw} {i : Instr} (hv : view cnt i a = some a') : a'.g = sgh a.g i := by
  rcases hst : a.stk with _ | ⟨d0, _ | ⟨d1, _ | ⟨d2, P⟩⟩⟩ <;> cases i <;> simp only [view, hst, reduceCtorEq] at hv <;>
    first
    | (obtain ⟨-, rfl⟩ := if_some hv; rfl)
    | (simp only [Option.some.injEq] at hv; subst hv; rfl)

/-- Code the abstraction allows meets none of the known defects. -/
theorem views_fits {P : List Instr} : ∀ {a a' : Vw} {t : T}, W t → Counted cnt (P.map .i) → Framed cnt K P → Seen K a t →
    views cnt P a = some a' → Fits cnt K P a.g t = true := by
  induction P with
  | nil => intros; rfl
  | cons i P ih =>
    intro a a' t w hc hK hsm hv
    have hc1 : Counted cnt [.i i] := fun n hn => hc n (by simp at hn ⊢; rcases hn with h | h <;> simp [h])
    have hc2 : Counted cnt (P.map .i) := fun n hn => hc n (by simp at hn ⊢; rcases hn with h | h <;> simp [h])
    have hK1 : Framed cnt K [i] := ⟨fun n hn => hK.1 n (by simp at hn ⊢; simp [hn]), fun n hn => hK.2 n (by simp at hn ⊢; simp [hn])⟩
    have hK2 : Framed cnt K P := ⟨fun n hn => hK.1 n (by simp [hn]), fun n hn => hK.2 n (by simp [hn])⟩
    cases h1 : view cnt i a with
    | none => simp [views, h1] at hv
    | some a1 =>
      simp only [views, h1, Option.bind_some] at hv
      simp only [Fits, Bool.and_eq_true]
      refine ⟨view_fit hc1 hsm h1, ?_⟩
      cases h2 : emit cnt i t with
      | none => rfl
      | some t1 =>
        simp only
        rw [← view_g h1]
        have w1 := (emitV_step (v := .i i) (b := uses (.i i)) w (fun hu => hsm.h0 (view_hot h1 hu)) (fun h => h) hc1 h2).1
        exact ih w1 hc2 hK2 (view_emit w hc1 hK1 hsm h1 h2) hv

/-- Between two statements nothing is known and nothing is needed. -/
theorem seen_empty {g : Gh} {t : T} (w : W t) (he : t.stk = []) : Seen K ⟨[], none, g, false, false, false⟩ t := by
  refine ⟨by rw [he]; exact .nil, fun k hk => ?_, nofun, nofun, nofun⟩
  have := w.flt k hk
  rw [he] at this
  exact absurd this (Nat.not_lt_zero _)

end

end Cmm.Tac
