import Verif.Tac.Live
import Verif.Tac.Walk

/-
Sequences of calls of src/vm2tac.c come to an end, and the code of src/vmCode.c never multiplies directly after a comparison.
For Verif/Props/C62.lean.
-/
namespace Cmm.Tac
open Cmm.Tree (Kind Bin Un Expr Stmt World)
open Cmm.Gen (Instr A1 A2 NT Place BRes G Mode)

/-! ### One instruction -/

/-- Comparisons. -/
def cmpI : Instr → Bool
  | .a2 .GT | .a2 .GE | .a2 .LT | .a2 .LE | .a2 .EQ | .a2 .NE => true
  | _ => false

/-- The entry on top is not a comparison. -/
def NoFlag (t : T) : Prop := ∀ e es, t.stk = e :: es → e.sta ≠ .FLAG

theorem emit_ok {cnt : Int → Int} {i : Instr} {t : T} {l l' : List Bool} (w : W t) (hot : uses (.i i) = true → Hot t)
    (hl : t.stk.length = l.count true) (hsh : shapeF i l = some l') (hc : Counted cnt [.i i]) (h0 : l.length ≤ 20)
    (h1 : l'.length ≤ 20) (hm : i = .a2 .MUL → NoFlag t) : Ok (emit cnt i t) := by
  have hle : t.stk.length ≤ 20 := by
    have := List.count_le_length (a := true) (l := l)
    omega
  have push : ∀ e : Ent, l' = true :: l → Ok (pushStk e t) := by
    intro e he
    unfold pushStk
    rw [if_neg (by
      rw [he] at h1
      have := List.count_le_length (a := true) (l := l)
      simp only [List.length_cons] at h1
      unfold StkSIZ
      omega)]
    exact .intro _
  have two : ∀ {l0 : List Bool}, l = true :: true :: l0 → Hot t → ∃ e0 e1 es, t.stk = e0 :: e1 :: es ∧ e0.sta ≠ .STK := by
    intro l0 he hh
    obtain ⟨e, es, hs, h0⟩ := hh
    rw [he] at hl
    obtain ⟨e1, es', rfl, _⟩ := two_len hs hl
    exact ⟨e, e1, es', hs, h0⟩
  cases i with
  | lab n => exact .intro _
  | jmp n => exact .intro _
  | jt n => obtain ⟨e, es, hs, _⟩ := hot rfl; exact boolJmp_ok w hs
  | jf n => obtain ⟨e, es, hs, _⟩ := hot rfl; exact boolJmp_ok w hs
  | mreg => obtain ⟨e, es, hs, _⟩ := hot rfl; exact vmMReg_ok w hs
  | ldC v => cases hsh; exact push _ rfl
  | ldG v => cases hsh; exact push _ rfl
  | ldL n =>
    cases hsh
    show Ok (vmLdLoc (cnt n) t)
    unfold vmLdLoc
    split
    · exact push _ rfl
    · exact push _ rfl
  | ldP n => cases hsh; exact push _ rfl
  | ldLab n => cases hsh; exact push _ rfl
  | ldNam n => cases hsh; exact push _ rfl
  | nam f => cases hsh
  | entry d => cases hsh
  | entryK d => cases hsh
  | entryI d => cases hsh
  | ret => cases hsh
  | retI => cases hsh
  | bug => cases hsh
  | callF n f =>
    refine vmCallF_ok w ?_
    simp only [shapeF, shape] at hsh
    split at hsh
    · rename_i hh
      cases hsh
      have : l.count true = (l.drop n).count true := by
        conv_lhs => rw [← List.take_append_drop n l]
        rw [List.count_append, hh]
        simp [List.count_replicate]
      have h2 := List.count_le_length (a := true) (l := l.drop n)
      simp only [List.length_cons] at h1
      omega
    · cases hsh
  | callP n f => exact call_ok w
  | ldW =>
    rcases l with _ | ⟨_ | _, _ | ⟨_ | _, l⟩⟩ <;> simp only [shapeF, shape, reduceCtorEq] at hsh
    obtain ⟨e0, e1, es, hs, h0⟩ := two rfl (hot rfl)
    exact vmLdWrd_ok w hs h0
  | ldB =>
    rcases l with _ | ⟨_ | _, _ | ⟨_ | _, l⟩⟩ <;> simp only [shapeF, shape, reduceCtorEq] at hsh
    obtain ⟨e0, e1, es, hs, h0⟩ := two rfl (hot rfl)
    exact vmLdByt_ok w hs h0
  | stG n => obtain ⟨e, es, hs, _⟩ := hot rfl; exact vmStGlb_ok w hs
  | stP n => obtain ⟨e, es, hs, _⟩ := hot rfl; exact vmStPrm_ok w hs
  | stL n => obtain ⟨e, es, hs, _⟩ := hot rfl; exact vmStLoc_ok w hs (hc n (.inr (by simp)))
  | stW =>
    rcases l with _ | ⟨_ | _, _ | ⟨_ | _, _ | ⟨_ | _, l⟩⟩⟩ <;> simp only [shapeF, shape, reduceCtorEq] at hsh
    obtain ⟨e0, e1, es, hs, h0⟩ := two rfl (hot rfl)
    show Ok ((vmLdWrd t).bind (storeInd .ind))
    refine (vmLdWrd_ok w hs h0).bind fun t1 h2 => ?_
    obtain ⟨a, es', hs1, hmv⟩ := ldForm_moved hs (vmLdWrd_form w hs h0 h2)
    obtain ⟨w1, _⟩ := vmLdWrd_step w ⟨e0, _, hs, h0⟩ h2
    have hlen := forall2_len hmv
    rw [hs] at hl
    cases es' with
    | nil => simp at hlen hl; rw [← hlen] at hl; simp at hl
    | cons k1 k2 => exact storeInd_ok w1 hs1 (.inl rfl)
  | stB =>
    rcases l with _ | ⟨_ | _, _ | ⟨_ | _, _ | ⟨_ | _, l⟩⟩⟩ <;> simp only [shapeF, shape, reduceCtorEq] at hsh
    obtain ⟨e0, e1, es, hs, h0⟩ := two rfl (hot rfl)
    show Ok ((vmLdByt t).bind (storeInd .byt))
    refine (vmLdByt_ok w hs h0).bind fun t1 h2 => ?_
    obtain ⟨a, es', hs1, hmv⟩ := vmLdByt_moved w hs h0 h2
    obtain ⟨w1, _⟩ := vmLdByt_step w ⟨e0, _, hs, h0⟩ h2
    have hlen := forall2_len hmv
    rw [hs] at hl
    cases es' with
    | nil => simp at hlen hl; rw [← hlen] at hl; simp at hl
    | cons k1 k2 => exact storeInd_ok w1 hs1 (.inr rfl)
  | a1 o => obtain ⟨e, es, hs, _⟩ := hot rfl; exact unary_ok w hs
  | a2 o =>
    rcases l with _ | ⟨_ | _, _ | ⟨_ | _, l⟩⟩ <;> simp only [shapeF, shape, reduceCtorEq] at hsh
    obtain ⟨e0, e1, es, hs, h0⟩ := two rfl (hot rfl)
    cases o
    case MUL => exact vmMul_ok w hs h0 (hm rfl _ _ hs)
    case DIV => exact vmDiv_ok w hs h0
    case MOD => exact vmMod_ok w hs h0
    all_goals first
      | exact cal_ok w hs h0
      | exact rcal_ok w hs h0
      | exact cmp_ok w hs h0 hle
  | pop => obtain ⟨e, es, hs, _⟩ := hot rfl; exact ⟨_, relPop_ok w hs⟩
  | arg => obtain ⟨e, es, hs, _⟩ := hot rfl; exact vmArg_ok w hs

theorem cal_plain {o : TOp} {t t' : T} {e0 e1 : Ent} {es : List Ent} (w : W t) (hs : t.stk = e0 :: e1 :: es)
    (h0 : e0.sta ≠ .STK) (h : cal o t = some t') : NoFlag t' := by
  obtain ⟨t1, a, es', s, m, hs1, _, _, _, rfl⟩ := cal_form w hs h0 h
  intro e es hx
  simp only [relDrop, hs1, List.tail_cons] at hx
  cases hx
  simp

theorem rcal_plain {o : TOp} {t t' : T} {e0 e1 : Ent} {es : List Ent} (w : W t) (hs : t.stk = e0 :: e1 :: es)
    (h0 : e0.sta ≠ .STK) (h : rcal o t = some t') : NoFlag t' := by
  rcases rcal_form hs h with h | ⟨hA, hS, hF, h⟩
  · exact cal_plain w hs h0 h
  · exact cal_plain (e0 := e1) (e1 := e0) (es := es) (w.swap hs ⟨h0, by rw [hA]; simp⟩ ⟨hS, hF⟩) (by simp [setTwo, hs]) hS h

theorem stForm_plain {d : Src} {t t' : T} {es : List Ent} (h : StForm d t t' es) : NoFlag t' := by
  obtain ⟨t1, e', es', m, hs1, hr, hl, rfl⟩ := h
  intro e es hx
  rw [show t1.stk = e :: es from hx] at hs1
  cases hs1
  rcases hr with h | h <;> rw [h] <;> simp

/-- Only a comparison leaves a comparison on top. -/
theorem emit_plain {cnt : Int → Int} {i : Instr} {t t' : T} {l l' : List Bool} {b : Bool} (w : W t)
    (hot : uses (.i i) = true → Hot t) (hl : t.stk.length = l.count true) (hsh : shapeF i l = some l')
    (hcmp : cmpI i = false) (hf : fresh (.i i) b = true) (h : emit cnt i t = some t') : NoFlag t' := by
  have push : ∀ e : Ent, e.sta ≠ .FLAG → pushStk e t = some t' → NoFlag t' := by
    intro e he hp e' es' hx
    rw [pushStk_form hp] at hx
    cases hx
    exact he
  have two : ∀ {l0 : List Bool}, l = true :: true :: l0 → Hot t → ∃ e0 e1 es, t.stk = e0 :: e1 :: es ∧ e0.sta ≠ .STK := by
    intro l0 he hh
    obtain ⟨e, es, hs, h0⟩ := hh
    rw [he] at hl
    obtain ⟨e1, es', rfl, _⟩ := two_len hs hl
    exact ⟨e, e1, es', hs, h0⟩
  have empty : t.stk = [] → t'.stk = t.stk → NoFlag t' := by
    intro h1 h2 e es hx
    rw [h2, h1] at hx
    cases hx
  cases i with
  | lab n =>
    cases h
    simp only [shapeF] at hsh
    split at hsh
    · rename_i hh
      refine empty ?_ rfl
      rw [hh] at hl
      exact List.length_eq_zero_iff.1 hl
    · cases hsh
  | jmp n =>
    cases h
    simp only [shapeF] at hsh
    split at hsh
    · rename_i hh
      refine empty ?_ rfl
      rw [hh] at hl
      exact List.length_eq_zero_iff.1 hl
    · cases hsh
  | jt n => cases hf
  | jf n => cases hf
  | mreg => cases hf
  | ldC v => exact push _ (by simp) h
  | ldG v => exact push _ (by simp) h
  | ldL n =>
    have h : vmLdLoc (cnt n) t = some t' := h
    unfold vmLdLoc at h
    split at h
    · exact push _ (by simp) h
    · exact push _ (by simp) h
  | ldP n => exact push _ (by simp) h
  | ldLab n => exact push _ (by simp) h
  | ldNam n => exact push _ (by simp) h
  | nam f => cases hsh
  | entry d => cases hsh
  | entryK d => cases hsh
  | entryI d => cases hsh
  | ret => cases hsh
  | retI => cases hsh
  | bug => cases hsh
  | callF n f =>
    obtain ⟨t1, mi, ha, hf, hs, rfl⟩ := vmCallF_form w h
    intro e es hx
    cases hx
    simp
  | callP n f => cases hf
  | ldW =>
    obtain ⟨w', r, es', hs'⟩ := vmLdWrd_step w (hot rfl) h
    intro e es hx
    rw [hs'] at hx
    cases hx
    simp
  | ldB =>
    obtain ⟨w', r, es', hs'⟩ := vmLdByt_step w (hot rfl) h
    intro e es hx
    rw [hs'] at hx
    cases hx
    simp
  | stG n =>
    obtain ⟨e, es, hs, h0⟩ := hot rfl
    exact stForm_plain (vmStGlb_form w hs h)
  | stP n =>
    obtain ⟨e, es, hs, h0⟩ := hot rfl
    exact stForm_plain (vmStPrm_form w hs h)
  | stL n =>
    obtain ⟨e, es, hs, h0⟩ := hot rfl
    rcases vmStLoc_form w hs h0 h with ⟨_, h⟩ | ⟨_, he, rfl⟩ | ⟨_, he, hne, rfl⟩ | ⟨_, he, rfl⟩ | ⟨_, hf, ha, hne, sr, ho, rfl⟩
    · exact stForm_plain h
    · intro e' es' hx
      rw [hs] at hx
      cases hx
      rw [he]; simp
    · intro e' es' hx
      have hx : t.stk = e' :: es' := hx
      rw [hs] at hx
      cases hx
      rw [he]; simp
    · intro e' es' hx; cases hx; simp
    · intro e' es' hx; cases hx; simp
  | stW =>
    have h : (vmLdWrd t).bind (storeInd .ind) = some t' := h
    cases h1 : vmLdWrd t with
    | none => rw [h1] at h; cases h
    | some t1 =>
      rw [h1] at h
      obtain ⟨w', r, es1, hs'⟩ := vmLdWrd_step w (hot rfl) h1
      obtain ⟨e1, es2, rfl⟩ : ∃ e1 es2, es1 = e1 :: es2 := by
        cases es1 with
        | cons e1 es1 => exact ⟨e1, es1, rfl⟩
        | nil => unfold storeInd at h; simp [sec, hs'] at h
      obtain ⟨t2, e', es', m, hs1, hr, hl', rfl⟩ := storeInd_form w' hs' (.inl rfl) h
      intro e es hx
      simp only [relDrop, hs1, List.tail_cons] at hx
      cases hx
      rcases hr with h | h <;> rw [h] <;> simp
  | stB =>
    have h : (vmLdByt t).bind (storeInd .byt) = some t' := h
    cases h1 : vmLdByt t with
    | none => rw [h1] at h; cases h
    | some t1 =>
      rw [h1] at h
      obtain ⟨w', r, es1, hs'⟩ := vmLdByt_step w (hot rfl) h1
      obtain ⟨e1, es2, rfl⟩ : ∃ e1 es2, es1 = e1 :: es2 := by
        cases es1 with
        | cons e1 es1 => exact ⟨e1, es1, rfl⟩
        | nil => unfold storeInd at h; simp [sec, hs'] at h
      obtain ⟨t2, e', es', m, hs1, hr, hl', rfl⟩ := storeInd_form w' hs' (.inr rfl) h
      intro e es hx
      simp only [relDrop, hs1, List.tail_cons] at hx
      cases hx
      rcases hr with h | h <;> rw [h] <;> simp
  | a1 o =>
    obtain ⟨e, es, hs, h0⟩ := hot rfl
    obtain ⟨t1, a, es', m, hs1, hl', hf', rfl⟩ := unary_form w hs h
    intro e es hx
    rw [show t1.stk = e :: es from hx] at hs1
    cases hs1
    simp
  | a2 o =>
    rcases l with _ | ⟨_ | _, _ | ⟨_ | _, l⟩⟩ <;> simp only [shapeF, shape, reduceCtorEq] at hsh
    obtain ⟨e0, e1, es, hs, h0⟩ := two rfl (hot rfl)
    have scal : ∀ {c : Int} {o : TOp}, e0.sta = .CNST → cal o (setTop ⟨.CNST, c⟩ t) = some t' → NoFlag t' :=
      fun hc h => cal_plain (e0 := ⟨.CNST, _⟩) (e1 := e1) (es := es) (w.setCst' hs hc) (by simp [setTop, hs]; rfl) (by simp) h
    cases o
    case MUL =>
      rcases vmMul_form w hs h with ⟨hc, _, h⟩ | ⟨hc, _, hF, h⟩ | h
      · exact scal hc h
      · exact cal_plain (e1 := e0) (es := es) (mul_left_swap w hs hc h0 hF) (by simp [setTwo, hs]; rfl) (by simp) h
      · exact rcal_plain w hs h0 h
    case DIV =>
      rcases vmDiv_form hs h with ⟨hc, _, h⟩ | h
      · exact scal hc h
      · exact cal_plain w hs h0 h
    case MOD =>
      rcases vmMod_form hs h with ⟨hc, _, h⟩ | h
      · exact scal hc h
      · exact cal_plain w hs h0 h
    all_goals first
      | exact cal_plain w hs h0 h
      | exact rcal_plain w hs h0 h
      | cases hcmp
  | pop => cases hf
  | arg => cases hf

/-! ### Sequences -/

/-- No multiplication directly after a comparison. `p`: the instruction before may be a comparison. -/
def MulOk : Bool → List Instr → Prop
  | _, [] => True
  | p, i :: is => (i = .a2 .MUL → p = false) ∧ MulOk (cmpI i) is

/-- Whether the last instruction may be a comparison. -/
def lastCmp : Bool → List Instr → Bool
  | p, [] => p
  | _, i :: is => lastCmp (cmpI i) is

theorem emits_ok {Q : Instr → Bool} {N : Nat} {cnt : Int → Int} {c : List Instr} (hN : N ≤ 20) :
    ∀ {l : List Bool} {b p : Bool} {l' b'} {t : T}, trail Q N c l b = some (l', b') → l.length ≤ N → W t →
    (b = true → Hot t) → t.stk.length = l.count true → Counted cnt (c.map .i) → MulOk p c →
    (b = true → p = false → NoFlag t) →
    ∃ t', emits cnt (c.map .i) t = some t' ∧ W t' ∧ t'.stk.length = l'.count true := by
  induction c with
  | nil =>
    intro l b p l' b' t h _ w _ hl _ _ _
    cases h
    exact ⟨t, rfl, w, hl⟩
  | cons i c ih =>
    intro l b p l' b' t h hlen w hot hl hc hm hp
    simp only [trail] at h
    split at h
    · rename_i hq
      split at h
      · rename_i l1 hs
        split at h
        · rename_i hn
          have hot' : uses (.i i) = true → Hot t := fun hu => hot (hq.1 hu)
          have hc1 : Counted cnt [.i i] := fun n hn => hc n (by
            simp only [List.mem_singleton] at hn
            rcases hn with hn | hn <;> simp [hn])
          obtain ⟨t1, h1⟩ := emit_ok (cnt := cnt) w hot' hl hs hc1 (by omega) (by omega) (fun he => by
            subst he
            exact hp (hq.1 rfl) (hm.1 rfl))
          obtain ⟨w1, hot1⟩ := emitV_step (v := .i i) (b := b) w hot hq.1 hc1 h1
          have hl1 := emit_len w hot' hl hs h1
          obtain ⟨t', h2, h3⟩ := ih h hn w1 hot1 hl1
            (fun n hn => hc n (hn.imp (List.mem_cons_of_mem _) (List.mem_cons_of_mem _))) hm.2
            (fun hb hpl => emit_plain w hot' hl hs hpl hb h1)
          refine ⟨t', ?_, h3⟩
          show (emit cnt i t).bind (emits cnt (c.map .i)) = some t'
          rw [h1]
          exact h2
        · cases h
      · cases h
    · cases h

/-! ### The code of vmCode.c -/

theorem MulOk.weak {c : List Instr} {p : Bool} (h : MulOk true c) : MulOk p c := by
  cases c with
  | nil => trivial
  | cons i c => exact ⟨fun he => (by cases h.1 he), h.2⟩

theorem MulOk.append' {c d : List Instr} : ∀ {p : Bool}, MulOk p c → MulOk (lastCmp p c) d → MulOk p (c ++ d) := by
  induction c with
  | nil => intro p _ h; exact h
  | cons i c ih => intro p h h'; exact ⟨h.1, ih h.2 h'⟩

theorem MulOk.append {c d : List Instr} {p : Bool} (h : MulOk p c) (h' : MulOk true d) : MulOk p (c ++ d) :=
  h.append' h'.weak

theorem lastCmp_append {c d : List Instr} : ∀ {p : Bool}, lastCmp p (c ++ d) = lastCmp (lastCmp p c) d := by
  induction c with
  | nil => intro p; rfl
  | cons i c ih => intro p; exact ih

theorem lastCmp_weak {c : List Instr} {p : Bool} (h : lastCmp true c = false) : lastCmp p c = false := by
  cases c with
  | nil => cases h
  | cons i c => exact h

/-- The last instruction of the code for the value is a comparison. -/
def cmpTop : Expr → Bool
  | .bin .comm _ r => cmpTop r
  | .bin op _ _ => match op with
    | .gt | .ge | .lt | .le | .equ | .neq => true
    | _ => false
  | _ => false

/-- The operand of a multiplication that is computed last (`genSw`) is not a comparison. -/
def mulE : Expr → Bool
  | .cnst _ | .leaf _ _ | .func0 _ => true
  | .func _ a => mulE a
  | .un _ e => mulE e
  | .bin op l r => mulE l && mulE r && (decide (op ≠ .mul) || !cmpTop (if Gen.genSw op l r then l else r))
  | .assV _ _ r => mulE r
  | .assM op a i r => mulE a && mulE i && mulE r && decide (op ≠ .mul)

def mulS : Stmt → Bool
  | .empty | .brk | .cnt => true
  | .exp e => mulE e
  | .ifs c a => mulE c && mulS a
  | .els c a b => mulE c && mulS a && mulS b
  | .whl c a re => c.all mulE && mulS a && re.all mulE
  | .dos a c => mulS a && mulE c
  | .ret e => e.all mulE
  | .seq _ a b => mulS a && mulS b

structure MulG (nt : NT) (e : Expr) : Prop where
  bool : ∀ n, MulOk true ((Gen.gen nt e).bool n).1
  last : cmpTop e = false → ∀ n, lastCmp true (Gen.genE (Gen.gen nt e).bool n).1 = false
  args : ∀ n, MulOk true ((Gen.gen nt e).args n).1
  log : ∀ left A B n, MulOk true ((Gen.gen nt e).log left A B n).1

theorem mulOk_load (p : Place) : MulOk true (Gen.load p) := by cases p <;> simp [Gen.load, MulOk]

theorem mulOk_store (p : Place) : MulOk true (Gen.store p) := by cases p <;> simp [Gen.store, MulOk]

theorem mulOk_pop (p : Place) : MulOk true (Gen.popP p) := by cases p <;> simp [Gen.popP, MulOk]

theorem mulOk_printLab (l : Option Nat) : MulOk true (Gen.printLab l) := by cases l <;> simp [Gen.printLab, MulOk]

theorem mulOk_boolJmp (tf : Bool) (l : Gen.Lab) (n : Nat) : MulOk true (Gen.boolJmp tf l n).1 := by
  unfold Gen.boolJmp
  cases l.no <;> cases tf <;> simp [MulOk]

theorem mulOk_genE {b : Nat → BRes} (h : ∀ n, MulOk true (b n).1) (n : Nat) : MulOk true (Gen.genE b n).1 :=
  (h n).append (mulOk_load _)

theorem mulOk_argOne {b : Nat → BRes} (h : ∀ n, MulOk true (b n).1) (n : Nat) : MulOk true (Gen.argOne b n).1 :=
  (mulOk_genE h n).append (by simp [MulOk])

theorem mulOk_call (nt : NT) (f : Int) (k : Nat) : MulOk true (Gen.callCode nt f k).1 := by
  unfold Gen.callCode; split <;> simp [MulOk]

theorem lastCmp_load {p : Place} (h : p ≠ .stkd) (q : Bool) : lastCmp q (Gen.load p) = false := by
  cases p <;> first | exact absurd rfl h | rfl

theorem MulG.plain {nt : NT} {e : Expr} {b : Nat → BRes} (hg : Gen.gen nt e = .plain b) (hb : ∀ n, MulOk true (b n).1)
    (hl : cmpTop e = false → ∀ n, lastCmp true (Gen.genE b n).1 = false) : MulG nt e := by
  refine ⟨?_, ?_, ?_, ?_⟩
  · rw [hg]; exact hb
  · rw [hg]; exact hl
  · rw [hg]; exact mulOk_argOne hb
  · rw [hg]; intros; exact ⟨by simp, trivial⟩

theorem mulOk_two {bl br : Nat → BRes} {c : List Instr} {p : Place} (hl : ∀ n, MulOk true (bl n).1)
    (hr : ∀ n, MulOk true (br n).1)
    (hc : ∀ n, MulOk (lastCmp true (Gen.genE br n).1) c) (n : Nat) : MulOk true (Gen.genTwo bl br c p n).1 := by
  show MulOk true ((Gen.genE bl n).1 ++ (Gen.genE br (Gen.genE bl n).2).1 ++ c)
  rw [List.append_assoc]
  refine (mulOk_genE hl n).append ((mulOk_genE hr _).append' (hc _))

theorem mulOk_log {nt : NT} {op : Bin} {l r : Expr} (hl : MulG nt l) (hr : MulG nt r) (left : Nat) (A B : Gen.Lab) (n : Nat) :
    MulOk true (Gen.genLogExpr op (Gen.logOp l) (Gen.logOp r) (Gen.gen nt l) (Gen.gen nt r) left A B n).1 := by
  have hL : MulOk true (Gen.genLogL op (Gen.logOp l) (Gen.gen nt l) left A n).1 := by
    unfold Gen.genLogL
    cases Gen.logOp l with
    | none => exact (mulOk_genE hl.bool _).append (mulOk_boolJmp _ _ _)
    | some lop =>
      dsimp only
      split
      · exact (hl.log _ _ _ _).append (mulOk_printLab _)
      · exact (hl.log _ _ _ _).append (mulOk_printLab _)
  have hR : ∀ A B n, MulOk true (Gen.genLogR op (Gen.logOp r) (Gen.gen nt r) left A B n).1 := by
    intro A B n
    unfold Gen.genLogR
    cases Gen.logOp r with
    | none =>
      dsimp only
      split
      · split
        · exact (mulOk_genE hr.bool _).append (mulOk_boolJmp _ _ _)
        · exact (mulOk_genE hr.bool _).append (mulOk_boolJmp _ _ _)
      · exact mulOk_genE hr.bool _
    | some rop =>
      dsimp only
      split
      · exact hr.log _ _ _ _
      · exact hr.log _ _ _ _
  exact hL.append (hR _ _ _)

theorem mulOk_macro (x : Int) (l1 l2 : Option Nat) (l3 : Nat) : MulOk true (Gen.boolMacro x l1 l2 l3) := by
  cases l1 <;> cases l2 <;> simp [Gen.boolMacro, MulOk]

theorem lastCmp_macro (x : Int) (l1 l2 : Option Nat) (l3 : Nat) (q : Bool) :
    lastCmp q (Gen.boolMacro x l1 l2 l3) = false := by
  cases l1 <;> cases l2 <;> rfl

theorem mulOk_genBin {nt : NT} {op : Bin} {l r : Expr} (hl : MulG nt l) (hr : MulG nt r)
    (h : op ≠ .mul ∨ cmpTop (if Gen.genSw op l r then l else r) = false) (n : Nat) :
    MulOk true (Gen.genBin nt op l r (Gen.gen nt l) (Gen.gen nt r) n).1 := by
  have two : ∀ (i : Instr) (sw : Bool), i ≠ .a2 .MUL → ∀ n, MulOk true
      ((if sw then Gen.genTwo (Gen.gen nt r).bool (Gen.gen nt l).bool [i] .stkd
        else Gen.genTwo (Gen.gen nt l).bool (Gen.gen nt r).bool [i] .stkd) n).1 := by
    intro i sw hi n
    cases sw
    · exact mulOk_two (c := [i]) hl.bool hr.bool (fun _ => ⟨fun he => absurd he hi, trivial⟩) n
    · exact mulOk_two (c := [i]) hr.bool hl.bool (fun _ => ⟨fun he => absurd he hi, trivial⟩) n
  have arith : ∀ (sw : Bool), op ≠ .mul → Gen.binInstr op ≠ .a2 .MUL → MulOk true
      (Gen.gen2OpExpr op sw (Gen.gen nt l).bool (Gen.gen nt r).bool n).1 := by
    intro sw _ hi
    unfold Gen.gen2OpExpr
    exact two _ _ hi n
  have cmp : ∀ (sw : Bool), (∀ b, Gen.cmpInstr b op ≠ .a2 .MUL) → MulOk true
      (Gen.genCmpExpr op sw (Gen.gen nt l).bool (Gen.gen nt r).bool n).1 := by
    intro sw hi
    unfold Gen.genCmpExpr
    cases sw
    · exact two _ false (hi _) n
    · exact two _ true (hi _) n
  cases op
  case comm =>
    show MulOk true (((Gen.gen nt l).bool n).1 ++ Gen.popP ((Gen.gen nt l).bool n).2.1 ++
      ((Gen.gen nt r).bool ((Gen.gen nt l).bool n).2.2).1)
    exact ((hl.bool n).append (mulOk_pop _)).append (hr.bool _)
  case idxr => exact mulOk_two (c := []) hl.bool hr.bool (fun _ => trivial) n
  case idxi => exact mulOk_two (c := []) hl.bool hr.bool (fun _ => trivial) n
  case idxc => exact mulOk_two (c := []) hl.bool hr.bool (fun _ => trivial) n
  case idxb => exact mulOk_two (c := []) hl.bool hr.bool (fun _ => trivial) n
  case dot =>
    show MulOk true (Gen.genDotExpr nt (Gen.gen nt l).bool r n).1
    unfold Gen.genDotExpr
    cases r <;> exact (mulOk_genE hl.bool n).append (by simp [MulOk])
  case semi => exact ⟨by simp, trivial⟩
  case or => exact (mulOk_log hl hr _ _ _ _).append (mulOk_macro _ _ _ _)
  case and => exact (mulOk_log hl hr _ _ _ _).append (mulOk_macro _ _ _ _)
  case mul =>
    have h : cmpTop (if Gen.genSw .mul l r then l else r) = false := by simpa using h
    rw [show Gen.genSw .mul l r = decide (Gen.evalDepth l < Gen.evalDepth r) by rfl] at h
    show MulOk true (Gen.gen2OpExpr .mul (decide (Gen.evalDepth l < Gen.evalDepth r)) _ _ n).1
    unfold Gen.gen2OpExpr
    simp only [Gen.isCommutativeOp, Bool.true_and]
    by_cases hs : decide (Gen.evalDepth l < Gen.evalDepth r) = true
    · rw [if_pos hs] at h ⊢
      exact mulOk_two hr.bool hl.bool (fun n => by rw [hl.last h]; exact ⟨fun _ => rfl, trivial⟩) n
    · rw [if_neg hs] at h ⊢
      exact mulOk_two hl.bool hr.bool (fun n => by rw [hr.last h]; exact ⟨fun _ => rfl, trivial⟩) n
  all_goals first
    | exact arith _ (by simp) (by simp [Gen.binInstr])
    | exact cmp _ (by intro b; cases b <;> simp [Gen.cmpInstr])

theorem last_genBin {nt : NT} {op : Bin} {l r : Expr} (hr : MulG nt r) (h : cmpTop (.bin op l r) = false) (n : Nat) :
    lastCmp true (Gen.genE (Gen.genBin nt op l r (Gen.gen nt l) (Gen.gen nt r)) n).1 = false := by
  have one : ∀ (c : List Instr) (i : Instr), cmpI i = false → lastCmp true ((c ++ [i]) ++ []) = false := by
    intro c i hi
    rw [List.append_nil, lastCmp_append]
    exact hi
  have arith : ∀ (sw : Bool), cmpI (Gen.binInstr op) = false → lastCmp true (Gen.genE
      (Gen.gen2OpExpr op sw (Gen.gen nt l).bool (Gen.gen nt r).bool) n).1 = false := by
    intro sw hi
    unfold Gen.gen2OpExpr
    split
    · exact one _ _ hi
    · exact one _ _ hi
  have ld : ∀ (c d : List Instr), (∀ q, lastCmp q d = false) → lastCmp true (c ++ d) = false := by
    intro c d hd
    rw [lastCmp_append]
    exact hd _
  cases op
  case comm =>
    have := hr.last h ((Gen.gen nt l).bool n).2.2
    show lastCmp true ((((Gen.gen nt l).bool n).1 ++ Gen.popP ((Gen.gen nt l).bool n).2.1 ++
      ((Gen.gen nt r).bool ((Gen.gen nt l).bool n).2.2).1) ++ Gen.load _) = false
    rw [List.append_assoc, lastCmp_append]
    exact lastCmp_weak this
  case idxr => exact ld _ _ (fun _ => rfl)
  case idxi => exact ld _ _ (fun _ => rfl)
  case idxc => exact ld _ _ (fun _ => rfl)
  case idxb => exact ld _ _ (fun _ => rfl)
  case dot =>
    show lastCmp true (Gen.genE (Gen.genDotExpr nt (Gen.gen nt l).bool r) n).1 = false
    unfold Gen.genDotExpr
    cases r <;> exact ld _ [.ldW] (fun _ => rfl)
  case semi => rfl
  case or =>
    show lastCmp true ((_ ++ Gen.boolMacro _ _ _ _) ++ []) = false
    rw [List.append_nil, lastCmp_append]
    exact lastCmp_macro _ _ _ _ _
  case and =>
    show lastCmp true ((_ ++ Gen.boolMacro _ _ _ _) ++ []) = false
    rw [List.append_nil, lastCmp_append]
    exact lastCmp_macro _ _ _ _ _
  all_goals first
    | exact arith _ rfl
    | cases h

theorem gen_mul {nt : NT} (e : Expr) : mulE e = true → MulG nt e := by
  induction e with
  | cnst v => intro _; exact .plain rfl (fun _ => trivial) (fun _ _ => rfl)
  | leaf k v =>
    intro _
    refine .plain rfl (fun n => ?_) (fun _ n => ?_)
    · cases k <;> simp [Gen.leafPlace, MulOk]
    · cases k <;> rfl
  | func0 f =>
    intro _
    refine .plain rfl (fun n => mulOk_call _ _ _) (fun _ n => ?_)
    show lastCmp true ((Gen.callCode nt f 0).1 ++ Gen.load (Gen.callCode nt f 0).2) = false
    unfold Gen.callCode
    split <;> rfl
  | func f a ih =>
    intro h
    refine .plain rfl (fun n => ((ih h).args n).append (mulOk_call _ _ _)) (fun _ n => ?_)
    show lastCmp true ((((Gen.gen nt a).args n).1 ++ (Gen.callCode nt f ((Gen.gen nt a).args n).2.1).1) ++
      Gen.load (Gen.callCode nt f ((Gen.gen nt a).args n).2.1).2) = false
    rw [List.append_assoc, lastCmp_append]
    unfold Gen.callCode
    split <;> rfl
  | un op e ih =>
    intro h
    refine .plain rfl (fun n => (mulOk_genE (ih h).bool n).append (by cases op <;> simp [Gen.unInstr, MulOk])) (fun _ n => ?_)
    show lastCmp true (((Gen.genE (Gen.gen nt e).bool n).1 ++ [Gen.unInstr op]) ++ []) = false
    rw [List.append_nil, lastCmp_append]
    cases op <;> rfl
  | assV k v r ih =>
    intro h
    refine .plain rfl (fun n => ((mulOk_genE (ih h).bool n).append ?_).append (mulOk_store _)) (fun _ n => ?_)
    · cases k <;> simp [Gen.leafPlace, MulOk]
    · show lastCmp true ((_ ++ Gen.store _) ++ []) = false
      rw [List.append_nil, lastCmp_append]
      cases k <;> rfl
  | assM op a i r iha ihi ihr =>
    intro h
    simp only [mulE, Bool.and_eq_true, decide_eq_true_eq] at h
    refine .plain rfl (fun n => ((mulOk_genE (ihr h.1.2).bool n).append
      (mulOk_genBin (iha h.1.1.1) (ihi h.1.1.2) (.inl h.2) _)).append (mulOk_store _)) (fun _ n => ?_)
    have hst : ∀ p q, lastCmp q (Gen.store p) = false := by intro p q; cases p <;> rfl
    show lastCmp true ((_ ++ Gen.store _) ++ []) = false
    rw [List.append_nil, lastCmp_append]
    exact hst _ _
  | bin op l r ihl ihr =>
    intro h
    simp only [mulE, Bool.and_eq_true, Bool.or_eq_true, decide_eq_true_eq, Bool.not_eq_true'] at h
    obtain ⟨⟨hl, hr⟩, h⟩ := h
    have hb := mulOk_genBin (nt := nt) (ihl hl) (ihr hr) h
    refine ⟨hb, last_genBin (ihr hr), ?_, ?_⟩
    · intro n
      cases op
      case semi => exact ((mulOk_genE (ihr hr).bool n).append (by simp [MulOk])).append ((ihl hl).args _)
      all_goals exact mulOk_argOne hb n
    · intro left A B n
      cases op
      case or => exact mulOk_log (ihl hl) (ihr hr) _ _ _ _
      case and => exact mulOk_log (ihl hl) (ihr hr) _ _ _ _
      all_goals exact ⟨by simp, trivial⟩

/-! ### Statements -/

theorem mulOk_x {nt : NT} {e : Expr} (h : mulE e = true) (n : Nat) : MulOk true (Gen.genX nt e n).1 :=
  ((gen_mul e h).bool n).append (mulOk_pop _)

theorem mulOk_cnd {nt : NT} {e : Expr} (h : mulE e = true) (tf : Bool) (J : Gen.Lab) (n : Nat) :
    MulOk true (Gen.genCnd nt e tf J n).1 := by
  have hg := gen_mul (nt := nt) e h
  unfold Gen.genCnd
  cases Gen.logOp e with
  | none => exact (mulOk_genE hg.bool n).append (mulOk_boolJmp _ _ _)
  | some op =>
    dsimp only
    split
    · exact (hg.log _ _ _ _).append (mulOk_printLab _)
    · exact (hg.log _ _ _ _).append (mulOk_printLab _)

theorem mulOk_one {i : Instr} (h : i ≠ .a2 .MUL) : MulOk true [i] := ⟨fun he => absurd he h, trivial⟩

theorem mulOk_whlEnd {nt : NT} {re : Option Expr} (h : re.all mulE = true) (jb : Bool) (c : Option Nat) (lo n : Nat) :
    MulOk true (Gen.genWhlEnd nt re jb c lo n).1 := by
  unfold Gen.genWhlEnd
  cases re with
  | none => dsimp only; split <;> simp [MulOk]
  | some e =>
    dsimp only
    split
    · exact ((mulOk_printLab _).append (mulOk_x (by simpa using h) _)).append (mulOk_one (by simp))
    · trivial

theorem genS_mul {nt : NT} (s : Stmt) : mulS s = true → ∀ p st, MulOk true (Gen.genS nt p s st).1 := by
  induction s with
  | empty => intro _ p st; trivial
  | exp e => intro h p st; exact mulOk_x h _
  | ifs c a iha =>
    intro h p st
    simp only [mulS, Bool.and_eq_true] at h
    exact (mulOk_cnd h.1 _ _ _).append ((iha h.2 _ _).append (mulOk_printLab _))
  | els c a b iha ihb =>
    intro h p st
    simp only [mulS, Bool.and_eq_true] at h
    simp only [Gen.genS]
    split
    · exact (mulOk_cnd h.1.1 _ _ _).append ((iha h.1.2 _ _).append ((mulOk_printLab _).append (ihb h.2 _ _)))
    · exact (mulOk_cnd h.1.1 _ _ _).append ((iha h.1.2 _ _).append ((mulOk_one (i := .jmp _) (by simp)).append
        ((mulOk_printLab _).append ((ihb h.2 _ _).append (mulOk_one (by simp))))))
  | whl c a re iha =>
    intro h p st
    simp only [mulS, Bool.and_eq_true] at h
    simp only [Gen.genS]
    refine (mulOk_one (i := .lab _) (by simp)).append (MulOk.append ?_ ((iha h.1.2 _ _).append (MulOk.append ?_ (mulOk_printLab _))))
    · cases c with
      | none => trivial
      | some c => exact mulOk_cnd (by simpa using h.1.1) _ _ _
    · exact mulOk_whlEnd h.2 _ _ _ _
  | dos a c iha =>
    intro h p st
    simp only [mulS, Bool.and_eq_true] at h
    simp only [Gen.genS]
    exact (mulOk_one (i := .lab _) (by simp)).append ((iha h.1 _ _).append ((mulOk_printLab _).append
      ((mulOk_cnd h.2 _ _ _).append (mulOk_printLab _))))
  | brk => intro _ p st; simp only [Gen.genS]; split <;> simp [MulOk]
  | cnt => intro _ p st; simp only [Gen.genS]; split <;> simp [MulOk]
  | ret e =>
    intro h p st
    have hv : MulOk true (Gen.genRetV nt e st.n).1 := by
      unfold Gen.genRetV
      cases e with
      | none => trivial
      | some e => exact (mulOk_genE (gen_mul e (by simpa [mulS] using h)).bool _).append (mulOk_one (by simp))
    simp only [Gen.genS, Gen.genRet]
    split
    · split
      · exact hv.append (mulOk_one (by simp))
      · exact hv.append (mulOk_one (by simp))
    · exact hv
  | seq x a b iha ihb =>
    intro h p st
    simp only [mulS, Bool.and_eq_true] at h
    exact (iha h.1 _ _).append (ihb h.2 _ _)

end Cmm.Tac
