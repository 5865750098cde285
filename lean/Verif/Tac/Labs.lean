import Verif.Tac.Static
import Verif.Tac.Flow

/-
Labels in the lines printed by src/vm2tac.c: the labels `.T` of loadFlg (vm2tac.c:155-163) are numbered by a
counter, the labels `.L` are those of the stack code. So every label is defined once if that is so in the
stack code.
-/
namespace Cmm.Tac
open Cmm.Gen (Instr A1 A2 UniqueLabels)

/-- Labels defined in a list of lines. -/
def labs (c : List Line) : List Lbl :=
  c.filterMap fun l => match l with
    | .lab b => some b
    | _ => none

theorem labs_append (a b : List Line) : labs (a ++ b) = labs a ++ labs b := by simp [labs]

/-- From `t` to `t'` only new labels `.T` are defined, and the size of the frame is the same. -/
def LG (t t' : T) : Prop :=
  (t.tlab ≤ t'.tlab ∧ t'.rvCnt = t.rvCnt ∧ t'.frSize = t.frSize) ∧ ∃ c, t'.out = t.out ++ c ∧ (labs c).Nodup ∧ ∀ b ∈ labs c, ∃ n, b = .T n ∧ t.tlab ≤ n ∧ n < t'.tlab

theorem LG.refl (t : T) : LG t t := ⟨⟨Nat.le_refl _, rfl, rfl⟩, [], by simp, by simp [labs], by simp [labs]⟩

theorem LG.trans {t t' t'' : T} (h : LG t t') (h' : LG t' t'') : LG t t'' := by
  obtain ⟨⟨h1, h5, h6⟩, c, h2, h3, h4⟩ := h
  obtain ⟨⟨g1, g5, g6⟩, c', g2, g3, g4⟩ := h'
  refine ⟨⟨Nat.le_trans h1 g1, g5.trans h5, g6.trans h6⟩, c ++ c', by rw [g2, h2, List.append_assoc], ?_, ?_⟩
  · rw [labs_append]
    refine List.nodup_append.2 ⟨h3, g3, fun a ha b hb he => ?_⟩
    obtain ⟨n, rfl, n1, n2⟩ := h4 a ha
    obtain ⟨k, hk, k1, k2⟩ := g4 b hb
    rw [hk] at he
    cases he
    omega
  · intro b hb
    rw [labs_append, List.mem_append] at hb
    rcases hb with hb | hb
    · obtain ⟨n, e, n1, n2⟩ := h4 b hb; exact ⟨n, e, n1, by omega⟩
    · obtain ⟨n, e, n1, n2⟩ := g4 b hb; exact ⟨n, e, by omega, n2⟩

/-- Lines that define no label. -/
theorem LG.lines {t t' : T} (c : List Line) (ho : t'.out = t.out ++ c) (ht : t'.tlab = t.tlab) (hc : labs c = [])
    (hr : t'.rvCnt = t.rvCnt ∧ t'.frSize = t.frSize := by exact ⟨rfl, rfl⟩) : LG t t' :=
  ⟨⟨by omega, hr⟩, c, ho, by rw [hc]; simp, by rw [hc]; simp⟩

theorem LG.none {t t' : T} (ho : t'.out = t.out) (ht : t'.tlab = t.tlab)
    (hr : t'.rvCnt = t.rvCnt ∧ t'.frSize = t.frSize := by exact ⟨rfl, rfl⟩) : LG t t' := .lines [] (by simp [ho]) ht rfl hr

theorem LG.flg {t t' : T} {r : Int} {j : Nat} (ho : t'.out = t.out ++ flgCode r j t.tlab) (ht : t'.tlab = t.tlab + 1)
    (hr : t'.rvCnt = t.rvCnt ∧ t'.frSize = t.frSize := by exact ⟨rfl, rfl⟩) : LG t t' :=
  ⟨⟨by omega, hr⟩, _, ho, by simp [labs, flgCode], by
    intro b hb
    simp only [labs, flgCode, List.filterMap_cons, List.filterMap_nil, List.mem_singleton] at hb
    exact ⟨t.tlab, hb, by omega, by omega⟩⟩

theorem Mic.lg {κ : Nat} {t t' : T} (h : Mic κ t t') : LG t t' := by
  cases h with
  | clr h => exact .none rfl rfl
  | unflag h => exact .flg rfl rfl
  | reload h ha hw ho => exact .lines _ rfl rfl rfl
  | spill h hl => exact .lines _ rfl rfl rfl
  | load h hh h1 ha ho hb h0 => exact .lines _ rfl rfl rfl
  | pop h hh h1 hb h0 => exact .lines _ rfl rfl rfl

theorem Mics.lg {κ : Nat} {t t' : T} (h : Mics κ t t') : LG t t' := by
  induction h with
  | refl => exact .refl _
  | tail _ h ih => exact ih.trans h.lg

theorem cal_lg {o : TOp} {t t' : T} {e0 e1 : Ent} {es : List Ent} (w : W t) (hs : t.stk = e0 :: e1 :: es)
    (h0 : e0.sta ≠ .STK) (h : cal o t = some t') : LG t t' := by
  obtain ⟨t1, a, es', sr, mi, hs1, hl, ho, hf, rfl⟩ := cal_form w hs h0 h
  exact mi.lg.trans (.lines [.op o (.g a) sr] rfl rfl rfl)

theorem rcal_lg {o : TOp} {t t' : T} {e0 e1 : Ent} {es : List Ent} (w : W t) (hs : t.stk = e0 :: e1 :: es)
    (h0 : e0.sta ≠ .STK) (h : rcal o t = some t') : LG t t' := by
  rcases rcal_form hs h with h | ⟨ha, k1, k2, h⟩
  · exact cal_lg w hs h0 h
  · refine LG.trans (t' := setTwo e1 e0 t) (.none rfl rfl) ?_
    exact cal_lg (w.swap hs ⟨h0, by rw [ha]; simp⟩ ⟨k1, k2⟩) (e0 := e1) (e1 := e0) (es := es) (by simp [setTwo, hs]) k1 h

theorem cmpEnd_lg {j : Nat} {t t' : T} {e0 e1 : Ent} {es : List Ent} (w : W t) (hs : t.stk = e0 :: e1 :: es)
    (h : cmpEnd j t = some t') : LG t t' := by
  obtain ⟨t2, a, mi, _, _, hl, _, rfl⟩ := cmpEnd_form w hs h
  exact (LG.trans (t' := relDrop e1 (relDrop e0 t)) (.none rfl rfl) mi.lg).trans (.none rfl rfl)

theorem cmp_lg {j : Nat} {t t' : T} {e0 e1 : Ent} {es : List Ent} (w : W t)
    (hs : t.stk = e0 :: e1 :: es) (h0 : e0.sta ≠ .STK) (h : cmp j t = some t') : LG t t' := by
  rw [cmp_eq j hs] at h
  split at h
  · exact cmpEnd_lg w hs h
  · split at h
    · exact cmpEnd_lg w hs h
    · cases h1 : cmpCode j t with
      | none => rw [h1] at h; cases h
      | some xx =>
        rw [h1] at h
        simp only [Option.bind_some] at h
        obtain ⟨sw, f0, f1, t1, r, es', sr, hsw, hff, mi, hst, hl, ho, hf, rfl⟩ := cmpCode_form w hs h0 h1
        have hg0 : LG t (if sw = true then setTwo e1 e0 t else t) := by
          cases sw with
          | false => exact .refl _
          | true => exact .none rfl rfl
        have w0 : W (if sw = true then setTwo e1 e0 t else t) := by
          cases sw with
          | false => exact w
          | true =>
            obtain ⟨ha, k1, k2⟩ := hsw rfl
            exact w.swap hs ⟨h0, by rcases ha with h | h <;> rw [h] <;> simp⟩ ⟨k1, k2⟩
        have w1 := mi.W w0
        have hst' : ∃ y1, t1.stk = unflag f0 :: y1 :: es' := by
          rcases hst with ⟨h, _, h'⟩ | h
          · exact ⟨_, h'⟩
          · exact ⟨_, h⟩
        obtain ⟨y1, hst'⟩ := hst'
        have h2 := cmpEnd_lg (w1.out (t1.out ++ [.op .CMP (.g r) sr])) hst' h
        have h3 : LG t1 { t1 with out := t1.out ++ [.op .CMP (.g r) sr] } := .lines _ rfl rfl rfl
        exact ((hg0.trans mi.lg).trans h3).trans h2

theorem binary_lg {o : A2} {t t' : T} {e0 e1 : Ent} {es : List Ent} (w : W t) (hs : t.stk = e0 :: e1 :: es)
    (h0 : e0.sta ≠ .STK) (h : binary o t = some t') : LG t t' := by
  have cst : ∀ {c : Int} {o : TOp}, e0.sta = .CNST → cal o (setTop ⟨.CNST, c⟩ t) = some t' → LG t t' := by
    intro c o hc h
    exact LG.trans (t' := setTop ⟨.CNST, c⟩ t) (.none rfl rfl) (cal_lg (w.setCst' hs hc) (e0 := ⟨.CNST, c⟩) (e1 := e1) (es := es)
      (by simp [setTop, hs]) (by simp) h)
  cases o with
  | ADD => exact rcal_lg w hs h0 h
  | SUB => exact cal_lg w hs h0 h
  | SHL => exact cal_lg w hs h0 h
  | SHR => exact cal_lg w hs h0 h
  | BAND => exact rcal_lg w hs h0 h
  | BXOR => exact rcal_lg w hs h0 h
  | BOR => exact rcal_lg w hs h0 h
  | MUL =>
    rcases vmMul_form w hs h with ⟨hc, hp, h⟩ | ⟨hc, hp, hnf, h⟩ | h
    · exact cst hc h
    · exact LG.trans (t' := setTwo ⟨.CNST, isPower2 e1.aux⟩ e0 t) (.none rfl rfl)
        (cal_lg (mul_left_swap (c := isPower2 e1.aux) w hs hc h0 hnf)
        (e0 := ⟨.CNST, isPower2 e1.aux⟩) (e1 := e0) (es := es) (by simp [setTwo, hs]) (by simp) h)
    · exact rcal_lg w hs h0 h
  | DIV =>
    rcases vmDiv_form hs h with ⟨hc, -, h⟩ | h
    · exact cst hc h
    · exact cal_lg w hs h0 h
  | MOD =>
    rcases vmMod_form hs h with ⟨hc, -, h⟩ | h
    · exact cst hc h
    · exact cal_lg w hs h0 h
  | GT => exact cmp_lg w hs h0 h
  | GE => exact cmp_lg w hs h0 h
  | LT => exact cmp_lg w hs h0 h
  | LE => exact cmp_lg w hs h0 h
  | EQ => exact cmp_lg w hs h0 h
  | NE => exact cmp_lg w hs h0 h

theorem ldForm_lg {o : TOp} {k : Sta} {t t' : T} {e0 e1 : Ent} {es : List Ent} (h : LdForm o k t t' e0 e1 es) : LG t t' := by
  rcases h with ⟨h1, h2, rfl⟩ | ⟨h1, t1, a, es', mi, hs1, hl, rfl⟩ | ⟨t1, a, es', sr, mi, hs1, hl, ho, hf, rfl⟩
  · exact .none rfl rfl
  · exact mi.lg.trans (.none rfl rfl)
  · exact mi.lg.trans (.lines [.op o (.g a) sr] rfl rfl rfl)

theorem vmLdByt_lg {t t' : T} {e0 e1 : Ent} {es : List Ent} (w : W t) (hs : t.stk = e0 :: e1 :: es)
    (h0 : e0.sta ≠ .STK) (h : vmLdByt t = some t') : LG t t' := by
  rcases vmLdByt_form w hs h0 h with h | ⟨ha, h1, t1, sr, es', mi, hs1, hl, hop, hf, rfl⟩
  · exact ldForm_lg h
  · exact mi.lg.trans (.lines [.op .ADD (.g e0.aux) sr] rfl rfl rfl)

theorem stForm_lg {d : Src} {t t' : T} {es : List Ent} (h : StForm d t t' es) : LG t t' := by
  obtain ⟨t1, e', es', mi, hs1, he', hl, rfl⟩ := h
  exact mi.lg.trans (.lines _ rfl rfl rfl)

theorem storeInd_lg {d : Int → Src} {t t' : T} {k : Sta} {r : Int} {e1 : Ent} {es : List Ent}
    (w : W t) (hs : t.stk = ⟨k, r⟩ :: e1 :: es) (hk : k = .WINDR ∨ k = .BINDR)
    (h : storeInd d t = some t') : LG t t' := by
  obtain ⟨t1, e', es', mi, hs1, he', hl, rfl⟩ := storeInd_form w hs hk h
  exact mi.lg.trans (.lines [.st e'.aux (d r)] rfl rfl rfl)

theorem stLoc_lg {n : Int} {t t' : T} {e : Ent} {es : List Ent} (w : W t) (hs : t.stk = e :: es)
    (h0 : e.sta ≠ .STK) (h : vmStLoc n t = some t') : LG t t' := by
  rcases vmStLoc_form w hs h0 h with ⟨_, h⟩ | ⟨_, he, rfl⟩ | ⟨_, he, hne, rfl⟩ | ⟨_, he, rfl⟩ | ⟨_, hf, ha, hne, sr, ho, rfl⟩
  · exact stForm_lg h
  · exact .refl _
  · exact .lines _ rfl rfl rfl
  · exact .flg rfl rfl
  · exact .lines _ rfl rfl rfl

theorem boolJmp_lg {tf : Bool} {lab : Nat} {t t' : T} {e : Ent} {es : List Ent} (w : W t) (hs : t.stk = e :: es)
    (h0 : e.sta ≠ .STK) (h : boolJmp tf lab t = some t') : LG t t' := by
  rcases boolJmp_form w hs h0 h with ⟨-, -, rfl⟩ | ⟨-, -, rfl⟩ | ⟨t1, e', es', mi, hs1, he, hl, -, rfl⟩
  · exact .lines [.jcc (jmpOf tf t.jcc) (.L lab)] rfl rfl rfl
  · exact .lines [.jcc (jmpOf tf JNZ) (.L lab)] rfl rfl rfl
  · exact mi.lg.trans (.lines [.op .CMP (.g e'.aux) (.imm 0), .jcc (jmpOf tf JNZ) (.L lab)] rfl rfl rfl)

theorem labs_call (n : Nat) (f : Int) : labs (callLines n f) = [] := by
  unfold callLines
  split <;> rfl

/-- One instruction: either a label, or only new labels `.T`. -/
theorem emit_lg {cnt : Int → Int} {i : Instr} {t t' : T} (w : W t) (hot : uses (.i i) = true → Hot t)
    (hx : inExpr (.i i) = true) (hn : ∀ n, i ≠ .lab n) (h : emit cnt i t = some t') : LG t t' := by
  have push : ∀ e : Ent, pushStk e t = some t' → LG t t' := by
    intro e hp
    rw [pushStk_form hp]
    exact .none rfl rfl
  cases i with
  | lab n => exact absurd rfl (hn n)
  | jmp n => cases h; exact .lines [.jmp (.L n)] rfl rfl rfl
  | jt n => obtain ⟨e, es, hs, h0⟩ := hot rfl; exact boolJmp_lg w hs h0 h
  | jf n => obtain ⟨e, es, hs, h0⟩ := hot rfl; exact boolJmp_lg w hs h0 h
  | ldC v => exact push _ h
  | ldG v => exact push _ h
  | ldL n =>
    have h : vmLdLoc (cnt n) t = some t' := h
    unfold vmLdLoc at h
    split at h
    · exact push _ h
    · exact push _ h
  | ldP v => exact push _ h
  | ldLab v => exact push _ h
  | ldNam v => exact push _ h
  | ldW =>
    obtain ⟨e, es, hs, h0⟩ := hot rfl
    obtain ⟨e1, l, hs⟩ := two_hot hs (two_of_sec h)
    exact ldForm_lg (vmLdWrd_form w hs h0 h)
  | ldB =>
    obtain ⟨e, es, hs, h0⟩ := hot rfl
    obtain ⟨e1, l, hs⟩ := two_hot hs (two_of_sec h)
    exact vmLdByt_lg w hs h0 h
  | stG n => obtain ⟨e, es, hs, h0⟩ := hot rfl; exact stForm_lg (vmStGlb_form w hs h)
  | stP n => obtain ⟨e, es, hs, h0⟩ := hot rfl; exact stForm_lg (vmStPrm_form w hs h)
  | stL n => obtain ⟨e, es, hs, h0⟩ := hot rfl; exact stLoc_lg w hs h0 h
  | stW =>
    obtain ⟨e, es, hs, h0⟩ := hot rfl
    have h : (vmLdWrd t).bind (storeInd .ind) = some t' := h
    cases h1 : vmLdWrd t with
    | none => rw [h1] at h; cases h
    | some t1 =>
      rw [h1] at h
      obtain ⟨e1, l, hs⟩ := two_hot hs (two_of_sec h1)
      obtain ⟨w1, r, es', hs1⟩ := vmLdWrd_step w ⟨e, _, hs, h0⟩ h1
      have h : storeInd .ind t1 = some t' := h
      have : ∃ e1 es1, es' = e1 :: es1 := by
        cases es' with
        | cons e1 es1 => exact ⟨e1, es1, rfl⟩
        | nil => unfold storeInd at h; simp [sec, hs1] at h
      obtain ⟨e2, es2, rfl⟩ := this
      exact (ldForm_lg (vmLdWrd_form w hs h0 h1)).trans (storeInd_lg w1 hs1 (.inl rfl) h)
  | stB =>
    obtain ⟨e, es, hs, h0⟩ := hot rfl
    have h : (vmLdByt t).bind (storeInd .byt) = some t' := h
    cases h1 : vmLdByt t with
    | none => rw [h1] at h; cases h
    | some t1 =>
      rw [h1] at h
      obtain ⟨e1, l, hs⟩ := two_hot hs (two_of_sec h1)
      obtain ⟨w1, r, es', hs1⟩ := vmLdByt_step w ⟨e, _, hs, h0⟩ h1
      have h : storeInd .byt t1 = some t' := h
      have : ∃ e1 es1, es' = e1 :: es1 := by
        cases es' with
        | cons e1 es1 => exact ⟨e1, es1, rfl⟩
        | nil => unfold storeInd at h; simp [sec, hs1] at h
      obtain ⟨e2, es2, rfl⟩ := this
      exact (vmLdByt_lg w hs h0 h1).trans (storeInd_lg w1 hs1 (.inr rfl) h)
  | a1 o =>
    obtain ⟨e, es, hs, h0⟩ := hot rfl
    obtain ⟨t1, a, es', mi, hs1, hl, hf, rfl⟩ := unary_form w hs h
    refine mi.lg.trans (.lines ((unLines o).map fun (l : TOp × Int) => Line.op l.1 (.g a) (.imm l.2)) rfl rfl ?_)
    cases o <;> rfl
  | a2 o =>
    have hh := hot rfl
    obtain ⟨e, es, hs, h0⟩ := hh
    obtain ⟨e1, l, hs⟩ := two_hot hs (binary_two w (hot rfl) h)
    exact binary_lg w hs h0 h
  | pop =>
    obtain ⟨e, es, hs, h0⟩ := hot rfl
    have ht := vmPop_form hs h
    subst ht
    exact .none rfl rfl
  | arg =>
    obtain ⟨e, es, hs, h0⟩ := hot rfl
    rcases vmArg_form w hs h with ⟨hrv, t1, es', mi, hs1, hl, ha, rfl⟩ | ⟨t1, a, es', mi, hs1, hl, ha, rfl⟩
    · exact mi.lg.trans (.lines [.push (.g e.aux)] rfl rfl rfl)
    · exact mi.lg.trans (.none rfl rfl)
  | callF n f =>
    obtain ⟨t1, mi, ha, hf, hs, rfl⟩ := vmCallF_form w h
    exact mi.lg.trans (.lines _ rfl rfl (labs_call n f))
  | callP n f =>
    obtain ⟨t1, mi, ha, hf, hs, rfl⟩ := call_form w h
    exact mi.lg.trans (.lines _ rfl rfl (labs_call n f))
  | mreg =>
    obtain ⟨e, es, hs, h0⟩ := hot rfl
    rcases vmMReg_form w hs h0 h with ⟨-, rfl⟩ | ⟨-, rfl⟩ | ⟨s, -, -, rfl⟩
    · exact .none rfl rfl
    · exact .flg rfl rfl
    · exact .lines _ rfl rfl rfl
  | nam f => cases hx
  | entry d => cases hx
  | entryK d => cases hx
  | entryI d => cases hx
  | ret => cases hx
  | retI => cases hx
  | bug => cases h

/-- Labels of the stack code. -/
def labsI (P : List Instr) : List Nat :=
  P.filterMap fun i => match i with
    | .lab n => some n
    | _ => none

/-- The labels after a list of instructions: those of the stack code and new ones. -/
theorem emits_labs {cnt : Int → Int} (P : List Instr) : ∀ {b : Bool} {t t' : T}, W t → (b = true → Hot t) →
    Disc b (P.map .i) → Counted cnt (P.map .i) → (∀ i ∈ P, inExpr (.i i) = true) → emits cnt (P.map .i) t = some t' →
    (labsI P).Nodup → t.tlab ≤ t'.tlab ∧ ∃ c, t'.out = t.out ++ c ∧ (labs c).Nodup ∧
      ∀ b ∈ labs c, (∃ n, b = .T n ∧ t.tlab ≤ n ∧ n < t'.tlab) ∨ ∃ n ∈ labsI P, b = .L n := by
  induction P with
  | nil =>
    intro b t t' _ _ _ _ _ he _
    cases he
    exact ⟨Nat.le_refl _, [], by simp, by simp [labs], by simp [labs]⟩
  | cons i P ih =>
    intro b t t' w hot hd hc hx he hn
    have he' : (emit cnt i t).bind (emits cnt (P.map .i)) = some t' := he
    cases h1 : emit cnt i t with
    | none => rw [h1] at he'; cases he'
    | some t1 =>
      rw [h1] at he'
      have hcj : Counted cnt [Vm.i i] := fun n hn => hc n (by
        simp only [List.mem_singleton, Vm.i.injEq] at hn
        rcases hn with hn | hn
        · left; simp [hn]
        · right; simp [hn])
      obtain ⟨w1, hot1⟩ := emitV_step (v := .i i) w hot hd.1 hcj h1
      by_cases hl : ∃ n, i = .lab n
      · obtain ⟨n, rfl⟩ := hl
        simp only [labsI, List.filterMap_cons, List.nodup_cons] at hn
        obtain ⟨k1, c, k2, k3, k4⟩ := ih w1 hot1 hd.2 (fun n hn => hc n (hn.imp (List.mem_cons_of_mem _) (List.mem_cons_of_mem _)))
          (fun j hj => hx j (by simp [hj])) he' hn.2
        have h1 : some (t.print (.lab (.L n))) = some t1 := h1
        have h1 := Option.some.inj h1
        subst h1
        refine ⟨k1, .lab (.L n) :: c, by rw [k2]; simp [T.print], ?_, ?_⟩
        · show (Lbl.L n :: labs c).Nodup
          refine List.nodup_cons.2 ⟨fun hh => ?_, k3⟩
          rcases k4 _ hh with ⟨k, hk, -⟩ | ⟨k, hk, hk'⟩
          · cases hk
          · cases hk'; exact hn.1 hk
        · intro b hb
          rcases List.mem_cons.1 (show b ∈ Lbl.L n :: labs c from hb) with rfl | hb
          · exact .inr ⟨n, by simp [labsI], rfl⟩
          · refine (k4 b hb).imp id fun ⟨k, hk, hk'⟩ => ⟨k, ?_, hk'⟩
            simp only [labsI, List.filterMap_cons, List.mem_cons]
            exact .inr hk
      · have hP : labsI (i :: P) = labsI P := by
          cases i <;> first | rfl | exact absurd ⟨_, rfl⟩ hl
        rw [hP] at hn ⊢
        obtain ⟨⟨g1, -⟩, c0, g2, g3, g4⟩ := emit_lg w (fun hu => hot (hd.1 hu)) (hx i (by simp)) (fun n hh => hl ⟨n, hh⟩) h1
        obtain ⟨k1, c, k2, k3, k4⟩ := ih w1 hot1 hd.2 (fun n hn => hc n (hn.imp (List.mem_cons_of_mem _) (List.mem_cons_of_mem _)))
          (fun j hj => hx j (by simp [hj])) he' hn
        refine ⟨Nat.le_trans g1 k1, c0 ++ c, by rw [k2, g2, List.append_assoc], ?_, ?_⟩
        · rw [labs_append]
          refine List.nodup_append.2 ⟨g3, k3, fun a ha b hb he => ?_⟩
          obtain ⟨n, rfl, n1, n2⟩ := g4 a ha
          subst he
          rcases k4 _ hb with ⟨k, hk, k5, k6⟩ | ⟨k, hk, hk'⟩
          · cases hk; omega
          · cases hk'
        · intro b hb
          rw [labs_append, List.mem_append] at hb
          rcases hb with hb | hb
          · obtain ⟨n, e, n1, n2⟩ := g4 b hb; exact .inl ⟨n, e, n1, by omega⟩
          · rcases k4 b hb with ⟨n, e, n1, n2⟩ | hh
            · exact .inl ⟨n, e, by omega, n2⟩
            · exact .inr hh

/-- The size of the frame stays as it is. -/
theorem emits_frame {cnt : Int → Int} (P : List Instr) : ∀ {b : Bool} {t t' : T}, W t → (b = true → Hot t) →
    Disc b (P.map .i) → Counted cnt (P.map .i) → (∀ i ∈ P, inExpr (.i i) = true) → emits cnt (P.map .i) t = some t' →
    t'.rvCnt = t.rvCnt ∧ t'.frSize = t.frSize := by
  induction P with
  | nil => intro b t t' _ _ _ _ _ he; cases he; exact ⟨rfl, rfl⟩
  | cons i P ih =>
    intro b t t' w hot hd hc hx he
    have he' : (emit cnt i t).bind (emits cnt (P.map .i)) = some t' := he
    cases h1 : emit cnt i t with
    | none => rw [h1] at he'; cases he'
    | some t1 =>
      rw [h1] at he'
      have hcj : Counted cnt [Vm.i i] := fun n hn => hc n (by
        simp only [List.mem_singleton, Vm.i.injEq] at hn
        rcases hn with hn | hn
        · left; simp [hn]
        · right; simp [hn])
      obtain ⟨w1, hot1⟩ := emitV_step (v := .i i) w hot hd.1 hcj h1
      obtain ⟨k1, k2⟩ := ih w1 hot1 hd.2 (fun n hn => hc n (hn.imp (List.mem_cons_of_mem _) (List.mem_cons_of_mem _)))
        (fun j hj => hx j (by simp [hj])) he'
      have : t1.rvCnt = t.rvCnt ∧ t1.frSize = t.frSize := by
        by_cases hl : ∃ n, i = .lab n
        · obtain ⟨n, rfl⟩ := hl
          have h1 : some (t.print (.lab (.L n))) = some t1 := h1
          rw [← Option.some.inj h1]
          exact ⟨rfl, rfl⟩
        · exact (emit_lg w (fun hu => hot (hd.1 hu)) (hx i (by simp)) (fun n hh => hl ⟨n, hh⟩) h1).1.2
      exact ⟨k1.trans this.1, k2.trans this.2⟩

/-- Each label once, as a list or by position. -/
theorem uniqueLabs_of {Q : List Line} (h : (labs Q).Nodup) : UniqueLabs Q := by
  induction Q with
  | nil => intro i j b hi; simp at hi
  | cons l Q ih =>
    have hm : ∀ {k : Nat} {b : Lbl}, Q[k]? = some (.lab b) → b ∈ labs Q := fun hk =>
      List.mem_filterMap.2 ⟨_, List.mem_of_getElem? hk, rfl⟩
    have hq : (labs Q).Nodup := by
      cases l <;> first | exact h | exact (List.nodup_cons.1 h).2
    intro i j b hi hj
    cases i with
    | zero =>
      cases j with
      | zero => rfl
      | succ j =>
        simp only [List.getElem?_cons_zero, Option.some.injEq] at hi
        subst hi
        exact absurd (hm hj) (List.nodup_cons.1 h).1
    | succ i =>
      cases j with
      | zero =>
        simp only [List.getElem?_cons_zero, Option.some.injEq] at hj
        subst hj
        exact absurd (hm hi) (List.nodup_cons.1 h).1
      | succ j => rw [ih hq i j b hi hj]

theorem labsI_nodup {P : List Instr} (h : UniqueLabels P) : (labsI P).Nodup := by
  induction P with
  | nil => simp [labsI]
  | cons i P ih =>
    have hP : UniqueLabels P := fun a b n ha hb => by
      have := h (a + 1) (b + 1) n (by simpa using ha) (by simpa using hb)
      omega
    by_cases hl : ∃ n, i = .lab n
    · obtain ⟨n, rfl⟩ := hl
      show (n :: labsI P).Nodup
      refine List.nodup_cons.2 ⟨fun hn => ?_, ih hP⟩
      obtain ⟨j, hj, hjn⟩ := List.mem_filterMap.1 hn
      cases j <;> simp at hjn
      subst hjn
      obtain ⟨k, hk⟩ := List.mem_iff_getElem?.1 hj
      have := h 0 (k + 1) _ List.getElem?_cons_zero (by simpa using hk)
      omega
    · have : labsI (i :: P) = labsI P := by
        cases i <;> first | rfl | exact absurd ⟨_, rfl⟩ hl
      rw [this]
      exact ih hP

end Cmm.Tac
