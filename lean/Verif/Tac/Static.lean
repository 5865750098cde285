import Verif.Props.C51

/-
What can be said about the translation of a list of instructions with jumps (src/vm2tac.c) without
running it. `shapeF` says which lists are meant: labels and jumps are only used when the stack is empty
but for the tested value, as in the code of statements.
-/
namespace Cmm.Tac
open Cmm.Gen (Instr A1 A2)

/-- Values and arguments on the stack after an instruction of a statement. -/
def shapeF : Instr → List Bool → Option (List Bool)
  | .lab _, l | .jmp _, l => if l = [] then some [] else none
  | .jt _, l | .jf _, l | .mreg, l => if l = [true] then some [] else none
  | i, l => shape i l

def shapesF : List Instr → List Bool → Option (List Bool)
  | [], l => some l
  | i :: is, l => (shapeF i l).bind (shapesF is)

theorem forall2_len {es es' : List Ent} (h : List.Forall₂ Moved es es') : es'.length = es.length := h.length_eq.symm

theorem two_len {t : T} {e : Ent} {es : List Ent} {l : List Bool} (hs : t.stk = e :: es)
    (hl : t.stk.length = (true :: true :: l).count true) : ∃ e1 es', es = e1 :: es' ∧ es'.length = l.count true := by
  rw [hs] at hl
  simp only [List.length_cons, List.count_cons_self, Nat.add_right_cancel_iff] at hl
  rcases es with _ | ⟨e1, es⟩
  · simp at hl
  · exact ⟨e1, es, rfl, by simpa using hl⟩

theorem stForm_len {d : Src} {t t' : T} {es : List Ent} (h : StForm d t t' es) : t'.stk.length = t.stk.length := by
  obtain ⟨t1, e', es', mi, hs1, he', hl, rfl⟩ := h
  exact forall2_len mi.moved

/-- The number of entries is the number of values on the stack. -/
theorem emit_len {cnt : Int → Int} {i : Instr} {t t' : T} {l l' : List Bool} (w : W t)
    (hot : uses (.i i) = true → Hot t) (hl : t.stk.length = l.count true) (hsh : shapeF i l = some l')
    (h : emit cnt i t = some t') : t'.stk.length = l'.count true := by
  have push : ∀ e : Ent, pushStk e t = some t' → l' = true :: l → t'.stk.length = l'.count true := by
    intro e hp he
    rw [pushStk_form hp, he]
    simp [hl]
  have one : ∀ {b : List Bool}, l = true :: b → ∀ {e es}, t.stk = e :: es → es.length = b.count true := by
    intro b hb e es hs
    rw [hs, hb] at hl
    simpa using hl
  cases i with
  | lab n =>
    cases h
    simp only [shapeF] at hsh
    split at hsh
    · rename_i hh; cases hsh; rw [hh] at hl; exact hl
    · cases hsh
  | jmp n =>
    cases h
    simp only [shapeF] at hsh
    split at hsh
    · rename_i hh; cases hsh; rw [hh] at hl; exact hl
    · cases hsh
  | jt n =>
    obtain ⟨e, es, hs, h0⟩ := hot rfl
    simp only [shapeF] at hsh
    split at hsh
    · rename_i hh
      cases hsh
      have hes := one hh hs
      rcases boolJmp_form w hs h0 h with ⟨-, -, rfl⟩ | ⟨-, -, rfl⟩ | ⟨t1, e', es', mi, hs1, he, hl, -, rfl⟩
      · simpa [relDrop, hs] using hes
      · simpa [relDrop, hs] using hes
      · simp only [relDrop, hs1, List.tail_cons, hl]; exact hes
    · cases hsh
  | jf n =>
    obtain ⟨e, es, hs, h0⟩ := hot rfl
    simp only [shapeF] at hsh
    split at hsh
    · rename_i hh
      cases hsh
      have hes := one hh hs
      rcases boolJmp_form w hs h0 h with ⟨-, -, rfl⟩ | ⟨-, -, rfl⟩ | ⟨t1, e', es', mi, hs1, he, hl, -, rfl⟩
      · simpa [relDrop, hs] using hes
      · simpa [relDrop, hs] using hes
      · simp only [relDrop, hs1, List.tail_cons, hl]; exact hes
    · cases hsh
  | mreg =>
    obtain ⟨e, es, hs, h0⟩ := hot rfl
    simp only [shapeF] at hsh
    split at hsh
    · rename_i hh
      cases hsh
      have hes := one hh hs
      rcases vmMReg_form w hs h0 h with ⟨-, rfl⟩ | ⟨-, rfl⟩ | ⟨-, -, -, rfl⟩ <;> simpa [relDrop, hs] using hes
    · cases hsh
  | ldC v => cases hsh; exact push _ h rfl
  | ldG n => cases hsh; exact push _ h rfl
  | ldL n =>
    cases hsh
    have h : vmLdLoc (cnt n) t = some t' := h
    unfold vmLdLoc at h
    split at h
    · exact push _ h rfl
    · exact push _ h rfl
  | ldP n => cases hsh; exact push _ h rfl
  | ldLab n => cases hsh; exact push _ h rfl
  | ldNam n => cases hsh; exact push _ h rfl
  | nam f => cases hsh
  | entry d => cases hsh
  | entryK d => cases hsh
  | entryI d => cases hsh
  | ret => cases hsh
  | retI => cases hsh
  | bug => cases hsh
  | callF n f =>
    obtain ⟨t1, mi, ha, hf, hs, rfl⟩ := vmCallF_form w h
    simp only [shapeF, shape] at hsh
    split at hsh
    · rename_i hh
      cases hsh
      have : l.count true = (l.drop n).count true := by
        conv_lhs => rw [← List.take_append_drop n l]
        rw [List.count_append, hh]
        simp [List.count_replicate]
      simp [hs, hl, this]
    · cases hsh
  | callP n f =>
    obtain ⟨t1, mi, ha, hf, hs, rfl⟩ := call_form w h
    simp only [shapeF, shape] at hsh
    split at hsh
    · rename_i hh
      cases hsh
      have : l.count true = (l.drop n).count true := by
        conv_lhs => rw [← List.take_append_drop n l]
        rw [List.count_append, hh]
        simp [List.count_replicate]
      simp [hs, hl, this]
    · cases hsh
  | ldW =>
    obtain ⟨e, es, hs, h0⟩ := hot rfl
    rcases l with _ | ⟨_ | _, _ | ⟨_ | _, l⟩⟩ <;> simp only [shapeF, shape, reduceCtorEq] at hsh
    cases hsh
    obtain ⟨e1, es, rfl, hes⟩ := two_len hs hl
    obtain ⟨r, es', h1, h2⟩ := ldForm_moved hs (vmLdWrd_form w hs h0 h)
    simp [h1, forall2_len h2, hes]
  | ldB =>
    obtain ⟨e, es, hs, h0⟩ := hot rfl
    rcases l with _ | ⟨_ | _, _ | ⟨_ | _, l⟩⟩ <;> simp only [shapeF, shape, reduceCtorEq] at hsh
    cases hsh
    obtain ⟨e1, es, rfl, hes⟩ := two_len hs hl
    obtain ⟨r, es', h1, h2⟩ := vmLdByt_moved w hs h0 h
    simp [h1, forall2_len h2, hes]
  | stG n =>
    obtain ⟨e, es, hs, h0⟩ := hot rfl
    rcases l with _ | ⟨_ | _, l⟩ <;> simp only [shapeF, shape, reduceCtorEq] at hsh
    cases hsh
    rw [stForm_len (vmStGlb_form w hs h), hl]
  | stP n =>
    obtain ⟨e, es, hs, h0⟩ := hot rfl
    rcases l with _ | ⟨_ | _, l⟩ <;> simp only [shapeF, shape, reduceCtorEq] at hsh
    cases hsh
    rw [stForm_len (vmStPrm_form w hs h), hl]
  | stL n =>
    obtain ⟨e, es, hs, h0⟩ := hot rfl
    rcases l with _ | ⟨_ | _, l⟩ <;> simp only [shapeF, shape, reduceCtorEq] at hsh
    cases hsh
    rw [← hl]
    rcases vmStLoc_form w hs h0 h with ⟨_, h⟩ | ⟨_, he, rfl⟩ | ⟨_, he, hne, rfl⟩ | ⟨_, he, rfl⟩ | ⟨_, hf, ha, hne, sr, ho, rfl⟩
    · exact stForm_len h
    · rfl
    · rfl
    · simp [hs]
    · simp [hs]
  | stW =>
    obtain ⟨e, es, hs, h0⟩ := hot rfl
    rcases l with _ | ⟨_ | _, _ | ⟨_ | _, _ | ⟨_ | _, l⟩⟩⟩ <;> simp only [shapeF, shape, reduceCtorEq] at hsh
    cases hsh
    obtain ⟨e1, es, rfl, hes⟩ := two_len hs hl
    have h : (vmLdWrd t).bind (storeInd .ind) = some t' := h
    cases h1 : vmLdWrd t with
    | none => rw [h1] at h; cases h
    | some t1 =>
      rw [h1] at h
      obtain ⟨a, es', hs1, hmv⟩ := ldForm_moved hs (vmLdWrd_form w hs h0 h1)
      obtain ⟨w1, _⟩ := vmLdWrd_step w ⟨e, _, hs, h0⟩ h1
      have hlen := forall2_len hmv
      rw [hes] at hlen
      cases hmv with
      | nil => simp at hlen
      | cons k1 k2 => rw [forall2_len (storeInd_moved w1 hs1 (.inl rfl) h)]; exact hlen
  | stB =>
    obtain ⟨e, es, hs, h0⟩ := hot rfl
    rcases l with _ | ⟨_ | _, _ | ⟨_ | _, _ | ⟨_ | _, l⟩⟩⟩ <;> simp only [shapeF, shape, reduceCtorEq] at hsh
    cases hsh
    obtain ⟨e1, es, rfl, hes⟩ := two_len hs hl
    have h : (vmLdByt t).bind (storeInd .byt) = some t' := h
    cases h1 : vmLdByt t with
    | none => rw [h1] at h; cases h
    | some t1 =>
      rw [h1] at h
      obtain ⟨a, es', hs1, hmv⟩ := vmLdByt_moved w hs h0 h1
      obtain ⟨w1, _⟩ := vmLdByt_step w ⟨e, _, hs, h0⟩ h1
      have hlen := forall2_len hmv
      rw [hes] at hlen
      cases hmv with
      | nil => simp at hlen
      | cons k1 k2 => rw [forall2_len (storeInd_moved w1 hs1 (.inr rfl) h)]; exact hlen
  | a1 o =>
    obtain ⟨e, es, hs, h0⟩ := hot rfl
    rcases l with _ | ⟨_ | _, l⟩ <;> simp only [shapeF, shape, reduceCtorEq] at hsh
    cases hsh
    obtain ⟨t1, a, es', mi, hs1, hl1, hf, rfl⟩ := unary_form w hs h
    rw [← hl]
    exact forall2_len mi.moved
  | a2 o =>
    obtain ⟨e, es, hs, h0⟩ := hot rfl
    rcases l with _ | ⟨_ | _, _ | ⟨_ | _, l⟩⟩ <;> simp only [shapeF, shape, reduceCtorEq] at hsh
    cases hsh
    obtain ⟨e1, es, rfl, hes⟩ := two_len hs hl
    obtain ⟨r, es', h1, h2, h3⟩ := binary_moved w hs h0 h
    simp [h1, forall2_len h3, hes]
  | pop =>
    obtain ⟨e, es, hs, h0⟩ := hot rfl
    rcases l with _ | ⟨_ | _, l⟩ <;> simp only [shapeF, shape, reduceCtorEq] at hsh
    cases hsh
    rw [vmPop_form hs h]
    simpa [relDrop, hs] using one rfl hs
  | arg =>
    obtain ⟨e, es, hs, h0⟩ := hot rfl
    rcases l with _ | ⟨_ | _, l⟩ <;> simp only [shapeF, shape, reduceCtorEq] at hsh
    cases hsh
    have := one rfl hs
    rcases vmArg_form w hs h with ⟨hrv, t1, es', mi, hs1, hl, ha, rfl⟩ | ⟨t1, a, es', mi, hs1, hl, ha, rfl⟩
    · simp [relDrop, hs1, hl, this]
    · simp [relDrop, hs1, hl, this]

end Cmm.Tac
