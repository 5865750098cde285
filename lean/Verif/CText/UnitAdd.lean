import Verif.CText.Unit

/-
C78: a new name in the table of a file.
-/
namespace Cmm.CText
open Cmm.Parse (Tab Ent Spot Sees Field VarKind IsFun IsGlob TyVOID TyINTR TySTRUC TyDOTDOTDOT ScLVAR ScPRM ScVOID ScFUNC ScPROT ScCOMM ScGVAR ScSTRC)

variable {T : Tab} {U U' : CUnit} {e : Ent} {l : Tab}

theorem glob_nonneg (h : IsGlob e) : 0 ≤ e.scope ∧ e.scope ≠ ScVOID ∧ e.scope ≠ ScSTRC := by
  rcases h with h | h | h | h <;> rw [h] <;> decide

theorem IsFun.glob (h : IsFun e.scope) : IsGlob e := by
  rcases h with h | h
  · exact .inl h
  · exact .inr (.inl h)

/-- Visible names of a file are global. -/
theorem FInv.sees_glob (h : FInv U T) {x n} (hs : Sees T x n e) : IsGlob e := by
  rcases h.scp e (List.mem_of_getElem? hs.1) with h1 | h1 | h1
  · have := hs.2.2.1; rw [h1] at this; exact absurd this (by decide)
  · have := hs.2.2.1; rw [h1.1] at this; exact absurd this (by decide)
  · exact h1

/-- Global names are visible. -/
theorem FInv.sees (h : FInv U T) {n : Nat} (h1 : T[n]? = some e) (h2 : IsGlob e) : Sees T e.name n e := by
  refine ⟨h1, rfl, (glob_nonneg h2).1, fun m e' h3 h4 h5 => ?_⟩
  rcases h.scp e' (List.mem_of_getElem? h4) with h6 | h6 | h6
  · rw [h6]; decide
  · rw [h6.1]; decide
  · have := h.uniq m n e' e h4 h1 h6 h2 h5
    omega

theorem var_glob {k} (h : VarKind e.scope k) (hl : e.scope < ScLVAR) : e.scope = ScCOMM ∨ e.scope = ScGVAR := by
  generalize e.scope = s at h hl
  cases h with
  | comm => exact .inl rfl
  | gvar => exact .inr rfl
  | lvar => exact absurd hl (by decide)
  | prm => exact absurd hl (by decide)

/-- What is entered behind the name: parameters or fields. -/
def Behind (T : Tab) (d : Ent) : Prop :=
  d.scope = ScVOID ∧ d.type ≠ TySTRUC ∧ (d.type, d.dim) ≠ (TyVOID, 0) ∧ (d.type ≠ TyDOTDOTDOT → TyOk T d.type)

structure Added (U U' : CUnit) (T : Tab) (e : Ent) (l : Tab) : Prop where
  plain : Plain (T ++ e :: l)
  kind : (e.scope = ScSTRC ∧ e.type = TySTRUC ∧ ∀ d ∈ l, d.type ≠ TyDOTDOTDOT) ∨ (IsGlob e ∧ TyOk T e.type)
  new : ∀ d ∈ T, d.scope ≠ ScVOID → d.name ≠ e.name
  behind : ∀ d ∈ l, Behind (T ++ e :: l) d
  cnt : Owner e → e.cnt = l.length
  val : e.scope = ScCOMM ∨ e.scope = ScGVAR → (e.type, e.dim) ≠ (TyVOID, 0)
  G1 : ∀ w, w ≠ e.name.toList ∨ e.scope = ScSTRC → U'.G w = U.G w
  G2 : e.scope = ScCOMM ∨ e.scope = ScGVAR → U'.G e.name.toList = some (.obj (declTy (tabNames (T ++ e :: l)) (e.type, e.dim)))
  G3 : IsFun e.scope → U'.G e.name.toList = some (.fn (declTy (tabNames (T ++ e :: l)) (e.type, e.dim))
    ((l.takeWhile (fun e => e.type ≠ TyDOTDOTDOT)).map fun d => declTy (tabNames (T ++ e :: l)) (d.type, d.dim)) (l.any fun e => e.type = TyDOTDOTDOT))
  M1 : ∀ w y, w ≠ e.name.toList ∨ e.scope ≠ ScSTRC → U'.M w y = U.M w y
  M2 : e.scope = ScSTRC → ∀ (n : Nat) (d : Ent), l[n]? = some d → (∀ (m : Nat) (d' : Ent), m < n → l[m]? = some d' → d'.name ≠ d.name) →
    U'.M e.name.toList d.name.toList = some (declTy (tabNames (T ++ e :: l)) (d.type, d.dim))
  K : ∀ w, U'.K w = true ↔ U.K w = true ∨ (e.scope = ScSTRC ∧ w = e.name.toList)
  S1 : ∀ w, w ≠ e.name.toList → U'.S w = U.S w
  S2 : IsGlob e → U'.S e.name.toList = some (!e.pub)
  F1 : ∀ w, U'.F w = true → U.F w = true ∨ (w = e.name.toList ∧ (e.scope = ScFUNC ∨ e.scope = ScGVAR))

theorem FInv.add (h : FInv U T) (a : Added U U' T e l) : FInv U' (T ++ e :: l) := by
  have hmid : (T ++ e :: l)[T.length]? = some e := by simp
  have after : ∀ (n : Nat) d, (T ++ e :: l)[n]? = some d → T.length < n → l[n - T.length - 1]? = some d := by
    intro n d h1 h2
    rw [List.getElem?_append_right (by omega), show n - T.length = (n - T.length - 1) + 1 by omega, List.getElem?_cons_succ] at h1
    exact h1
  have three : ∀ (n : Nat) d, (T ++ e :: l)[n]? = some d → (n < T.length ∧ T[n]? = some d) ∨ (n = T.length ∧ d = e) ∨ (T.length < n ∧ d ∈ l) := by
    intro n d h1
    rcases Nat.lt_trichotomy n T.length with h2 | h2 | h2
    · exact .inl ⟨h2, by rw [← h1, List.getElem?_append_left h2]⟩
    · subst h2; rw [hmid] at h1; cases h1; exact .inr (.inl ⟨rfl, rfl⟩)
    · exact .inr (.inr ⟨h2, List.mem_of_getElem? (after n d h1 h2)⟩)
  have member : ∀ d, d ∈ T ++ e :: l ↔ d ∈ T ∨ d = e ∨ d ∈ l := by intro d; simp
  have evar : e.scope = ScCOMM ∨ e.scope = ScGVAR → IsGlob e := fun h => .inr (.inr h)
  have estr : e.type = TySTRUC → e.scope = ScSTRC := by
    intro h1
    rcases a.kind with h2 | h2
    · exact h2.1
    · exact absurd h1 h2.2.not.1
  have edots : e.type ≠ TyDOTDOTDOT := by
    intro h1
    rcases a.kind with h2 | h2
    · rw [h1] at h2; exact absurd h2.2.1 (by decide)
    · exact h2.2.not.2.1 h1
  have enosc : IsGlob e → e.scope ≠ ScSTRC := fun h => (glob_nonneg h).2.2
  have lnot : ∀ d ∈ l, ¬ IsGlob d := fun d hd hg => (glob_nonneg hg).2.1 (a.behind d hd).1
  have lown : ∀ d ∈ l, ¬ Owner d := by
    rintro d hd (h1 | h1)
    · exact lnot d hd (IsFun.glob h1)
    · exact (a.behind d hd).2.1 h1
  have eown : Owner e → ((T ++ e :: l).drop (T.length + 1)).take e.cnt = l := by
    intro h1
    rw [a.cnt h1, List.drop_append, List.drop_eq_nil_of_le (by omega)]
    simp
  have told : ∀ {n : Nat} {d : Ent}, T[n]? = some d → Owner d → ((T ++ e :: l).drop (n + 1)).take d.cnt = (T.drop (n + 1)).take d.cnt := by
    intro n d h1 h2
    have := h.inv.rng n d h1 h2
    rw [List.drop_append_of_le_length (by omega), List.take_append_of_le_length (by rw [List.length_drop]; omega)]
  have h0 : Inv (tabNames (T ++ e :: l)) U.G U.M T :=
    h.inv.rename (fun i hi => (tabNames_left hi).symm) h.tys h.strc h.dots h.own
  have name : ∀ {n : Nat} {d : Ent}, (T ++ e :: l)[n]? = some d → tabNames (T ++ e :: l) n = d.name.toList := by
    intro n d h1; simp [tabNames, h1]
  have gnew : ∀ d ∈ T, d.scope ≠ ScVOID → d.name.toList ≠ e.name.toList := fun d hd hv hq => a.new d hd hv (String.toList_injective hq)
  have rng : Ranges (T ++ e :: l) := by
    intro n d h1 h2
    rcases three n d h1 with ⟨h3, h4⟩ | ⟨rfl, rfl⟩ | ⟨-, h4⟩
    · have := h.inv.rng n d h4 h2
      simp; omega
    · have := a.cnt h2
      simp; omega
    · exact absurd h2 (lown d h4)
  have field : ∀ {i n : Nat} {d f : Ent} {x}, T[i]? = some d → d.type = TySTRUC → Field (T ++ e :: l) i x n f → Field T i x n f :=
    fun h1 h2 h3 => field_append h.inv.rng h1 h2 h3
  have sv : ∀ {x n d}, Sees (T ++ e :: l) x n d → (n < T.length ∧ Sees T x n d) ∨ (n = T.length ∧ d = e) := by
    intro x n d h1
    rcases three n d h1.1 with ⟨h3, -⟩ | h3 | ⟨-, h3⟩
    · exact .inl ⟨h3, sees_app h1 h3⟩
    · exact .inr h3
    · have := h1.2.2.1
      rw [(a.behind d h3).1] at this
      exact absurd this (by decide)
  have vk : ∀ {k}, VarKind e.scope k → e.scope = ScCOMM ∨ e.scope = ScGVAR := by
    intro k h1
    refine var_glob h1 ?_
    rcases a.kind with h2 | h2
    · rw [h2.1]; decide
    · rcases h2.1 with h3 | h3 | h3 | h3 <;> rw [h3] <;> decide
  have oldG : ∀ {x n d}, Sees T x n d → U'.G (tabNames (T ++ e :: l) n) = U.G (tabNames (T ++ e :: l) n) := by
    intro x n d h1
    have hn := (List.getElem?_eq_some_iff.1 h1.1).1
    refine a.G1 _ (.inl ?_)
    rw [name (by rw [List.getElem?_append_left hn]; exact h1.1)]
    refine gnew d (List.mem_of_getElem? h1.1) fun hq => ?_
    have := h1.2.2.1
    rw [hq] at this
    exact absurd this (by decide)
  have strucOf : ∀ {i : Nat} {d : Ent}, (T ++ e :: l)[i]? = some d → d.type = TySTRUC →
      (i < T.length ∧ T[i]? = some d) ∨ (i = T.length ∧ d = e ∧ e.scope = ScSTRC) := by
    intro i d h1 h2
    rcases three i d h1 with h3 | ⟨h3, rfl⟩ | ⟨-, h3⟩
    · exact .inl h3
    · exact .inr ⟨h3, rfl, estr h2⟩
    · exact absurd h2 (a.behind d h3).2.1
  have efld : ∀ {f : Ent} {n : Nat} {x}, e.scope = ScSTRC → Field (T ++ e :: l) T.length x n f → f ∈ l ∧ l[n - T.length - 1]? = some f ∧ T.length < n := by
    rintro f n x - ⟨⟨d, h1, h2, h3⟩, h4, -⟩
    exact ⟨List.mem_of_getElem? (after n f h4 h2), after n f h4 h2, h2⟩
  refine ⟨⟨⟨?_, ?_, ?_, ?_⟩, ⟨?_, ?_, ?_⟩, rng⟩, ?_, ?_, ?_, ?_, ?_, ?_, ?_, ?_, ?_, ?_⟩
  · -- variables
    intro x n d k h1 h2 h3
    rcases sv h1 with ⟨-, h4⟩ | ⟨rfl, rfl⟩
    · rw [oldG h4]
      exact h0.dcl.var x n d k h4 h2 h3
    · rw [name hmid]
      exact a.G2 (vk h2)
  · -- functions
    intro x n d h1 h2
    rcases sv h1 with ⟨-, h4⟩ | ⟨rfl, rfl⟩
    · rw [oldG h4, h0.dcl.fn x n d h4 h2]
      simp only [prmsOf]
      rw [told h4.1 (.inl h2)]
    · rw [name hmid, a.G3 h2]
      simp only [prmsOf]
      rw [eown (.inl h2)]
  · -- strings
    intro k
    rw [a.G1 _ (.inl fun hq => a.plain.names e (by simp) k hq.symm)]
    exact h0.dcl.str k
  · -- members
    intro i d f n m h1 h2 h3
    rcases strucOf h1 h2 with ⟨h4, h5⟩ | ⟨rfl, rfl, h5⟩
    · have h6 := field h5 h2 h3
      rw [a.M1 _ _ ?_]
      · exact h0.dcl.mem i d f n m h5 h2 h6
      · left
        have h7 : (declTy (tabNames (T ++ e :: l)) (-(i : Int), 0)).1 = tabNames (T ++ e :: l) i := by
          simp only [declTy, toTy]
          rw [if_neg (by simp only [TyVOID]; omega), if_neg (by simp only [Parse.TyINT]; omega), if_neg (by simp only [Parse.TyBOOL]; omega),
            if_neg (by simp only [Parse.TyCHAR]; omega), show (- -(i : Int)).toNat = i by omega]
          rfl
        rw [h7, name h1]
        exact gnew d (List.mem_of_getElem? h5) (by rw [h.strc d (List.mem_of_getElem? h5) h2]; decide)
    · obtain ⟨h6, h7, h8⟩ := efld h5 h3
      have h9 : (declTy (tabNames (T ++ d :: l)) (-(T.length : Int), 0)).1 = tabNames (T ++ d :: l) T.length := by
        simp only [declTy, toTy]
        rw [if_neg (by simp only [TyVOID]; omega), if_neg (by simp only [Parse.TyINT]; omega), if_neg (by simp only [Parse.TyBOOL]; omega),
          if_neg (by simp only [Parse.TyCHAR]; omega), show (- -(T.length : Int)).toNat = T.length by omega]
        rfl
      rw [h9, name h1, name h3.2.1]
      refine a.M2 h5 _ m h7 fun q d' hq hd' => ?_
      have := h3.2.2.2 (T.length + 1 + q) d' (by omega) (by omega) (by
        rw [List.getElem?_append_right (by omega), show T.length + 1 + q - T.length = q + 1 by omega, List.getElem?_cons_succ]
        exact hd')
      rw [h3.2.2.1]
      exact this
  · intro d hd k hk
    rcases (member d).1 hd with h1 | rfl | h1
    · exact h.inv.val.var d h1 k hk
    · exact a.val (vk hk)
    · exact (a.behind d h1).2.2.1
  · intro x n f h1 h2 d hd
    rcases sv h1 with ⟨-, h4⟩ | ⟨rfl, rfl⟩
    · rw [told h4.1 (.inl h2)] at hd
      exact h.inv.val.prm x n f h4 h2 d hd
    · rw [eown (.inl h2)] at hd
      exact (a.behind d hd).2.2.1
  · intro i d f n m h1 h2 h3
    rcases strucOf h1 h2 with ⟨h4, h5⟩ | ⟨rfl, rfl, h5⟩
    · exact h.inv.val.fld i d f n m h5 h2 (field h5 h2 h3)
    · exact (a.behind m (efld h5 h3).1).2.2.1
  · intro d hd
    rcases (member d).1 hd with h1 | rfl | h1
    · exact h.scp d h1
    · rcases a.kind with h2 | h2
      · exact .inr (.inl ⟨h2.1, h2.2.1⟩)
      · exact .inr (.inr h2.1)
    · exact .inl (a.behind d h1).1
  · intro d hd hs
    rcases (member d).1 hd with h1 | rfl | h1
    · exact h.strc d h1 hs
    · exact estr hs
    · exact absurd hs (a.behind d h1).2.1
  · intro d hd hs hq
    rcases (member d).1 hd with h1 | rfl | h1
    · exact (h.tys d h1 hs hq).mono
    · rcases a.kind with h2 | h2
      · exact absurd h2.2.1 hs
      · exact h2.2.mono
    · exact (a.behind d h1).2.2.2 hq
  · intro d hd hs
    rcases (member d).1 hd with h1 | rfl | h1
    · exact h.dots d h1 hs
    · exact absurd hs edots
    · exact (a.behind d h1).1
  · intro n f h1 h2 d hd
    rcases three n f h1 with ⟨-, h4⟩ | ⟨rfl, rfl⟩ | ⟨-, h4⟩
    · rw [told h4 h2] at hd
      exact h.own n f h4 h2 d hd
    · rw [eown h2] at hd
      refine ⟨(a.behind d hd).2.1, fun hs => ?_⟩
      rcases a.kind with h5 | h5
      · exact h5.2.2 d hd
      · exact absurd hs h5.2.not.1
    · exact absurd h2 (lown f h4)
  · intro i j d f h1 h2 h3 h4 h5
    rcases three i d h1 with ⟨-, g1⟩ | ⟨rfl, rfl⟩ | ⟨-, g1⟩
    · rcases three j f h2 with ⟨-, g2⟩ | ⟨rfl, rfl⟩ | ⟨-, g2⟩
      · exact h.uniq i j d f g1 g2 h3 h4 h5
      · exact absurd h5 (a.new d (List.mem_of_getElem? g1) (glob_nonneg h3).2.1)
      · exact absurd h4 (lnot f g2)
    · rcases three j f h2 with ⟨-, g2⟩ | ⟨rfl, rfl⟩ | ⟨-, g2⟩
      · exact absurd h5.symm (a.new f (List.mem_of_getElem? g2) (glob_nonneg h4).2.1)
      · rfl
      · exact absurd h4 (lnot f g2)
    · exact absurd h3 (lnot d g1)
  · intro w
    rw [a.K, h.types]
    constructor
    · rintro (⟨d, h1, h2, h3⟩ | ⟨h1, rfl⟩)
      · exact ⟨d, by simp [h1], h2, h3⟩
      · exact ⟨e, by simp, h1, rfl⟩
    · rintro ⟨d, h1, h2, h3⟩
      rcases (member d).1 h1 with h4 | rfl | h4
      · exact .inl ⟨d, h4, h2, h3⟩
      · exact .inr ⟨h2, h3.symm⟩
      · rw [(a.behind d h4).1] at h2
        exact absurd h2 (by decide)
  · intro w d hd
    by_cases hw : w ≠ e.name.toList ∨ e.scope = ScSTRC
    · rw [a.G1 w hw] at hd
      rcases h.known w d hd with h1 | ⟨f, h1, h2, h3⟩
      · exact .inl h1
      · exact .inr ⟨f, by simp [h1], h2, h3⟩
    · rw [not_or, not_not] at hw
      refine .inr ⟨e, by simp, ?_, hw.1.symm⟩
      rcases a.kind with h2 | h2
      · exact absurd h2.1 hw.2
      · exact h2.1
  · intro d hd hg
    rcases (member d).1 hd with h1 | rfl | h1
    · rw [a.S1 _ (gnew d h1 (glob_nonneg hg).2.1)]
      exact h.link d h1 hg
    · exact a.S2 hg
    · exact absurd hg (lnot d h1)
  · intro w hw
    rcases a.F1 w hw with h1 | ⟨rfl, h1⟩
    · obtain ⟨d, h2, h3⟩ := h.defd w h1
      exact ⟨d, by simp [h2], h3⟩
    · exact ⟨e, by simp, rfl, h1⟩

end Cmm.CText
