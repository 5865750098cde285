import Verif.CText.CTypeRun
import Verif.CText.ScopeFn

/-
C77 for functions.
-/
namespace Cmm.CText
open Cmm.Tree (Expr Stmt)
open Cmm.Parse (Tab Ent Spot Sees Field VarKind IsFun Prms Sig nowFun Valued TypeTok TyVOID TyINTR TySTRUC TyDOTDOTDOT ScLVAR ScPRM ScVOID ScFUNC)

/-! ### Specification: C (C11 6.9.1) -/

/-- The type of a parameter (a type of one word). -/
def CPar.ty : List Text × Nat × Text → CT := fun p => (p.1.headD [], p.2.1)

/-- The function that a head declares. -/
def CHead.dcl (h : CHead) : Dcl :=
  .fn (h.ty.headD [], h.stars) ((h.pars.takeWhile Option.isSome).filterMap fun p => p.map CPar.ty) (h.pars.any Option.isNone)

/-- The parameters are objects in the body. -/
def parGam : List CPar → Gam → Gam
  | [], G => G
  | some p :: ps, G => parGam ps (G.set p.2.2 (.obj (CPar.ty p)))
  | none :: ps, G => parGam ps G

/-- The function is well typed behind the declarations `G`. -/
def WtFn (M : Text → Text → Option CT) (G : Gam) (f : CHead × CS) : Prop :=
  ∃ G', Wt M (f.1.ty.headD [], f.1.stars) (parGam f.1.pars (G.set f.1.name f.1.dcl)) f.2 G'

/-! ### Proof -/

section
variable {N : Nat → Text} {G : Gam} {M : Text → Text → Option CT} {T : Tab}

theorem parGam_other {ps : List CPar} {y : Text} (h : ∀ p, some p ∈ ps → p.2.2 ≠ y) : parGam ps G y = G y := by
  induction ps generalizing G with
  | nil => rfl
  | cons p ps ih =>
    cases p with
    | none => exact ih fun p hp => h p (List.mem_cons_of_mem _ hp)
    | some p =>
      rw [parGam, ih fun p hp => h p (List.mem_cons_of_mem _ hp), Gam.set, if_neg]
      exact fun hq => h p (List.mem_cons_self ..) hq.symm

theorem toPar_some {e : Ent} (h : e.type ≠ TyDOTDOTDOT) : trPar (toPar N e) = some ([(toTy N e.type).word], stars (toTy N e.type) e.dim false, e.name.toList) := by
  rw [toPar, if_neg h]; rfl
theorem toPar_none {e : Ent} (h : e.type = TyDOTDOTDOT) : trPar (toPar N e) = none := by
  rw [toPar, if_pos h]; rfl

theorem toPar_name {e : Ent} {p} (h : trPar (toPar N e) = some p) : p.2.2 = e.name.toList := by
  by_cases hd : e.type = TyDOTDOTDOT
  · rw [toPar_none hd] at h; cases h
  · rw [toPar_some hd] at h; cases h; rfl

theorem parGam_get {l : Tab} (hp : l.Pairwise (fun a b => a.name ≠ b.name)) {e : Ent} (he : e ∈ l) (hd : e.type ≠ TyDOTDOTDOT) :
    parGam (l.map fun e => trPar (toPar N e)) G e.name.toList = some (.obj (declTy N (e.type, e.dim))) := by
  induction l generalizing G with
  | nil => cases he
  | cons a l ih =>
    obtain ⟨h1, h2⟩ := List.pairwise_cons.1 hp
    rcases List.mem_cons.1 he with rfl | he
    · rw [List.map_cons, toPar_some hd, parGam, parGam_other, Gam.set, if_pos rfl]
      · rfl
      · intro p hq hn
        obtain ⟨d, hd1, hd2⟩ := List.mem_map.1 hq
        rw [toPar_name hd2] at hn
        exact h1 d hd1 (String.toList_injective hn.symm)
    · rw [List.map_cons]
      cases hq : trPar (toPar N a) with
      | none => exact ih h2 he
      | some p => exact ih h2 he

/-- The function that printFuncDcl declares is the one in the table. -/
theorem dcl_eq (l : Tab) : (((l.map fun e => trPar (toPar N e)).takeWhile Option.isSome).filterMap fun p => p.map CPar.ty) =
      (l.takeWhile (fun e => e.type ≠ TyDOTDOTDOT)).map (fun e => declTy N (e.type, e.dim)) ∧
    (l.map fun e => trPar (toPar N e)).any Option.isNone = l.any fun e => e.type = TyDOTDOTDOT := by
  induction l with
  | nil => exact ⟨rfl, rfl⟩
  | cons e l ih =>
    by_cases hd : e.type = TyDOTDOTDOT
    · simp [toPar_none hd, hd]
    · simp only [List.map_cons, toPar_some hd, List.any_cons, Option.isNone_some, Bool.false_or, decide_eq_false hd, ih.2, and_true]
      rw [List.takeWhile_cons_of_pos (by simp), List.takeWhile_cons_of_pos (by simpa using hd)]
      simp only [List.filterMap_cons, Option.map_some, List.map_cons, ih.1]
      rfl

/-- The entries of the parameters. -/
def ParEnt (d : Ent) : Prop := d.scope = ScPRM ∧ (d.type = TyDOTDOTDOT → d.name = "") ∧ d.type ≠ TySTRUC ∧ (d.type, d.dim) ≠ (TyVOID, 0)

theorem prms_ent {old : Option Nat} {p p' : Spot} {ts : List Parse.Tok} (h : Prms old p ts p') : ∃ l, p'.tab = p.tab ++ l ∧
    ∀ e ∈ l, e.type ≠ TySTRUC ∧ (e.type, e.dim) ≠ (TyVOID, 0) := by
  have nd : ∀ {T : Tab} {k : Parse.Tok} {ty : Int}, TypeTok T k ty → ty ≠ TySTRUC := by
    intro T k ty h
    cases h with
    | name => simp only [TySTRUC]; omega
    | _ => decide
  induction h with
  | none => exact ⟨[], by simp, nofun⟩
  | dots => exact ⟨[_], rfl, fun e he => by rw [List.mem_singleton.1 he]; exact ⟨by show TyDOTDOTDOT ≠ TySTRUC; decide, by show (TyDOTDOTDOT, 0) ≠ _; decide⟩⟩
  | last ht hv => exact ⟨[_], rfl, fun e he => by rw [List.mem_singleton.1 he]; exact ⟨nd ht, hv.2⟩⟩
  | @more p k ty dim x us p' ht hv _ _ _ ih =>
    obtain ⟨l, h1, h2⟩ := ih
    refine ⟨⟨x, ScPRM, ty, dim, p.cnt, false⟩ :: l, by rw [h1]; simp [Spot.enter], fun e he => ?_⟩
    rcases List.mem_cons.1 he with rfl | he
    · exact ⟨nd ht, hv.2⟩
    · exact h2 e he

/-- At the beginning of the body. -/
theorem Inv.enter {f : Ent} {l : Tab} (h : Inv N G M T) (hN : Names N (T ++ f :: l)) (hf : f.scope = ScFUNC) (hc : f.cnt = l.length)
    (ht : f.type ≠ TySTRUC) (hl : ∀ d ∈ l, ParEnt d) (hp : l.Pairwise (fun a b => a.name ≠ b.name)) :
    Inv N (parGam (l.map fun e => trPar (toPar N e)) (G.set f.name.toList
      (.fn (declTy N (f.type, f.dim)) ((l.takeWhile (fun e => e.type ≠ TyDOTDOTDOT)).map fun e => declTy N (e.type, e.dim)) (l.any fun e => e.type = TyDOTDOTDOT))))
      M (T ++ f :: l) := by
  have notFun : ∀ d ∈ l, ¬ IsFun d.scope := by
    intro d hd
    rw [(hl d hd).1]
    rintro (h | h) <;> exact absurd h (by decide)
  have notStruc : ∀ d ∈ f :: l, d.type ≠ TySTRUC := by
    intro d hd
    rcases List.mem_cons.1 hd with rfl | hd
    · exact ht
    · exact (hl d hd).2.2.1
  have struc : ∀ (i : Nat) d, (T ++ f :: l)[i]? = some d → d.type = TySTRUC → T[i]? = some d := by
    intro i d h1 h2
    rcases getElem?_app h1 with ⟨-, h3⟩ | ⟨-, h3⟩
    · exact h3
    · exact absurd h2 (notStruc d h3)
  have hmid : (T ++ f :: l)[T.length]? = some f := by simp
  have hpar : ∀ d ∈ l, ∃ m, T.length < m ∧ (T ++ f :: l)[m]? = some d := by
    intro d hd
    obtain ⟨i, hi⟩ := List.mem_iff_getElem?.1 hd
    refine ⟨T.length + 1 + i, by omega, ?_⟩
    rw [List.getElem?_append_right (by omega), show T.length + 1 + i - T.length = i + 1 by omega, List.getElem?_cons_succ]
    exact hi
  -- an entry that is visible is not hidden by a parameter
  have noPar : ∀ y n e, Sees (T ++ f :: l) y n e → n ≤ T.length → ∀ p, some p ∈ (l.map fun e => trPar (toPar N e)) → p.2.2 ≠ y.toList := by
    intro y n e h1 h2 p hp hq
    obtain ⟨d, hd1, hd2⟩ := List.mem_map.1 hp
    rw [toPar_name hd2] at hq
    obtain ⟨m, hm1, hm2⟩ := hpar d hd1
    have := h1.2.2.2 m d (by omega) hm2 (String.toList_injective hq)
    rw [(hl d hd1).1] at this
    exact absurd this (by decide)
  have noFn : ∀ y n e, Sees (T ++ f :: l) y n e → n < T.length → y.toList ≠ f.name.toList := by
    intro y n e h1 h2 hq
    have := h1.2.2.2 T.length f h2 hmid (String.toList_injective hq.symm)
    rw [hf] at this
    exact absurd this (by decide)
  have name : ∀ y n e, Sees (T ++ f :: l) y n e → N n = y.toList := by
    intro y n e h1
    rw [(hN n e h1.1).1, h1.2.1]
  have old : ∀ y n e, Sees (T ++ f :: l) y n e → n < T.length → ∀ D,
      parGam (l.map fun e => trPar (toPar N e)) (G.set f.name.toList D) (N n) = G (N n) := by
    intro y n e h1 h2 D
    rw [name y n e h1, parGam_other (noPar y n e h1 (by omega)), Gam.set, if_neg (noFn y n e h1 h2)]
  have after : ∀ n e, (T ++ f :: l)[n]? = some e → T.length < n → e ∈ l := by
    intro n e h1 h2
    rw [List.getElem?_append_right (by omega), show n - T.length = (n - T.length - 1) + 1 by omega, List.getElem?_cons_succ] at h1
    exact List.mem_of_getElem? h1
  have hdrop : ((T ++ f :: l).drop (T.length + 1)).take f.cnt = l := by
    rw [hc, List.drop_append, List.drop_eq_nil_of_le (by omega)]
    simp
  have rng : Ranges (T ++ f :: l) := by
    intro n e he hk
    rcases Nat.lt_trichotomy n T.length with h1 | h1 | h1
    · rw [List.getElem?_append_left h1] at he
      have := h.rng n e he hk
      simp; omega
    · subst h1
      rw [hmid] at he
      cases he
      simp; omega
    · have h2 := after n e he h1
      rcases hk with hk | hk
      · exact absurd hk (notFun e h2)
      · exact absurd hk (hl e h2).2.2.1
  refine ⟨⟨?_, ?_, ?_, ?_⟩, ⟨?_, ?_, ?_⟩, rng⟩
  · intro y n e k h1 h2 h3
    rcases Nat.lt_trichotomy n T.length with h4 | h4 | h4
    · rw [old y n e h1 h4]
      exact h.dcl.var y n e k (sees_app h1 h4) h2 h3
    · subst h4
      have := h1.1
      rw [hmid] at this
      cases this
      rw [hf] at h2
      generalize hq : ScFUNC = s at h2
      cases h2 <;> exact absurd hq (by decide)
    · have h5 := after n e h1.1 h4
      have hk : k = .prm := by
        rw [(hl e h5).1] at h2
        generalize hq : ScPRM = s at h2
        cases h2 with
        | prm => rfl
        | _ => exact absurd hq (by decide)
      have hd : e.type ≠ TyDOTDOTDOT := fun hq => h3 hk (by rw [← h1.2.1]; exact (hl e h5).2.1 hq)
      rw [name y n e h1, ← h1.2.1]
      exact parGam_get hp h5 hd
  · intro y n e h1 h2
    rcases Nat.lt_trichotomy n T.length with h4 | h4 | h4
    · rw [old y n e h1 h4]
      have h5 := sees_app h1 h4
      rw [h.dcl.fn y n e h5 h2]
      simp only [prmsOf]
      rw [prm_append h.rng h5.1 h2]
    · subst h4
      have := h1.1
      rw [hmid] at this
      cases this
      rw [name y _ _ h1, parGam_other (noPar y _ _ h1 (Nat.le_refl _)), Gam.set, if_pos (by rw [h1.2.1])]
      simp only [prmsOf]
      rw [hdrop]
    · exact absurd h2 (notFun e (after n e h1.1 h4))
  · intro k
    rw [parGam_other, Gam.set, if_neg]
    · exact h.dcl.str k
    · intro hq
      have h1 := hN T.length f hmid
      exact h1.2 k (by rw [h1.1, hq])
    · intro p hp hq
      obtain ⟨d, hd1, hd2⟩ := List.mem_map.1 hp
      rw [toPar_name hd2] at hq
      obtain ⟨m, hm1, hm2⟩ := hpar d hd1
      have h1 := hN m d hm2
      exact h1.2 k (by rw [h1.1, hq])
  · intro i d g n e h1 h2 h3
    have h4 := struc i d h1 h2
    exact h.dcl.mem i d g n e h4 h2 (field_append h.rng h4 h2 h3)
  · intro e he k hk
    rcases List.mem_append.1 he with he | he
    · exact h.val.var e he k hk
    · rcases List.mem_cons.1 he with rfl | he
      · rw [hf] at hk
        generalize hq : ScFUNC = s at hk
        cases hk <;> exact absurd hq (by decide)
      · exact (hl e he).2.2.2
  · intro y n e h1 h2 d hd
    rcases Nat.lt_trichotomy n T.length with h4 | h4 | h4
    · have h5 := sees_app h1 h4
      rw [prm_append h.rng h5.1 h2] at hd
      exact h.val.prm y n e h5 h2 d hd
    · subst h4
      have := h1.1
      rw [hmid] at this
      cases this
      rw [hdrop] at hd
      exact (hl d hd).2.2.2
    · exact absurd h2 (notFun e (after n e h1.1 h4))
  · intro i d g n e h1 h2 h3
    have h4 := struc i d h1 h2
    exact h.val.fld i d g n e h4 h2 (field_append h.rng h4 h2 h3)

/-- The body of a function, whose braces are those of the function. -/
theorem body_wt {F : Int × Nat} {l : Bool} {p p' : Spot} {ts : List Parse.Tok} {b : Option VS} (hF : F.1 ≠ TyINTR) (hF' : Flat F)
    (h : SynT F (.items none) l p ts b p') (hi : Inv N G M p.tab) (hN : Names N p'.tab) (hv : NoVoids p'.tab) :
    ∃ G', Wt M (declTy N F) G (CS.ofList (trS (unblk (toS N (stOfV (blockOfV b)))))) G' := by
  obtain ⟨cs, e1, d1, d2⟩ := truns (N := N) (M := M) hF hF' h
  simp only [items, List.nil_append] at e1
  subst e1
  obtain ⟨G', w, -⟩ := d2 G hi hN hv
  cases b with
  | none => exact ⟨G, wt_one.2 .empty⟩
  | some v =>
    cases v with
    | seq k s t =>
      cases k with
      | false => exact ⟨G', w⟩
      | true =>
        have w1 : Wt M (declTy N F) G (.block (CS.ofList (trS (toS N s) ++ trS (toS N t)))) G' := wt_one.1 w
        cases w1 with
        | block w2 => exact ⟨_, w2⟩
    | _ => exact ⟨G', w⟩

end
end Cmm.CText
