import Verif.CText.UnitTwin

/-
The types of local declarations, for Verif/Props/C78.lean.
-/
namespace Cmm.CText
open Cmm.Tree (Expr Stmt)
open Cmm.Parse (Tab Ent Spot TypeTok TyVOID TyINTR ScLVAR ScPRM ScVOID ScSTRC)

/-- The declarations of a statement of the source. -/
def VS.vars : VS → List (Int × Nat)
  | .ifs _ s | .whl _ s _ | .dos s _ => s.vars
  | .els _ s t | .seq _ s t => s.vars ++ t.vars
  | .var _ ty dim => [(ty, dim)]
  | _ => []

def varsO (v : Option VS) : List (Int × Nat) := (stOfV v).vars

theorem varsO_join (a b : Option VS) : varsO (joinV a b) = varsO a ++ varsO b := by
  cases a <;> cases b <;> simp [varsO, joinV, stOfV, VS.vars]

theorem varsO_block (a : Option VS) : varsO (blockOfV a) = varsO a := by
  unfold blockOfV
  split <;> rfl

theorem mem_headD {l : List CS} {t : CT} (h : t ∈ (l.headD .empty).decls) : ∃ c ∈ l, t ∈ c.decls := by
  cases l with
  | nil => simp [CS.decls] at h
  | cons a l => exact ⟨a, by simp, h⟩

theorem mem_ofList {l : List CS} {t : CT} : t ∈ (CS.ofList l).decls ↔ ∃ c ∈ l, t ∈ c.decls := by
  induction l with
  | nil => simp [CS.ofList, CS.decls]
  | cons a l ih => simp [CS.ofList, CS.decls, ih]

section
variable {N : Nat → Text}

/-- The declarations in C are those of the source. -/
theorem decls_of (v : VS) : ∀ c ∈ trS (toS N v), ∀ t ∈ c.decls, ∃ u ∈ v.vars, t = declTy N u := by
  induction v with
  | null | brk | cnt | ret => intro c hc t ht; simp only [toS, trS, List.mem_singleton] at hc; subst hc; simp [CS.decls] at ht
  | exp e =>
    intro c hc t ht
    simp only [toS] at hc
    unfold trS at hc
    split at hc <;> simp_all [CS.decls]
  | var n ty dim =>
    intro c hc t ht
    simp only [toS, trS, List.mem_singleton] at hc
    subst hc
    simp only [CS.decls, List.mem_singleton] at ht
    exact ⟨(ty, dim), by simp [VS.vars], by simpa [declTy] using ht⟩
  | ifs e s ih =>
    intro c hc t ht
    simp only [toS, trS, List.mem_singleton] at hc
    subst hc
    simp only [CS.decls, List.append_nil] at ht
    obtain ⟨c, h1, h2⟩ := mem_headD ht
    exact ih c h1 t h2
  | whl e s r ih | dos s e ih =>
    intro c hc t ht
    simp only [toS, trS, List.mem_singleton] at hc
    subst hc
    simp only [CS.decls] at ht
    obtain ⟨c, h1, h2⟩ := mem_headD ht
    exact ih c h1 t h2
  | els e s s' ih ih' =>
    intro c hc t ht
    simp only [toS, trS, List.mem_singleton] at hc
    subst hc
    simp only [CS.decls, List.mem_append] at ht
    rcases ht with ht | ht
    · obtain ⟨c, h1, h2⟩ := mem_headD ht
      obtain ⟨u, h3, h4⟩ := ih c h1 t h2
      exact ⟨u, by simp [VS.vars, h3], h4⟩
    · obtain ⟨c, h1, h2⟩ := mem_headD ht
      obtain ⟨u, h3, h4⟩ := ih' c h1 t h2
      exact ⟨u, by simp [VS.vars, h3], h4⟩
  | seq k s s' ih ih' =>
    have both : ∀ c ∈ trS (toS N s) ++ trS (toS N s'), ∀ t ∈ c.decls, ∃ u ∈ (VS.seq k s s').vars, t = declTy N u := by
      intro c hc t ht
      rcases List.mem_append.1 hc with hc | hc
      · obtain ⟨u, h3, h4⟩ := ih c hc t ht
        exact ⟨u, by simp [VS.vars, h3], h4⟩
      · obtain ⟨u, h3, h4⟩ := ih' c hc t ht
        exact ⟨u, by simp [VS.vars, h3], h4⟩
    intro c hc t ht
    cases k with
    | false => exact both c hc t ht
    | true =>
      simp only [toS, trS, List.mem_singleton] at hc
      subst hc
      simp only [CS.decls] at ht
      obtain ⟨c, h1, h2⟩ := mem_ofList.1 ht
      exact both c h1 t h2

theorem unblk_decls (s : Stm) {t : CT} (h : t ∈ (CS.ofList (trS (unblk s))).decls) : ∃ c ∈ trS s, t ∈ c.decls := by
  unfold unblk at h
  split at h
  · exact ⟨.block _, List.mem_singleton.2 rfl, h⟩
  · exact mem_ofList.1 h

/-! ### Their types are known -/

variable {T : Tab} {F : Int × Nat}

/-- The table has become longer, but not by types. -/
def Over (T : Tab) (p : Spot) : Prop := ∃ l, p.tab = T ++ l ∧ ∀ e ∈ l, e.scope ≠ ScSTRC

theorem Over.local {p : Spot} {x : String} {ty : Int} {dim : Nat} (h : Over T p) : Over T (p.local x ty dim) := by
  obtain ⟨l, h1, h2⟩ := h
  refine ⟨l ++ [⟨x, ScLVAR, ty, dim, p.cnt + 1, false⟩], by simp [Parse.Spot.local, h1], fun e he => ?_⟩
  rcases List.mem_append.1 he with he | he
  · exact h2 e he
  · rw [List.mem_singleton.1 he]; show ScLVAR ≠ ScSTRC; decide

theorem Over.leave {p p' : Spot} (h : Over T p) (h' : Over T p') : Over T (p.leave p') := by
  obtain ⟨l, h1, -⟩ := h
  obtain ⟨l', h2, h3⟩ := h'
  refine ⟨l'.take l.length ++ (l'.drop l.length).map (fun e => { e with scope := ScVOID }), ?_, fun e he => ?_⟩
  · simp [Parse.Spot.leave, h1, h2, List.take_append, List.drop_append, List.take_of_length_le, List.drop_eq_nil_of_le]
  · rcases List.mem_append.1 he with he | he
    · exact h3 e (List.mem_of_mem_take he)
    · obtain ⟨d, -, rfl⟩ := List.mem_map.1 he
      show ScVOID ≠ ScSTRC
      decide

def Tys (T : Tab) (l : List (Int × Nat)) : Prop := ∀ t ∈ l, TyOk T t.1

theorem Tys.append {l l' : List (Int × Nat)} (h : Tys T l) (h' : Tys T l') : Tys T (l ++ l') :=
  fun t ht => (List.mem_append.1 ht).elim (h t) (h' t)

theorem DeclrT.tys {ty : Int} {dim : Nat} {p p' : Spot} {ts v} (h : DeclrT ty dim p ts v p') (ht : TyOk T ty) (hp : Over T p) : Tys T v.vars ∧ Over T p' := by
  have one : Tys T [(ty, dim)] := fun t h => by rw [List.mem_singleton.1 h]; exact ht
  cases h with
  | plain => exact ⟨one, hp.local⟩
  | init => exact ⟨one.append nofun, hp.local⟩

theorem DeclrsT.tys {ty : Int} {dim : Nat} {p p' : Spot} {ts v} (h : DeclrsT ty dim p ts v p') (ht : TyOk T ty) (hp : Over T p) : Tys T v.vars ∧ Over T p' := by
  induction h with
  | one h => exact h.tys ht hp
  | more _ h ih =>
    obtain ⟨h1, h2⟩ := ih
    obtain ⟨h3, h4⟩ := h.tys ht h2
    exact ⟨h1.append h3, h4⟩

theorem LocalDeclT.tys {p p' : Spot} {ts v} (h : LocalDeclT p ts v p') (hp : Over T p) : Tys T v.vars ∧ Over T p' := by
  cases h with
  | mk h1 h2 _ h4 =>
    obtain ⟨l, h5, h6⟩ := hp
    rw [h5] at h1
    exact h4.tys (tyOk_of h1 h2 h6) ⟨l, h5, h6⟩

theorem ForIniT.tys {p p' : Spot} {ts v} (h : ForIniT p ts v p') (hp : Over T p) : Tys T (varsO v) ∧ Over T p' := by
  cases h with
  | none => exact ⟨nofun, hp⟩
  | decl h => exact h.tys hp
  | exp => exact ⟨nofun, hp⟩

theorem CondT.over {p p' : Spot} {ts c} (h : CondT p ts c p') (hp : Over T p) : Over T p' := by
  cases h; exact hp

theorem ForCondT.over {p p' : Spot} {ts c} (h : ForCondT p ts c p') (hp : Over T p) : Over T p' := by
  cases h <;> exact hp

theorem ForRiniT.over {p p' : Spot} {ts c} (h : ForRiniT p ts c p') (hp : Over T p) : Over T p' := by
  cases h <;> exact hp

def NTV.vars : NTV → List (Int × Nat)
  | .stat _ => []
  | .items a => varsO a

theorem SynT.tys {nt : NTV} {l : Bool} {p p' : Spot} {ts v} (h : SynT F nt l p ts v p') (hn : Tys T nt.vars) (hp : Over T p) : Tys T (varsO v) ∧ Over T p' := by
  induction h with
  | null | exp | ret | retV | brk | cnt => exact ⟨nofun, hp⟩
  | ifs hc _ ih => exact ih nofun (hc.over hp)
  | els hc _ _ ih ih' =>
    obtain ⟨h1, h2⟩ := ih nofun (hc.over hp)
    obtain ⟨h3, h4⟩ := ih' nofun h2
    exact ⟨h1.append h3, h4⟩
  | whl hc _ ih => exact ih nofun (hc.over hp)
  | dos _ hc ih =>
    obtain ⟨h1, h2⟩ := ih nofun hp
    exact ⟨h1, hc.over (p := _) h2⟩
  | «for» hi hc hr _ ih =>
    obtain ⟨h1, h2⟩ := hi.tys hp
    obtain ⟨h3, h4⟩ := ih nofun (hr.over (hc.over h2))
    exact ⟨h1.append h3, Over.leave hp h4⟩
  | block _ _ ih =>
    obtain ⟨h1, h2⟩ := ih nofun hp
    exact ⟨by rw [varsO_block]; exact h1, Over.leave hp h2⟩
  | done => exact ⟨hn, hp⟩
  | decl hd _ ih =>
    obtain ⟨h1, h2⟩ := hd.tys hp
    exact ih (by rw [NTV.vars, varsO_join]; exact Tys.append hn h1) h2
  | stat _ _ _ ih ih' =>
    obtain ⟨h1, h2⟩ := ih nofun hp
    exact ih' (by rw [NTV.vars, varsO_join]; exact Tys.append hn h1) h2

end
end Cmm.CText
