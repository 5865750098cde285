import Verif.CText.CTypeStm

/-
Proof of C77 for statements.
-/
namespace Cmm.CText
open Cmm.Tree (Expr Stmt)
open Cmm.Parse (Tab Ent Spot ExpAt Sees Assignable Field VarKind IsFun manual actual Valued Unused NoType TypeTok TyVOID TyINT TyCHAR TyBOOL TyINTR TySTRUC
  ScLVAR ScPRM ScVOID ScFUNC ScCOMM ScGVAR ScPROT)

/-- The parameters and fields of an entry are in the table. -/
def Ranges (T : Tab) : Prop := ∀ (n : Nat) e, T[n]? = some e → (IsFun e.scope ∨ e.type = TySTRUC) → n + e.cnt < T.length

structure Inv (N : Nat → Text) (G : Gam) (M : Text → Text → Option CT) (T : Tab) : Prop where
  dcl : DeclsOk N G M T
  val : NotVoid T
  rng : Ranges T

section
variable {N : Nat → Text} {G : Gam} {M : Text → Text → Option CT} {T : Tab}

/-- What statements add to the table. -/
def Local (d : Ent) : Prop := (d.scope = ScLVAR ∨ d.scope = ScVOID) ∧ d.type ≠ TySTRUC ∧ (d.type, d.dim) ≠ (TyVOID, 0)

theorem Local.notFun {d : Ent} (h : Local d) : ¬ IsFun d.scope := by
  rintro (h1 | h1) <;> rcases h.1 with h2 | h2 <;> rw [h1] at h2 <;> exact absurd h2 (by decide)

theorem getElem?_app {l : Tab} {n : Nat} {e : Ent} (h : (T ++ l)[n]? = some e) : (n < T.length ∧ T[n]? = some e) ∨ (T.length ≤ n ∧ e ∈ l) := by
  rcases Nat.lt_or_ge n T.length with h1 | h1
  · exact .inl ⟨h1, by rw [← h, List.getElem?_append_left h1]⟩
  · right
    rw [List.getElem?_append_right h1] at h
    exact ⟨h1, List.mem_of_getElem? h⟩

theorem Ranges.append {l : Tab} (h : Ranges T) (hl : ∀ d ∈ l, Local d) : Ranges (T ++ l) := by
  intro n e he hk
  rcases getElem?_app he with ⟨h1, h2⟩ | ⟨h1, h2⟩
  · have := h n e h2 hk
    simp; omega
  · rcases hk with hk | hk
    · exact absurd hk (hl e h2).notFun
    · exact absurd hk (hl e h2).2.1

theorem prm_append {l : Tab} (h : Ranges T) {n : Nat} {e : Ent} (he : T[n]? = some e) (hf : IsFun e.scope) :
    ((T ++ l).drop (n + 1)).take e.cnt = (T.drop (n + 1)).take e.cnt := by
  have := h n e he (.inl hf)
  rw [List.drop_append_of_le_length (by omega), List.take_append_of_le_length (by rw [List.length_drop]; omega)]

theorem field_append {l : Tab} (h : Ranges T) {i n : Nat} {d e : Ent} {f : String} (hd : T[i]? = some d) (ht : d.type = TySTRUC)
    (hF : Field (T ++ l) i f n e) : Field T i f n e := by
  have hr := h i d hd (.inr ht)
  obtain ⟨⟨d', h1, h2, h3⟩, h4, h5, h6⟩ := hF
  have hi : i < T.length := by omega
  rw [List.getElem?_append_left hi, hd] at h1
  cases h1
  have hn : n < T.length := by omega
  rw [List.getElem?_append_left hn] at h4
  refine ⟨⟨d, hd, h2, h3⟩, h4, h5, fun m e' h7 h8 h9 => h6 m e' h7 h8 ?_⟩
  rw [List.getElem?_append_left (by omega)]
  exact h9

theorem sees_app {l : Tab} {x : String} {n : Nat} {e : Ent} (h : Sees (T ++ l) x n e) (hn : n < T.length) : Sees T x n e := by
  obtain ⟨h1, h2, h3, h4⟩ := h
  rw [List.getElem?_append_left hn] at h1
  refine ⟨h1, h2, h3, fun m e' h5 h6 h7 => h4 m e' h5 ?_ h7⟩
  obtain ⟨hm, -⟩ := List.getElem?_eq_some_iff.1 h6
  rw [List.getElem?_append_left hm]
  exact h6

theorem struc_app {l : Tab} (hl : ∀ d ∈ l, Local d) {i : Nat} {d : Ent} (h : (T ++ l)[i]? = some d) (ht : d.type = TySTRUC) : T[i]? = some d := by
  rcases getElem?_app h with ⟨-, h2⟩ | ⟨-, h2⟩
  · exact h2
  · exact absurd ht (hl d h2).2.1

theorem NotVoid.append {l : Tab} (h : NotVoid T) (hr : Ranges T) (hl : ∀ d ∈ l, Local d) : NotVoid (T ++ l) where
  var e he k hk := by
    rcases List.mem_append.1 he with he | he
    · exact h.var e he k hk
    · exact (hl e he).2.2
  prm x n e hs hf d hd := by
    rcases getElem?_app hs.1 with ⟨h1, h2⟩ | ⟨h1, h2⟩
    · rw [prm_append hr h2 hf] at hd
      exact h.prm x n e (sees_app hs h1) hf d hd
    · exact absurd hf (hl e h2).notFun
  fld i d f n e hd ht hF := by
    have hd' := struc_app hl hd ht
    exact h.fld i d f n e hd' ht (field_append hr hd' ht hF)

/-- A local variable is declared. -/
theorem Inv.local {p : Spot} {x : String} {ty : Int} {dim : Nat} (h : Inv N G M p.tab) (hN : Names N (p.local x ty dim).tab)
    (hs : ty ≠ TySTRUC) (hv : ¬(ty = TyVOID ∧ dim = 0)) : Inv N (G.set (N p.tab.length) (.obj (declTy N (ty, dim)))) M (p.local x ty dim).tab := by
  have hl : ∀ d ∈ [(⟨x, ScLVAR, ty, dim, p.cnt + 1, false⟩ : Ent)], Local d := by
    intro d hd
    rw [List.mem_singleton.1 hd]
    exact ⟨.inl rfl, hs, fun hq => hv ⟨congrArg Prod.fst hq, congrArg Prod.snd hq⟩⟩
  have hnew : N p.tab.length = x.toList := (hN p.tab.length ⟨x, ScLVAR, ty, dim, p.cnt + 1, false⟩ (by simp [Spot.local])).1
  have hstr : ∀ l, strLab l ≠ N p.tab.length := fun l hq => (hN p.tab.length ⟨x, ScLVAR, ty, dim, p.cnt + 1, false⟩ (by simp [Spot.local])).2 l hq.symm
  -- other names
  have old : ∀ y n e, Sees (p.tab ++ [(⟨x, ScLVAR, ty, dim, p.cnt + 1, false⟩ : Ent)]) y n e → n < p.tab.length → N n ≠ N p.tab.length := by
    intro y n e h1 h2 h3
    have h4 := (hN n e h1.1).1
    rw [h3, hnew] at h4
    have h5 : x = y := by rw [← h1.2.1]; exact String.toList_injective h4
    have := h1.2.2.2 p.tab.length ⟨x, ScLVAR, ty, dim, p.cnt + 1, false⟩ h2 (by simp) h5
    exact absurd this (by show ¬ ScLVAR < 0; decide)
  refine ⟨⟨?_, ?_, ?_, ?_⟩, h.val.append h.rng hl, h.rng.append hl⟩
  · intro y n e k h1 h2 hk
    rcases getElem?_app h1.1 with ⟨h3, h4⟩ | ⟨h3, h4⟩
    · rw [Gam.set, if_neg (old y n e h1 h3)]
      exact h.dcl.var y n e k (sees_app h1 h3) h2 hk
    · have hn : n = p.tab.length := by
        obtain ⟨h5, -⟩ := List.getElem?_eq_some_iff.1 h1.1
        simp [Spot.local] at h5
        omega
      subst hn
      rw [List.mem_singleton.1 h4, Gam.set, if_pos rfl]
  · intro y n e h1 h2
    rcases getElem?_app h1.1 with ⟨h3, h4⟩ | ⟨h3, h4⟩
    · rw [Gam.set, if_neg (old y n e h1 h3)]
      have := h.dcl.fn y n e (sees_app h1 h3) h2
      rw [this]
      simp only [Spot.local, prmsOf]
      rw [prm_append h.rng h4 h2]
    · exact absurd h2 (hl e h4).notFun
  · intro l
    rw [Gam.set, if_neg (hstr l)]
    exact h.dcl.str l
  · intro i d f n e h1 h2 h3
    have h4 := struc_app hl h1 h2
    exact h.dcl.mem i d f n e h4 h2 (field_append h.rng h4 h2 h3)

/-- Names that are gone. -/
theorem Inv.dead {l : Tab} (h : Inv N G M T) (hl : ∀ d ∈ l, Local d) (hd : ∀ d ∈ l, d.scope = ScVOID) : Inv N G M (T ++ l) := by
  have old : ∀ y n e, Sees (T ++ l) y n e → n < T.length ∧ T[n]? = some e := by
    intro y n e h1
    rcases getElem?_app h1.1 with h3 | ⟨h3, h4⟩
    · exact h3
    · have := h1.2.2.1
      rw [hd e h4] at this
      exact absurd this (by decide)
  refine ⟨⟨?_, ?_, h.dcl.str, ?_⟩, h.val.append h.rng hl, h.rng.append hl⟩
  · intro y n e k h1 h2 hk
    exact h.dcl.var y n e k (sees_app h1 (old y n e h1).1) h2 hk
  · intro y n e h1 h2
    rw [h.dcl.fn y n e (sees_app h1 (old y n e h1).1) h2]
    simp only [prmsOf]
    rw [prm_append h.rng (old y n e h1).2 h2]
  · intro i d f n e h1 h2 h3
    have h4 := struc_app hl h1 h2
    exact h.dcl.mem i d f n e h4 h2 (field_append h.rng h4 h2 h3)

/-! ### Statements -/

variable {R : CT}

theorem wt_one {c : CS} {G G' : Gam} : Wt M R G (CS.ofList [c]) G' ↔ Wt M R G c G' := by
  constructor
  · intro h
    cases h with
    | cons h1 h2 => cases h2; exact h1
  · intro h; exact .cons h .nil

theorem wt_append {cs ds : List CS} {G1 G2 G3 : Gam} (h1 : Wt M R G1 (CS.ofList cs) G2) (h2 : Wt M R G2 (CS.ofList ds) G3) :
    Wt M R G1 (CS.ofList (cs ++ ds)) G3 := by
  induction cs generalizing G1 with
  | nil => cases h1; exact h2
  | cons c cs ih =>
    cases h1 with
    | cons h3 h4 => exact .cons h3 (ih h4)

/-- The statement adds local variables to the table. -/
def Adds (T T' : Tab) : Prop := ∃ l, T' = T ++ l ∧ ∀ d ∈ l, Local d

theorem Adds.refl : Adds T T := ⟨[], by simp, by simp⟩
theorem Adds.trans {T1 T2 T3 : Tab} (h1 : Adds T1 T2) (h2 : Adds T2 T3) : Adds T1 T3 := by
  obtain ⟨l, rfl, hl⟩ := h1
  obtain ⟨m, rfl, hm⟩ := h2
  refine ⟨l ++ m, by simp, fun d hd => ?_⟩
  rcases List.mem_append.1 hd with hd | hd
  · exact hl d hd
  · exact hm d hd
theorem Adds.prefix {T1 T2 : Tab} (h : Adds T1 T2) : T1 <+: T2 := by obtain ⟨l, rfl, -⟩ := h; exact ⟨l, rfl⟩

theorem NoVoids.mono {T1 T2 : Tab} (h : T1 <+: T2) (hv : NoVoids T2) : NoVoids T1 := fun e he => hv e (h.subset he)

theorem leave_noVoids {p p' : Spot} (h : p.tab <+: p'.tab) (hv : NoVoids (p.leave p').tab) : NoVoids p'.tab := by
  obtain ⟨U, h1, h2⟩ := leave_tab h
  rw [h2] at hv
  rw [h1]
  intro e he
  rcases List.mem_append.1 he with he | he
  · exact hv e (List.mem_append_left _ he)
  · exact hv { e with scope := ScVOID } (List.mem_append_right _ (List.mem_map.2 ⟨e, he, rfl⟩))

theorem leave_adds {p p' : Spot} (h : Adds p.tab p'.tab) : ∃ l, (p.leave p').tab = p.tab ++ l ∧ (∀ d ∈ l, Local d) ∧ ∀ d ∈ l, d.scope = ScVOID := by
  obtain ⟨l, h1, h2⟩ := h
  refine ⟨l.map (fun e => { e with scope := ScVOID }), by simp [Spot.leave, h1], ?_, ?_⟩
  · intro d hd
    obtain ⟨e, he, rfl⟩ := List.mem_map.1 hd
    exact ⟨.inr rfl, (h2 e he).2⟩
  · intro d hd
    obtain ⟨e, he, rfl⟩ := List.mem_map.1 hd
    rfl

theorem Inv.leave {p p' : Spot} (h : Inv N G M p.tab) (ha : Adds p.tab p'.tab) : Inv N G M (p.leave p').tab := by
  obtain ⟨l, h1, h2, h3⟩ := leave_adds ha
  rw [h1]
  exact h.dead h2 h3

def TDone (N : Nat → Text) (M : Text → Text → Option CT) (R : CT) (cs : List CS) (p p' : Spot) : Prop :=
  Adds p.tab p'.tab ∧ ∀ G, Inv N G M p.tab → Names N p'.tab → NoVoids p'.tab → ∃ G', Wt M R G (CS.ofList cs) G' ∧ Inv N G' M p'.tab

def TClosed (N : Nat → Text) (M : Text → Text → Option CT) (R : CT) (cs : List CS) (p p' : Spot) : Prop :=
  Adds p.tab p'.tab ∧ ∀ G, Inv N G M p.tab → Names N p'.tab → NoVoids p'.tab → Wt M R G (CS.ofList cs) G ∧ Inv N G M p'.tab

theorem TClosed.done {cs : List CS} {p p' : Spot} (h : TClosed N M R cs p p') : TDone N M R cs p p' :=
  ⟨h.1, fun G h1 h2 h3 => ⟨G, h.2 G h1 h2 h3⟩⟩

theorem TClosed.same {cs : List CS} {p p' : Spot} (h : p'.tab = p.tab)
    (hw : ∀ G, Inv N G M p.tab → Names N p.tab → NoVoids p.tab → Wt M R G (CS.ofList cs) G) : TClosed N M R cs p p' := by
  refine ⟨by rw [h]; exact .refl, fun G h1 h2 h3 => ?_⟩
  rw [h] at h2 h3 ⊢
  exact ⟨hw G h1 h2 h3, h1⟩

theorem TDone.append {cs ds : List CS} {p p1 p2 : Spot} (h1 : TDone N M R cs p p1) (h2 : TDone N M R ds p1 p2) : TDone N M R (cs ++ ds) p p2 := by
  refine ⟨h1.1.trans h2.1, fun G h3 h4 h5 => ?_⟩
  obtain ⟨G1, w1, i1⟩ := h1.2 G h3 (h4.mono h2.1.prefix) (h5.mono h2.1.prefix)
  obtain ⟨G2, w2, i2⟩ := h2.2 G1 i1 h4 h5
  exact ⟨G2, wt_append w1 w2, i2⟩

/-- The expression has a type. -/
theorem ExpT.good {p : Spot} {k x t e} (h : ExpT p k x t e) {G : Gam} (hi : Inv N G M p.tab) (hv : NoVoids p.tab) :
    Good N G M True t (tr (toE N e)) ∧ Flat t := by
  have := shown hi.dcl hv hi.val h.ty h.nul
  exact ⟨this.good.mono fun _ => trivial, this.flat⟩

theorem ExpT.has {p : Spot} {k x t e} (h : ExpT p k x t e) {G : Gam} (hi : Inv N G M p.tab) (hv : NoVoids p.tab) :
    ∃ u, HasTy G M (tr (toE N e)) u := by
  obtain ⟨u, h1, -⟩ := (h.good hi hv).1
  exact ⟨u, h1⟩

theorem ExpT.cond {p : Spot} {k x e} (h : ExpT p k x (TyBOOL, 0) e) {G : Gam} (hi : Inv N G M p.tab) (hv : NoVoids p.tab) :
    ∃ u, HasTy G M (tr (toE N e)) u ∧ Scalar u := by
  obtain ⟨u, h1, h2⟩ := (h.good hi hv).1.arith arith_bool
  exact ⟨u, h1, .inl h2⟩

theorem wt_exp {e : Expr} {u : CT} {G : Gam} (h : HasTy G M (tr (toE N e)) u) : Wt M R G (CS.ofList (trS (.exp (toE N e)))) G := by
  cases hx : toE N e with
  | cnst => simp only [trS]; exact wt_one.2 .empty
  | _ => simp only [trS]; rw [hx] at h; exact wt_one.2 (.ex h)

theorem DeclrT.run {ty : Int} {dim : Nat} {p p' : Spot} {ts : List Parse.Tok} {v : VS} (h : DeclrT ty dim p ts v p')
    (hs : ty ≠ TySTRUC) (hv : ¬(ty = TyVOID ∧ dim = 0)) : TDone N M R (trS (toS N v)) p p' := by
  have hne : (ty, dim) ≠ (TyVOID, 0) := fun hq => hv ⟨congrArg Prod.fst hq, congrArg Prod.snd hq⟩
  have dcl : ∀ x, TDone N M R (trS (toS N (.var p.tab.length ty dim))) p (p.local x ty dim) := by
    intro x
    refine ⟨⟨[⟨x, ScLVAR, ty, dim, p.cnt + 1, false⟩], rfl, ?_⟩, fun G h1 h2 h3 => ⟨_, wt_one.2 ?_, h1.local h2 hs hv⟩⟩
    · intro d hd
      rw [List.mem_singleton.1 hd]
      exact ⟨.inl rfl, hs, hne⟩
    · exact .decl (scalar_ne (scalar_cty (N := N) hne))
  cases h with
  | plain h => exact dcl _
  | @init x y t e h1 h2 h3 =>
    refine (dcl x).append (TClosed.done (TClosed.same rfl fun G hi hN hn => ?_))
    obtain ⟨g, fl⟩ := h2.good hi hn
    have hnew : (⟨x, ScLVAR, ty, dim, p.cnt + 1, false⟩ : Ent) ∈ (p.local x ty dim).tab := by simp [Spot.local]
    obtain ⟨u, g1, g2⟩ := gets_of h3 fl (hn _ hnew) hne g
    have hsee : Sees (p.local x ty dim).tab x p.tab.length ⟨x, ScLVAR, ty, dim, p.cnt + 1, false⟩ := by
      refine ⟨by simp [Spot.local], rfl, by show 0 ≤ ScLVAR; decide, ?_⟩
      intro m e' hm he'
      simp only [Spot.local] at he'
      rw [List.getElem?_eq_none (by simp; omega)] at he'
      cases he'
    have hv := hi.dcl.var _ _ _ _ hsee .lvar nofun
    have hw : HasTy G M (tr (toE N (.assV .loc p.tab.length e))) (declTy N (ty, dim)) := by
      simp only [toE, toEA, tr, Int.toNat_natCast]
      exact .ass .id (.id hv) g1 g2
    exact wt_exp hw

theorem DeclrsT.run {ty : Int} {dim : Nat} {p p' : Spot} {ts : List Parse.Tok} {v : VS} (h : DeclrsT ty dim p ts v p')
    (hs : ty ≠ TySTRUC) (hv : ¬(ty = TyVOID ∧ dim = 0)) : TDone N M R (trS (toS N v)) p p' := by
  induction h with
  | one h => exact h.run hs hv
  | more _ h ih => exact ih.append (h.run hs hv)

theorem LocalDeclT.run {p p' : Spot} {ts : List Parse.Tok} {v : VS} (h : LocalDeclT p ts v p') : TDone N M R (trS (toS N v)) p p' := by
  cases h with
  | mk h1 h2 h3 h4 =>
    have := fun hs => DeclrsT.run (N := N) (M := M) (R := R) h4 hs h3
    refine this ?_
    clear this
    cases h1 with
    | name h => intro hq; rw [show TySTRUC = 5 from rfl] at hq; omega
    | _ => decide

theorem ForIniT.run {p p' : Spot} {ts : List Parse.Tok} {v : Option VS} (h : ForIniT p ts v p') : TDone N M R (trS (toS N (stOfV v))) p p' := by
  cases h with
  | none => exact TClosed.done (TClosed.same rfl fun G _ _ _ => wt_one.2 .empty)
  | decl h => exact h.run
  | exp h1 h2 =>
    refine TClosed.done (TClosed.same rfl fun G hi _ hn => ?_)
    obtain ⟨u, hu⟩ := h1.has hi hn
    exact wt_exp hu

theorem CondT.run {p p' : Spot} {ts : List Parse.Tok} {c : Expr} (h : CondT p ts c p') : p'.tab = p.tab ∧
    ∀ G, Inv N G M p.tab → NoVoids p.tab → ∃ u, HasTy G M (tr (toE N c)) u ∧ Scalar u := by
  cases h with
  | mk h => exact ⟨rfl, fun G hi hn => h.cond hi hn⟩

theorem ForCondT.run {p p' : Spot} {ts : List Parse.Tok} {c : Option Expr} (h : ForCondT p ts c p') : p'.tab = p.tab ∧
    ∀ G, Inv N G M p.tab → NoVoids p.tab → trO (c.map (toE N)) = .nil ∨ ∃ u, HasTy G M (trO (c.map (toE N))) u ∧ Scalar u := by
  cases h with
  | none => exact ⟨rfl, fun G hi hn => .inl rfl⟩
  | exp h => exact ⟨rfl, fun G hi hn => .inr (h.cond hi hn)⟩

theorem ForRiniT.run {p p' : Spot} {ts : List Parse.Tok} {c : Option Expr} (h : ForRiniT p ts c p') : p'.tab = p.tab ∧
    ∀ G, Inv N G M p.tab → NoVoids p.tab → trO (c.map (toE N)) = .nil ∨ ∃ u, HasTy G M (trO (c.map (toE N))) u := by
  cases h with
  | none => exact ⟨rfl, fun G hi hn => .inl rfl⟩
  | exp h => exact ⟨rfl, fun G hi hn => .inr (h.has hi hn)⟩

theorem TClosed.body {v : Option VS} {p p' : Spot} (h : TClosed N M R (items N v) p p') (h1 : One N v) {G : Gam} (hi : Inv N G M p.tab)
    (hN : Names N p'.tab) (hv : NoVoids p'.tab) : Wt M R G ((trS (toS N (stOfV v))).headD .empty) G := by
  obtain ⟨c, hc⟩ := h1
  rw [hc]
  have h2 := (h.2 G hi hN hv).1
  cases v with
  | none => cases hc; exact .empty
  | some v =>
    simp only [items] at h2
    simp only [stOfV] at hc
    rw [hc, wt_one] at h2
    exact h2

def TRuns (N : Nat → Text) (M : Text → Text → Option CT) (R : CT) (p : Spot) (v : Option VS) (p' : Spot) : NTV → Prop
  | .stat _ => TClosed N M R (items N v) p p'
  | .items a => ∃ cs, items N v = items N a ++ cs ∧ TDone N M R cs p p'

theorem wt_closed {c : CS} {G G' : Gam} (h : Wt M R G c G') (h1 : ∀ t n x, c ≠ .decl t n x) (h2 : ∀ a b, c ≠ .cons a b) : G' = G := by
  cases h with
  | decl => exact absurd rfl (h1 _ _ _)
  | cons => exact absurd rfl (h2 _ _)
  | _ => rfl

theorem truns {F : Int × Nat} {nt : NTV} {l : Bool} {p p' : Spot} {ts : List Parse.Tok} {v : Option VS} (hF : F.1 ≠ TyINTR) (hF' : Flat F)
    (h : SynT F nt l p ts v p') : TRuns N M (declTy N F) p v p' nt := by
  have one : ∀ {q l p p' ts v}, SynT F (.stat q) l p ts v p' → One N v := fun h => (runs (N := N) h.plainV).1
  induction h with
  | null => exact TClosed.same rfl fun G _ _ _ => .nil
  | exp h =>
    refine TClosed.same rfl fun G hi _ hn => ?_
    obtain ⟨u, hu⟩ := h.has hi hn
    exact wt_exp hu
  | ret h =>
    refine TClosed.same rfl fun G _ _ _ => wt_one.2 (.ret0 ?_)
    have : F = (TyVOID, 0) := by
      by_contra hq
      exact h ⟨hF, hq⟩
    rw [this, cty_void]
  | retV h1 h2 h3 =>
    refine TClosed.same rfl fun G hi _ hn => wt_one.2 ?_
    obtain ⟨g, fl⟩ := h2.good hi hn
    obtain ⟨u, g1, g2⟩ := gets_of h3 fl hF' h1.2 g
    exact .ret g1 g2
  | brk => exact TClosed.same rfl fun G _ _ _ => wt_one.2 .brk
  | cnt => exact TClosed.same rfl fun G _ _ _ => wt_one.2 .cnt
  | ifs h1 h2 ih =>
    obtain ⟨c1, c2⟩ := CondT.run (N := N) (M := M) h1
    refine ⟨by have := ih.1; rwa [c1] at this, fun G hi hN hv => ?_⟩
    have hi' := hi
    rw [← c1] at hi'
    refine ⟨?_, (ih.2 G hi' hN hv).2⟩
    have hp := ih.1.prefix
    rw [c1] at hp
    obtain ⟨u, g1, g2⟩ := c2 G hi (hv.mono hp)
    exact wt_one.2 (.block (wt_one.2 (.ifs g1 g2 (ih.body (one h2) hi' hN hv))))
  | els h1 h2 h3 ih1 ih2 =>
    obtain ⟨c1, c2⟩ := CondT.run (N := N) (M := M) h1
    have a1 := ih1.1
    rw [c1] at a1
    refine ⟨a1.trans ih2.1, fun G hi hN hv => ?_⟩
    have hi' := hi
    rw [← c1] at hi'
    have hN' := hN.mono ih2.1.prefix
    have hv' := hv.mono ih2.1.prefix
    have i2 := (ih1.2 G hi' hN' hv').2
    refine ⟨?_, (ih2.2 G i2 hN hv).2⟩
    obtain ⟨u, g1, g2⟩ := c2 G hi (hv'.mono a1.prefix)
    exact wt_one.2 (.els g1 g2 (ih1.body (one h2) hi' hN' hv') (ih2.body (one h3) i2 hN hv))
  | whl h1 h2 ih =>
    obtain ⟨c1, c2⟩ := CondT.run (N := N) (M := M) h1
    refine ⟨by have := ih.1; rwa [c1] at this, fun G hi hN hv => ?_⟩
    have hi' := hi
    rw [← c1] at hi'
    refine ⟨?_, (ih.2 G hi' hN hv).2⟩
    have hp := ih.1.prefix
    rw [c1] at hp
    exact wt_one.2 (.fors (.inl rfl) (.inr (c2 G hi (hv.mono hp))) (.inl rfl) (ih.body (one h2) hi' hN hv))
  | dos h2 h1 ih =>
    obtain ⟨c1, c2⟩ := CondT.run (N := N) (M := M) h1
    refine ⟨by show Adds _ _; rw [c1]; exact ih.1, fun G hi hN hv => ?_⟩
    simp only [c1] at hN hv ⊢
    have i2 := (ih.2 G hi hN hv).2
    obtain ⟨u, g1, g2⟩ := c2 G i2 hv
    exact ⟨wt_one.2 (.dos (ih.body (one h2) hi hN hv) g1 g2), i2⟩
  | @«for» l q p t1 i p1 t2 c p2 t3 r p3 ts a p4 h1 h2 h3 h4 ih =>
    have a1 := ForIniT.run (N := N) (M := M) (R := declTy N F) h1
    obtain ⟨b1, b2⟩ := ForCondT.run (N := N) (M := M) h2
    obtain ⟨c1, c2⟩ := ForRiniT.run (N := N) (M := M) h3
    have a4 := ih.1
    rw [c1, b1] at a4
    have ha : Adds p.tab p4.tab := a1.1.trans a4
    refine ⟨?_, fun G hi hN hv => ⟨?_, hi.leave ha⟩⟩
    · obtain ⟨k, e1, e2, -⟩ := leave_adds ha
      exact ⟨k, e1, e2⟩
    · have hN4 : Names N p4.tab := leave_names ha.prefix hN
      have hv4 : NoVoids p4.tab := leave_noVoids ha.prefix hv
      obtain ⟨G1, w1, i1⟩ := a1.2 G hi (hN4.mono a4.prefix) (hv4.mono a4.prefix)
      have hv1 := hv4.mono a4.prefix
      have k1 := b2 G1 i1 hv1
      have k2 := c2 G1 (by rw [b1]; exact i1) (by rw [b1]; exact hv1)
      have k3 := ih.body (one h4) (G := G1) (by rw [c1, b1]; exact i1) hN4 hv4
      exact wt_one.2 (.block (wt_append w1 (wt_one.2 (.fors (.inl rfl) k1 k2 k3))))
  | @block l p ts a p' h1 hs ih =>
    obtain ⟨cs, e1, d1, d2⟩ := ih
    simp only [items, List.nil_append] at e1
    subst e1
    refine ⟨?_, fun G hi hN hv => ⟨?_, hi.leave d1⟩⟩
    · obtain ⟨k, e1, e2, -⟩ := leave_adds d1
      exact ⟨k, e1, e2⟩
    · obtain ⟨G1, w1, -⟩ := d2 G hi (leave_names d1.prefix hN) (leave_noVoids d1.prefix hv)
      cases a with
      | none => exact .nil
      | some v =>
        by_cases hq : ∃ x y, v = .seq false x y
        · obtain ⟨x, y, rfl⟩ := hq
          exact wt_one.2 (.block w1)
        · have h1 : blockOfV (some v) = some v := by
            cases v with
            | seq k x y => cases k with
              | false => exact absurd ⟨x, y, rfl⟩ hq
              | true => rfl
            | _ => rfl
          obtain ⟨c, h2, h3, h4⟩ := trS_one (N := N) v (by simpa using hs) (fun x y he => hq ⟨x, y, he⟩)
          rw [h1]
          simp only [items, h2] at w1 ⊢
          have := wt_closed (wt_one.1 w1) h3 h4
          subst this
          exact w1
  | done => exact ⟨[], by simp, TClosed.done (TClosed.same rfl fun G _ _ _ => .nil)⟩
  | decl h1 _ ih =>
    obtain ⟨cs, e1, d⟩ := ih
    exact ⟨_, by rw [e1, items_join, List.append_assoc]; rfl, (LocalDeclT.run h1).append d⟩
  | stat _ _ _ ih1 ih2 =>
    obtain ⟨cs, e1, d⟩ := ih2
    exact ⟨_, by rw [e1, items_join, List.append_assoc], ih1.done.append d⟩

end
end Cmm.CText
