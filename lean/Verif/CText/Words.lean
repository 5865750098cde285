import Verif.CText.CTypeFn
import Verif.CText.UnitText
import Verif.CText.UnitLoc

/-
The text of a well-typed program needs few conditions of its own to be read as C: if the names in the source are identifiers of C and the
constants are not negative, the conditions `LexOk`, `GOk`, `SLexOk`, `GS`, ... hold of what is printed for it, but for bodies of do statements
that begin with a word (C55_do_false) and heads with only `...`.
-/
namespace Cmm.CText
open Cmm.Tree (Expr Stmt)
open Cmm.Parse (Tab Ent Spot Unused Sees Rules TypeTok TyINTR ScLVAR ScVOID VarKind IsFun Field TyVOID TyINT TyCHAR TyBOOL ScSTRC ScFLD)

variable {N : Nat → Text} {T : Tab} {R : Rules} {ty : Text → Bool}

/-- Names are identifiers of C, and there is no negative constant (a sign is an operator). -/
def TokOk : Parse.Tok → Prop
  | .name x => IsWord x.toList ∧ x.toList ∉ keywords
  | .int v | .chr v | .log v => 0 ≤ v
  | _ => True

def ToksOk (ts : List Parse.Tok) : Prop := ∀ t ∈ ts, TokOk t

instance : DecidablePred IsWord
  | [] => isFalse id
  | c :: cs => inferInstanceAs (Decidable (isIdStart c = true ∧ ∀ x ∈ cs, isIdChar x = true))

instance : DecidablePred TokOk
  | .name x => inferInstanceAs (Decidable (IsWord x.toList ∧ x.toList ∉ keywords))
  | .int v => inferInstanceAs (Decidable (0 ≤ v))
  | .chr v => inferInstanceAs (Decidable (0 ≤ v))
  | .log v => inferInstanceAs (Decidable (0 ≤ v))
  | .str _ => isTrue trivial
  | .c _ => isTrue trivial

instance (ts : List Parse.Tok) : Decidable (ToksOk ts) := inferInstanceAs (Decidable (∀ t ∈ ts, TokOk t))

theorem toksOk_append {ts us : List Parse.Tok} : ToksOk (ts ++ us) ↔ ToksOk ts ∧ ToksOk us := List.forall_mem_append

theorem toksOk_cons {t : Parse.Tok} {us : List Parse.Tok} : ToksOk (t :: us) ↔ TokOk t ∧ ToksOk us := List.forall_mem_cons

/-- The names of the table are those that are printed; variables and functions are not named as types. -/
structure WordsOk (N : Nat → Text) (ty : Text → Bool) (T : Tab) : Prop where
  name : ∀ n e, T[n]? = some e → N n = e.name.toList
  ident : ∀ e ∈ T, ∀ k, (IsFun e.scope ∨ VarKind e.scope k) → ty e.name.toList = false
  str : ∀ n, Ident ty (strLab n)

/-- What is needed of an expression. -/
def FineE (ty : Text → Bool) (e : Exp) : Prop := LexOk e ∧ GOk ty e ∧ e.post = true ∧ e.isNeg = false

theorem FineE.args {e : Exp} (h : FineE ty e) : LexOkA (.one e) ∧ GOkA ty (.one e) := ⟨h.1, h.2.1⟩

def FineA (ty : Text → Bool) (p : Exp × Args) : Prop := FineE ty p.1 ∧ LexOkA p.2 ∧ GOkA ty p.2

theorem FineE.both {e : Exp} (h : FineE ty e) : FineA ty (e, .one e) := ⟨h, h.args⟩

theorem FineE.cnst {v : Int} (h : 0 ≤ v) : FineE ty (.cnst v) :=
  ⟨trivial, trivial, decide_eq_true h, decide_eq_false (by omega)⟩

theorem FineE.idx {a i : Exp} (h1 : FineE ty a) (h2 : FineE ty i) : FineE ty (.idx a i) :=
  ⟨⟨h1.1, h2.1⟩, ⟨h1.2.1, h2.2.1, h1.2.2.1⟩, rfl, h1.2.2.2⟩

theorem FineE.dot {a : Exp} {x : Text} (h1 : FineE ty a) (h2 : IsWord x ∧ x ∉ keywords) : FineE ty (.dot a x) :=
  ⟨⟨h1.1, h2.1⟩, ⟨h1.2.1, h2.2, h1.2.2.1⟩, rfl, h1.2.2.2⟩

theorem FineE.bin {o : Bi} {a b : Exp} (h1 : FineE ty a) (h2 : FineE ty b) : FineE ty (.bin o a b) :=
  ⟨⟨h1.1, h2.1, fun _ => h2.2.2.2⟩, ⟨h1.2.1, h2.2.1⟩, rfl, rfl⟩

theorem sizeOf_nonneg {t : Int × Nat} {v : Int} (h : Parse.SizeOf T t v) : 0 ≤ v := by
  cases h <;> omega

theorem WordsOk.var {x : String} {n : Nat} {e : Ent} {k : Tree.Kind} (W : WordsOk N ty T) (h : Sees T x n e) (hk : IsFun e.scope ∨ VarKind e.scope k)
    (hx : TokOk (.name x)) : IsWord (N n) ∧ Ident ty (N n) := by
  have h1 := W.ident e (List.mem_of_getElem? h.1) k hk
  rw [W.name n e h.1]
  rw [h.2.1] at h1 ⊢
  exact ⟨hx.1, hx.2, h1⟩

theorem store_eq {m l a el er e} (h : Parse.Ty R T m l [a] el) (hl : l.lv = true) (hs : Parse.Store el er e) :
    toEA N e = (.bin .ass (toEA N el).1 (toEA N er).1, .one (.bin .ass (toEA N el).1 (toEA N er).1)) := by
  generalize hq : [a] = ts at h
  induction h generalizing a with
  | @var m x n e k h1 h2 => generalize e.scope = sc at h2; cases hs; cases h2 <;> simp [toEA]
  | idx h1 h2 h3 => cases hs; cases h3 <;> simp [toEA, toMem]
  | fld h1 h2 h3 h4 => cases hs; simp [toEA, toMem]
  | par h ih => exact ih hl hs rfl
  | _ => simp [Parse.SX.lv] at hl

theorem fine (W : WordsOk N ty T) {m x ts e} (h : Parse.Ty R T m x ts e) (hp : ToksOk x.toks) : FineA ty (toEA N e) := by
  induction h with
  | int | chr | log => exact (FineE.cnst (hp _ (List.mem_singleton_self _))).both
  | str => exact FineE.both ⟨trivial, W.str _, rfl, rfl⟩
  | nul => exact (FineE.cnst (Int.le_refl 0)).both
  | sizeof _ h => exact (FineE.cnst (sizeOf_nonneg h)).both
  | addrof h1 h2 =>
    have := W.var h1 h2 (hp _ (by simp [Parse.SX.toks]))
    exact FineE.both ⟨this.1, this.2, rfl, rfl⟩
  | @var m x n e k h1 h2 =>
    have := W.var h1 (.inr h2) (hp _ (List.mem_singleton_self _))
    generalize e.scope = sc at h2
    cases h2 <;> exact FineE.both ⟨this.1, this.2, rfl, rfl⟩
  | call0 h1 h2 =>
    have := W.var (k := .glb) h1 (.inl h2) (hp _ (List.mem_cons_self ..))
    exact FineE.both ⟨⟨this.1, trivial⟩, ⟨this.2, .inl rfl⟩, rfl, rfl⟩
  | call h1 h2 _ _ _ ih =>
    have ih := ih (toksOk_append.1 (toksOk_cons.1 (toksOk_cons.1 hp).2).2).1
    have := W.var (k := .glb) h1 (.inl h2) (hp _ (List.mem_cons_self ..))
    exact FineE.both ⟨⟨this.1, ih.2.1⟩, ⟨this.2, .inr ih.2.2⟩, rfl, rfl⟩
  | args _ _ ih1 ih2 =>
    have hp := toksOk_append.1 hp
    have i1 := ih1 hp.1
    have i2 := ih2 (toksOk_cons.1 hp.2).2
    exact ⟨i1.1.bin i2.1, ⟨i1.2.1, i2.2.1⟩, ⟨i1.2.2, i2.2.2⟩⟩
  | par _ ih => exact ih (toksOk_append.1 (toksOk_cons.1 hp).2).1
  | conv h1 _ ih =>
    have i := ih (toksOk_append.1 (toksOk_cons.1 (toksOk_cons.1 hp).2).2).1
    cases h1 with
    | ordC | ordB => exact i
    | chr | bool => exact FineE.both ⟨i.1.1, i.1.2.1, rfl, rfl⟩
  | idx _ _ h3 ih1 ih2 =>
    have hp := toksOk_append.1 hp
    have i1 := ih1 hp.1
    have i2 := ih2 (toksOk_append.1 (toksOk_cons.1 hp.2).2).1
    cases h3 <;> exact (i1.1.idx i2.1).both
  | fld _ _ _ h4 ih =>
    have hp := toksOk_append.1 hp
    have hf := (toksOk_cons.1 (toksOk_cons.1 hp.2).2).1
    have hn := W.name _ _ h4.2.1
    rw [h4.2.2.1] at hn
    exact ((ih hp.1).1.dot (by simp only [fldName, Int.toNat_natCast]; rw [hn]; exact hf)).both
  | pre h1 _ ih =>
    have i := ih (toksOk_cons.1 hp).2
    cases h1 with
    | plus => exact i
    | minus | tilde | excl => exact FineE.both ⟨⟨i.1.1, fun _ => i.1.2.2.2⟩, i.1.2.1, rfl, rfl⟩
  | @bin m k tok op l a el r b er c h1 _ _ _ ih1 ih2 =>
    have hp := toksOk_append.1 hp
    have i1 := ih1 hp.1
    have i2 := ih2 (toksOk_cons.1 hp.2).2
    have hne : op ≠ .semi ∧ op ≠ .dot ∧ op ≠ .idxr ∧ op ≠ .idxi ∧ op ≠ .idxc ∧ op ≠ .idxb := by
      obtain ⟨row, h1, h2, h3⟩ := h1
      have : ∀ row ∈ Parse.binRows, ∀ p ∈ row, p.2 ≠ .semi ∧ p.2 ≠ .dot ∧ p.2 ≠ .idxr ∧ p.2 ≠ .idxi ∧ p.2 ≠ .idxc ∧ p.2 ≠ .idxb := by decide
      exact this row (List.mem_of_getElem? h1) _ h3
    have := (i1.1.bin (o := toBi op) i2.1).both
    cases op <;> simp at hne <;> simpa [toEA] using this
  | @ass m l a el r b er e h1 h2 _ _ h5 ih1 ih2 =>
    have hp := toksOk_append.1 hp
    have i1 := ih1 hp.1
    have i2 := ih2 (toksOk_cons.1 hp.2).2
    have e1 : toEA N e = (.bin .ass (toEA N el).1 (toEA N er).1, .one (.bin .ass (toEA N el).1 (toEA N er).1)) := store_eq h1 h2 h5
    rw [e1]
    exact (i1.1.bin i2.1).both
  | com _ _ ih1 ih2 => 
    have hp := toksOk_append.1 hp
    exact ((ih1 hp.1).1.bin (ih2 (toksOk_cons.1 hp.2).2).1).both

/-! ### Statements -/

/-- The bodies of do statements do not begin with a word (C55_do_false). -/
def DoOk : Stm → Prop
  | .ifs _ s | .whl _ _ s => DoOk s
  | .els _ s t | .blk s t | .semi s t => DoOk s ∧ DoOk t
  | .dos s _ => DoOk s ∧ wordy s = false
  | _ => True

/-- What is needed of a statement. -/
def FineS (ty : Text → Bool) (s : Stm) : Prop := GS ty s ∧ (DoOk s → SLexOk s)

/-- The table of the function and what are names of types in C there. -/
structure Ctx (ty : Text → Bool) (T : Tab) : Prop where
  ident : ∀ e ∈ T, ∀ k, (IsFun e.scope ∨ VarKind e.scope k) → ty e.name.toList = false
  types : ∀ y, ty y = true → y ∈ baseTys ∨ ∃ d ∈ T, d.scope = ScSTRC ∧ d.name.toList = y
  base : ∀ y ∈ baseTys, ty y = true
  strc : ∀ d ∈ T, d.scope = ScSTRC → IsWord d.name.toList ∧ ty d.name.toList = true
  str : ∀ n, Ident ty (strLab n)

/-- The table has become longer, by names that are not types. -/
def Longer (ty : Text → Bool) (T : Tab) (p : Spot) : Prop :=
  ∃ l, p.tab = T ++ l ∧ ∀ e ∈ l, e.scope ≠ ScSTRC ∧ ty e.name.toList = false

/-- The names that are printed. -/
def NamedBy (N : Nat → Text) (T : Tab) : Prop := ∀ n e, T[n]? = some e → N n = e.name.toList

def namesOf (T : Tab) : List String := T.map Ent.name

theorem NamedBy.mono {T' : Tab} (h : NamedBy N T') (hp : namesOf T <+: namesOf T') : NamedBy N T := by
  intro n e he
  obtain ⟨l, hl⟩ := hp
  have h1 : (namesOf T')[n]? = some e.name := by
    rw [← hl, List.getElem?_append_left (by simpa [namesOf] using (List.getElem?_eq_some_iff.1 he).1)]
    simp [namesOf, he]
  simp only [namesOf, List.getElem?_map, Option.map_eq_some_iff] at h1
  obtain ⟨d, h2, h3⟩ := h1
  rw [h n d h2, h3]

theorem Ctx.words (C : Ctx ty T) {p : Spot} (hp : Longer ty T p) (hN : NamedBy N p.tab) : WordsOk N ty p.tab := by
  refine ⟨hN, fun e he k hk => ?_, C.str⟩
  obtain ⟨l, h1, h2⟩ := hp
  rw [h1] at he
  rcases List.mem_append.1 he with he | he
  · exact C.ident e he k hk
  · exact (h2 e he).2

theorem Ctx.fresh (C : Ctx ty T) {x : String} (hx : TokOk (.name x)) (h : ∀ d ∈ T, d.name = x → d.scope ≠ ScSTRC) : ty x.toList = false := by
  cases hy : ty x.toList with
  | false => rfl
  | true =>
    rcases C.types _ hy with h1 | ⟨d, h1, h2, h3⟩
    · refine absurd ?_ hx.2
      simp only [baseTys, List.mem_cons, List.not_mem_nil, or_false] at h1
      rcases h1 with h1 | h1 | h1 <;> rw [h1] <;> decide
    · exact absurd h2 (h d h1 (String.toList_injective h3))

theorem Longer.local (C : Ctx ty T) {p : Spot} {x : String} {t : Int} {dim : Nat} (h : Longer ty T p) (hu : Unused p.tab x) (hx : TokOk (.name x)) :
    Longer ty T (p.local x t dim) := by
  obtain ⟨l, h1, h2⟩ := h
  refine ⟨l ++ [⟨x, ScLVAR, t, dim, p.cnt + 1, false⟩], by simp [Parse.Spot.local, h1], fun e he => ?_⟩
  rcases List.mem_append.1 he with he | he
  · exact h2 e he
  · rw [List.mem_singleton.1 he]
    refine ⟨show ScLVAR ≠ ScSTRC by decide, C.fresh hx fun d hd hn => (hu.2 d ?_ hn).2.2⟩
    rw [h1]; exact List.mem_append_left _ hd

theorem Longer.leave {p p' : Spot} (h : Longer ty T p) (h' : Longer ty T p') : Longer ty T (p.leave p') := by
  obtain ⟨l, h1, -⟩ := h
  obtain ⟨l', h2, h3⟩ := h'
  refine ⟨l'.take l.length ++ (l'.drop l.length).map (fun e => { e with scope := ScVOID }), ?_, fun e he => ?_⟩
  · simp [Parse.Spot.leave, h1, h2, List.take_append, List.drop_append, List.take_of_length_le, List.drop_eq_nil_of_le]
  · rcases List.mem_append.1 he with he | he
    · exact h3 e (List.mem_of_mem_take he)
    · obtain ⟨d, hd, rfl⟩ := List.mem_map.1 he
      exact ⟨show ScVOID ≠ ScSTRC by decide, (h3 d (List.mem_of_mem_drop hd)).2⟩

theorem Ctx.type (C : Ctx ty T) {t : Int} (h : TyOk T t) (hN : NamedBy N T) : (toTy N t).Ok ∧ ty (toTy N t).word = true := by
  rcases h with h | ⟨i, d, rfl, h1, h2⟩
  · simp only [List.mem_cons, List.not_mem_nil, or_false] at h
    rcases h with rfl | rfl | rfl | rfl
    · exact ⟨trivial, C.base t!"void" (by decide)⟩
    · exact ⟨trivial, C.base t!"int" (by decide)⟩
    · exact ⟨trivial, C.base t!"char" (by decide)⟩
    · exact ⟨trivial, C.base t!"char" (by decide)⟩
  · have h3 := C.strc d (List.mem_of_getElem? h1) h2
    have h4 := hN i d h1
    have h5 : toTy N (-(i : Int)) = .named (N i) := by
      unfold toTy
      rw [if_neg (by rw [show TyVOID = 1 from rfl]; omega), if_neg (by rw [show TyINT = 2 from rfl]; omega),
        if_neg (by rw [show TyBOOL = 4 from rfl]; omega), if_neg (by rw [show TyCHAR = 3 from rfl]; omega)]
      simp
    rw [h5]
    show IsWord (N i) ∧ ty (N i) = true
    rw [h4]; exact h3

theorem namesOf_leave (p p' : Spot) : namesOf (p.leave p').tab = namesOf p'.tab := by
  simp only [namesOf, Parse.Spot.leave, List.map_append, List.map_map]
  rw [show (Ent.name ∘ fun e : Ent => { e with scope := ScVOID }) = Ent.name from rfl, ← List.map_append, List.take_append_drop]

section
variable {F : Int × Nat} {p p' : Spot} {ts : List Parse.Tok}

/-! Names are only added. -/

theorem DeclrT.grow {t : Int} {dim : Nat} {v} (h : DeclrT t dim p ts v p') : namesOf p.tab <+: namesOf p'.tab := by
  cases h <;> exact ⟨_, by simp [namesOf, Parse.Spot.local, Parse.Spot.lit]; rfl⟩

theorem DeclrsT.grow {t : Int} {dim : Nat} {v} (h : DeclrsT t dim p ts v p') : namesOf p.tab <+: namesOf p'.tab := by
  induction h with
  | one h => exact h.grow
  | more _ h ih => exact ih.trans h.grow

theorem LocalDeclT.grow {v} (h : LocalDeclT p ts v p') : namesOf p.tab <+: namesOf p'.tab := by
  cases h with
  | mk _ _ _ h => exact h.grow (p := { p with dim := _ })

theorem ForIniT.grow {v} (h : ForIniT p ts v p') : namesOf p.tab <+: namesOf p'.tab := by
  cases h with
  | none | exp => exact List.prefix_rfl
  | decl h => exact h.grow

theorem CondT.grow {c} (h : CondT p ts c p') : namesOf p.tab <+: namesOf p'.tab := by
  cases h; exact List.prefix_rfl

theorem ForCondT.grow {c} (h : ForCondT p ts c p') : namesOf p.tab <+: namesOf p'.tab := by
  cases h <;> exact List.prefix_rfl

theorem ForRiniT.grow {c} (h : ForRiniT p ts c p') : namesOf p.tab <+: namesOf p'.tab := by
  cases h <;> exact List.prefix_rfl

theorem SynT.grow {nt : NTV} {l : Bool} {v} (h : SynT F nt l p ts v p') : namesOf p.tab <+: namesOf p'.tab := by
  induction h with
  | null | exp | ret | retV | brk | cnt | done => exact List.prefix_rfl
  | ifs hc _ ih | whl hc _ ih => exact hc.grow.trans ih
  | els hc _ _ ih ih' => exact hc.grow.trans (ih.trans ih')
  | dos _ hc ih => exact ih.trans hc.grow
  | «for» hi hc hr _ ih => 
    show _ <+: namesOf (Parse.Spot.leave _ _).tab
    rw [namesOf_leave]; exact hi.grow.trans (hc.grow.trans (hr.grow.trans ih))
  | block _ _ ih => 
    show _ <+: namesOf (Parse.Spot.leave _ _).tab
    rw [namesOf_leave]; exact ih
  | decl hd _ ih => exact hd.grow.trans ih
  | stat _ _ _ ih ih' => exact ih.trans ih'

/-! The text is fine. -/

theorem ExpT.fine (C : Ctx ty T) (hp : Longer ty T p) (hN : NamedBy N p.tab) {k x t e} (h : ExpT p k x t e) (ht : ToksOk x.toks) : FineE ty (toE N e) :=
  (CText.fine (C.words hp hN) h.ty ht).1

theorem CondT.fine (C : Ctx ty T) (hp : Longer ty T p) {c} (h : CondT p ts c p') (hN : NamedBy N p'.tab) (ht : ToksOk ts) :
    FineE ty (toE N c) ∧ Longer ty T p' := by
  cases h with
  | mk h => exact ⟨h.fine C hp hN (toksOk_append.1 (toksOk_cons.1 ht).2).1, hp⟩

def FineO (ty : Text → Bool) (e : Option Exp) : Prop := GOkO ty e ∧ LexOkO e

theorem ForCondT.fine (C : Ctx ty T) (hp : Longer ty T p) {c} (h : ForCondT p ts c p') (hN : NamedBy N p'.tab) (ht : ToksOk ts) :
    FineO ty (c.map (toE N)) ∧ Longer ty T p' := by
  cases h with
  | none => exact ⟨⟨trivial, trivial⟩, hp⟩
  | exp h => have := h.fine C hp hN ht; exact ⟨⟨this.2.1, this.1⟩, hp⟩

theorem ForRiniT.fine (C : Ctx ty T) (hp : Longer ty T p) {c} (h : ForRiniT p ts c p') (hN : NamedBy N p'.tab) (ht : ToksOk ts) :
    FineO ty (c.map (toE N)) ∧ Longer ty T p' := by
  cases h with
  | none => exact ⟨⟨trivial, trivial⟩, hp⟩
  | exp h => have := h.fine C hp hN ht; exact ⟨⟨this.2.1, this.1⟩, hp⟩

theorem FineE.stm {e : Exp} (h : FineE ty e) : FineS ty (.exp e) := ⟨h.2.1, fun _ => h.1⟩

theorem FineS.semi {s t : Stm} (h : FineS ty s) (h' : FineS ty t) : FineS ty (.semi s t) :=
  ⟨⟨h.1, h'.1⟩, fun hd => ⟨h.2 hd.1, h'.2 hd.2⟩⟩

theorem FineS.blk {s t : Stm} (h : FineS ty s) (h' : FineS ty t) : FineS ty (.blk s t) :=
  ⟨⟨h.1, h'.1⟩, fun hd => ⟨h.2 hd.1, h'.2 hd.2⟩⟩

theorem namedBy_local {x : String} {t : Int} {dim : Nat} (h : NamedBy N (p.local x t dim).tab) : N p.tab.length = x.toList ∧ NamedBy N p.tab :=
  ⟨h _ ⟨x, ScLVAR, t, dim, p.cnt + 1, false⟩ (by simp [Parse.Spot.local]), h.mono ⟨[x], by simp [namesOf, Parse.Spot.local]⟩⟩

theorem DeclrT.fine (C : Ctx ty T) (hp : Longer ty T p) {t : Int} {dim : Nat} {v} (h : DeclrT t dim p ts v p') (hN : NamedBy N p'.tab) (ht : ToksOk ts)
    (hty : (toTy N t).Ok ∧ ty (toTy N t).word = true) : FineS ty (toS N v) ∧ Longer ty T p' := by
  cases h with
  | @plain x hu =>
    have hx := ht (.name x) (List.mem_cons_self ..)
    have hl := hp.local (t := t) (dim := dim) C hu hx
    have hn := (namedBy_local hN).1
    have hi : ty x.toList = false := (by obtain ⟨l, h1, h2⟩ := hp; exact C.fresh hx fun d hd hn => (hu.2 d (by rw [h1]; exact List.mem_append_left _ hd) hn).2.2)
    refine ⟨⟨⟨hty.2, ?_⟩, fun _ => ⟨hty.1, ?_⟩⟩, hl⟩
    · rw [hn]; exact ⟨hx.2, hi⟩
    · rw [hn]; exact hx.1
  | @init x y u e hu h1 h2 =>
    have hx := ht (.name x) (List.mem_cons_self ..)
    have hl := hp.local (t := t) (dim := dim) C hu hx
    have hn := (namedBy_local (p := p) hN).1
    have hi : ty x.toList = false := (by obtain ⟨l, h1, h2⟩ := hp; exact C.fresh hx fun d hd hn => (hu.2 d (by rw [h1]; exact List.mem_append_left _ hd) hn).2.2)
    have he := h1.fine C hl hN (toksOk_cons.1 (toksOk_cons.1 ht).2).2
    have hw : IsWord (N p.tab.length) ∧ Ident ty (N p.tab.length) := by rw [hn]; exact ⟨hx.1, hx.2, hi⟩
    have hv : FineE ty (.var (N p.tab.length)) := ⟨hw.1, hw.2, rfl, rfl⟩
    refine ⟨FineS.semi ⟨⟨hty.2, hw.2⟩, fun _ => ⟨hty.1, hw.1⟩⟩ ?_, hl⟩
    have := (hv.bin (o := .ass) he).stm
    simpa [toS, toE, toEA] using this

theorem DeclrsT.fine (C : Ctx ty T) {t : Int} {dim : Nat} {v} (h : DeclrsT t dim p ts v p') (hp : Longer ty T p) (hN : NamedBy N p'.tab) (ht : ToksOk ts)
    (hty : (toTy N t).Ok ∧ ty (toTy N t).word = true) : FineS ty (toS N v) ∧ Longer ty T p' := by
  induction h with
  | one h => exact h.fine C hp hN ht hty
  | more _ h ih =>
    have ht := toksOk_append.1 ht
    obtain ⟨h1, h2⟩ := ih (hN.mono h.grow) ht.1
    obtain ⟨h3, h4⟩ := h.fine C h2 hN (toksOk_cons.1 ht.2).2 hty
    exact ⟨h1.semi h3, h4⟩

theorem LocalDeclT.fine (C : Ctx ty T) {v} (h : LocalDeclT p ts v p') (hp : Longer ty T p) (hN : NamedBy N p'.tab) (ht : ToksOk ts) :
    FineS ty (toS N v) ∧ Longer ty T p' := by
  have hg := h.grow
  cases h with
  | mk h1 h2 _ h4 =>
    obtain ⟨l, h5, h6⟩ := hp
    rw [h5] at h1
    have hT : NamedBy N T := hN.mono (List.IsPrefix.trans ⟨namesOf l, by rw [h5]; simp [namesOf]⟩ hg)
    have hty := C.type (tyOk_of h1 h2 fun e he => (h6 e he).1) hT
    exact h4.fine C (p := { p with dim := _ }) ⟨l, h5, h6⟩ hN (toksOk_append.1 (toksOk_cons.1 ht).2).2 hty

theorem ForIniT.fine (C : Ctx ty T) {v} (h : ForIniT p ts v p') (hp : Longer ty T p) (hN : NamedBy N p'.tab) (ht : ToksOk ts) :
    FineS ty (toS N (stOfV v)) ∧ Longer ty T p' := by
  cases h with
  | none => exact ⟨⟨trivial, fun _ => trivial⟩, hp⟩
  | decl h => exact h.fine C hp hN ht
  | exp h => exact ⟨(h.fine C hp hN ht).stm, hp⟩

def NTV.Fine (N : Nat → Text) (ty : Text → Bool) : NTV → Prop
  | .stat _ => True
  | .items a => FineS ty (toS N (stOfV a))

theorem fine_join {a b : Option VS} (h : FineS ty (toS N (stOfV a))) (h' : FineS ty (toS N (stOfV b))) : FineS ty (toS N (stOfV (joinV a b))) := by
  cases a with
  | none => exact h'
  | some a =>
    cases b with
    | none => exact h
    | some b => exact h.semi h'

theorem fine_block {a : Option VS} (h : FineS ty (toS N (stOfV a))) : FineS ty (toS N (stOfV (blockOfV a))) := by
  unfold blockOfV
  split
  · exact ⟨h.1, h.2⟩
  · exact h

/-- A body can stand behind if, while and do. -/
def Alone (N : Nat → Text) (nt : NTV) (v : Option VS) : Prop := ∀ q, nt = .stat q → Single (toS N (stOfV v)) = true

theorem one_block {a : Option VS} (h : a.all (fun v => !v.isVar) = true) : Single (toS N (stOfV (blockOfV a))) = true := by
  cases a with
  | none => rfl
  | some v =>
    cases v with
    | var => simp [VS.isVar] at h
    | seq k s t => cases k <;> rfl
    | _ => rfl

theorem SynT.fine (C : Ctx ty T) {nt : NTV} {l : Bool} {v} (h : SynT F nt l p ts v p') (hp : Longer ty T p) (hN : NamedBy N p'.tab) (ht : ToksOk ts)
    (hn : nt.Fine N ty) : FineS ty (toS N (stOfV v)) ∧ Alone N nt v ∧ Longer ty T p' := by
  induction h with
  | null | brk | cnt => exact ⟨⟨trivial, fun _ => trivial⟩, fun _ _ => rfl, hp⟩
  | ret => exact ⟨⟨trivial, fun _ => trivial⟩, fun _ _ => rfl, hp⟩
  | exp h => exact ⟨(h.fine C hp hN (toksOk_append.1 ht).1).stm, fun _ _ => rfl, hp⟩
  | retV _ h =>
    have := h.fine C hp hN (toksOk_append.1 (toksOk_cons.1 ht).2).1
    exact ⟨⟨this.2.1, fun _ => this.1⟩, fun _ _ => rfl, hp⟩
  | ifs hc hs ih =>
    have ht := toksOk_append.1 (toksOk_cons.1 ht).2
    obtain ⟨h1, h2⟩ := hc.fine C hp (hN.mono hs.grow) ht.1
    obtain ⟨h3, h4, h5⟩ := ih h2 hN ht.2 trivial
    exact ⟨⟨⟨h1.2.1, h3.1, h4 _ rfl⟩, fun hd => ⟨h1.1, h3.2 hd⟩⟩, fun _ _ => rfl, h5⟩
  | els hc hs hs' ih ih' =>
    have ht := toksOk_append.1 (toksOk_cons.1 ht).2
    have ht' := toksOk_append.1 ht.2
    obtain ⟨h1, h2⟩ := hc.fine C hp (hN.mono (hs.grow.trans hs'.grow)) ht.1
    obtain ⟨h3, h4, h5⟩ := ih h2 (hN.mono hs'.grow) ht'.1 trivial
    obtain ⟨h6, h7, h8⟩ := ih' h5 hN (toksOk_cons.1 ht'.2).2 trivial
    exact ⟨⟨⟨h1.2.1, ⟨h3.1, h4 _ rfl⟩, h6.1, h7 _ rfl⟩, fun hd => ⟨h1.1, h3.2 hd.1, h6.2 hd.2⟩⟩, fun _ _ => rfl, h8⟩
  | whl hc hs ih =>
    have ht := toksOk_append.1 (toksOk_cons.1 ht).2
    obtain ⟨h1, h2⟩ := hc.fine C hp (hN.mono hs.grow) ht.1
    obtain ⟨h3, h4, h5⟩ := ih h2 hN ht.2 trivial
    exact ⟨⟨⟨h1.2.1, trivial, h3.1, h4 _ rfl⟩, fun hd => ⟨h1.1, trivial, h3.2 hd⟩⟩, fun _ _ => rfl, h5⟩
  | dos hs hc ih =>
    have ht := toksOk_append.1 (toksOk_cons.1 ht).2
    obtain ⟨h3, h4, h5⟩ := ih hp (hN.mono hc.grow) ht.1 trivial
    obtain ⟨h1, h2⟩ := hc.fine C h5 hN (toksOk_append.1 (toksOk_cons.1 ht.2).2).1
    exact ⟨⟨⟨⟨h3.1, h4 _ rfl⟩, h1.2.1⟩, fun hd => ⟨h3.2 hd.1, h1.1, hd.2⟩⟩, fun _ _ => rfl, h2⟩
  | @«for» l q p t1 i p1 t2 c p2 t3 r p3 ts a p4 hi hc hr hs ih =>
    have hN : NamedBy N p4.tab := hN.mono (by show _ <+: namesOf (Parse.Spot.leave _ _).tab; rw [namesOf_leave])
    have ht := toksOk_append.1 (toksOk_cons.1 (toksOk_cons.1 ht).2).2
    have ht2 := toksOk_append.1 (toksOk_cons.1 ht.2).2
    have ht3 := toksOk_append.1 (toksOk_cons.1 ht2.2).2
    obtain ⟨a1, a2⟩ := hi.fine C hp (hN.mono (hc.grow.trans (hr.grow.trans hs.grow))) ht.1
    obtain ⟨b1, b2⟩ := hc.fine C a2 (hN.mono (hr.grow.trans hs.grow)) ht2.1
    obtain ⟨c1, c2⟩ := hr.fine C b2 (hN.mono hs.grow) ht3.1
    obtain ⟨h3, h4, h5⟩ := ih c2 hN (toksOk_cons.1 ht3.2).2 trivial
    exact ⟨FineS.blk a1 ⟨⟨b1.1, c1.1, h3.1, h4 _ rfl⟩, fun hd => ⟨b1.2, c1.2, h3.2 hd⟩⟩, fun _ _ => rfl, Longer.leave hp h5⟩
  | @block l p ts a p' hs hv ih =>
    have hN : NamedBy N p'.tab := hN.mono (by show _ <+: namesOf (Parse.Spot.leave _ _).tab; rw [namesOf_leave])
    obtain ⟨h1, -, h2⟩ := ih hp hN (toksOk_append.1 (toksOk_cons.1 ht).2).1 ⟨trivial, fun _ => trivial⟩
    exact ⟨fine_block h1, fun _ _ => one_block hv, Longer.leave hp h2⟩
  | done => exact ⟨hn, nofun, hp⟩
  | decl hd hs ih =>
    have ht := toksOk_append.1 ht
    obtain ⟨h1, h2⟩ := hd.fine C hp (hN.mono hs.grow) ht.1
    obtain ⟨h3, -, h4⟩ := ih h2 hN (toksOk_cons.1 ht.2).2 (fine_join hn h1)
    exact ⟨h3, nofun, h4⟩
  | stat hs _ hs' ih ih' =>
    have ht := toksOk_append.1 ht
    obtain ⟨h1, -, h2⟩ := ih hp (hN.mono hs'.grow) ht.1 trivial
    obtain ⟨h3, -, h4⟩ := ih' h2 hN ht.2 (fine_join hn h1)
    exact ⟨h3, nofun, h4⟩

end
end Cmm.CText
