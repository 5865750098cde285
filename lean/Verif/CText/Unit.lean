import Verif.CText.CTypeFn
import Verif.Parse.ProgSyn

/-
Whole files of the C translator, for Verif/Props/C78.lean.
-/
namespace Cmm.CText
open Cmm.Tree (Expr Stmt)
open Cmm.Parse (Tab Ent Spot Sees Field VarKind IsFun IsGlob Prms Sig Fresh Earlier Again GVar GVars Flds Lines Thing Opts nowFun keep Valued TypeTok
  TyVOID TyINT TyCHAR TyBOOL TyINTR TySTRUC TyDOTDOTDOT ScLVAR ScPRM ScVOID ScFUNC ScPROT ScCOMM ScGVAR ScSTRC ScFLD)

/-! ### Specification: C (C11 6.2, 6.7, 6.9) -/

/-- External declarations: a structure with its type name (`typedef struct _x x; struct _x { ... };`), a prototype, a variable (static or not,
with a value or not), a function. Values are left out (C75). -/
inductive CExt
  | struct (x : Text) (ms : List (CT × Text))
  | proto (h : CHead)
  | var (st val : Bool) (t : CT) (x : Text)
  | fn (f : CHead × CS)

/-- What has been declared so far: names, whether they are static, members of structures, type names, and the names that have been given a
body or a value. -/
structure CUnit where
  G : Gam
  S : Text → Option Bool
  M : Text → Text → Option CT
  K : Text → Bool
  F : Text → Bool

def baseTys : List Text := [t!"int", t!"char", t!"void"]

/-- The type has been declared. -/
def CUnit.Known (U : CUnit) (t : CT) : Prop := t.1 ∈ baseTys ∨ U.K t.1 = true

/-- `x` may be declared: it is no type name, and earlier declarations of it are the same (6.2.2, 6.7). -/
def CUnit.May (U : CUnit) (st : Bool) (x : Text) (d : Dcl) : Prop :=
  U.K x = false ∧ (U.G x = none ∨ U.G x = some d ∧ U.S x = some st)

def CUnit.name (U : CUnit) (st : Bool) (x : Text) (d : Dcl) (body : Bool) : CUnit :=
  { U with G := U.G.set x d, S := fun y => if y = x then some st else U.S y, F := fun y => if y = x then U.F y || body else U.F y }

/-- The types of a head are known, the result is void or a scalar, the parameters are scalars with different names. -/
structure CUnit.HeadOk (U : CUnit) (h : CHead) : Prop where
  ret : ∃ w, h.ty = [w] ∧ U.Known (w, h.stars) ∧ ((w, h.stars) = (t!"void", 0) ∨ Scalar (w, h.stars))
  par : ∀ p, some p ∈ h.pars → ∃ w, p.1 = [w] ∧ U.Known (w, p.2.1) ∧ Scalar (w, p.2.1) ∧ U.K p.2.2 = false
  dif : (h.pars.filterMap id).Pairwise fun p q => p.2.2 ≠ q.2.2

/-- The types of the declarations in a statement (`Wt` allows one word for a type). -/
def CS.decls : CS → List CT
  | .block s | .ifs _ s | .fors _ _ _ s | .whl _ s | .dos s _ => s.decls
  | .els _ s t | .cons s t => s.decls ++ t.decls
  | .decl t n _ => [(t.flatten, n)]
  | _ => []

/-- A declaration is correct behind others; `U'` is what has been declared with it. -/
inductive CUnit.Step (U : CUnit) : CExt → CUnit → Prop
  | struct {x ms} : U.K x = false → U.G x = none → x ∉ baseTys → ms ≠ [] →
      (∀ m ∈ ms, Scalar m.1 ∧ (U.Known m.1 ∨ m.1.1 = x)) → ms.Pairwise (fun m n => m.2 ≠ n.2) →
      U.Step (.struct x ms) { U with
        K := fun y => y == x || U.K y
        M := fun w y => if w = x then (ms.find? (·.2 == y)).map (·.1) else U.M w y }
  | proto {h} : U.HeadOk h → U.May h.static h.name h.dcl → U.Step (.proto h) (U.name h.static h.name h.dcl false)
  | var {st val t x} : U.Known t → Scalar t → U.May st x (.obj t) → (val = true → U.F x = false) →
      U.Step (.var st val t x) (U.name st x (.obj t) val)
  | fn {f} : U.HeadOk f.1 → U.May f.1.static f.1.name f.1.dcl → U.F f.1.name = false → WtFn U.M U.G f →
      (∀ t ∈ f.2.decls, U.Known t) →
      U.Step (.fn f) (U.name f.1.static f.1.name f.1.dcl true)

/-- A file. -/
inductive CUnit.Steps : CUnit → List CExt → CUnit → Prop
  | nil {U} : Steps U [] U
  | cons {U c U1 cs U'} : U.Step c U1 → Steps U1 cs U' → Steps U (c :: cs) U'

/-- At the beginning there are only the strings (they are macros, cCode.c:618-624; all of them are here). -/
noncomputable def CUnit.start : CUnit where
  G := fun x => open Classical in if ∃ l, x = strLab l then some (.obj (t!"char", 1)) else none
  S := fun _ => none
  M := fun _ _ => none
  K := fun _ => false
  F := fun _ => false

theorem CUnit.Steps.append {U U1 U2 : CUnit} {cs ds : List CExt} (h : Steps U cs U1) (h' : Steps U1 ds U2) : Steps U (cs ++ ds) U2 := by
  induction h with
  | nil => exact h'
  | cons h1 _ ih => exact .cons h1 (ih h')

/-! ### What the translator prints for a file -/

/-- The calls of the back end cCode.c: genStruc (634-649), genProto (389-393), genBss (596-600) and genData (578-593, values left out),
genFunc (396-405), with the names in the place of the indices. -/
inductive Ext
  | struct (x : Text) (fl : List (Ty × Nat × Text))
  | proto (f : Fn)
  | var (pub val : Bool) (t : Ty) (dim : Nat) (x : Text)
  | fn (f : Fn)

/-- cCode.c:93-117: the C type. -/
def ctOf (t : Ty) (dim : Nat) : CT := (t.word, stars t dim false)

/-- The C declaration that is printed. -/
def trExt : Ext → CExt
  | .struct x fl => .struct x (fl.map fun m => (ctOf m.1 m.2.1, m.2.2))
  | .proto f => .proto (trHead f)
  | .var pub val t dim x => .var (!pub) val (ctOf t dim) x
  | .fn f => .fn (trF f)

/-- The names of a table. -/
def tabNames (T : Tab) (n : Nat) : Text := ((T[n]?.map Ent.name).getD "").toList

/-- genBss (parser.c:1195) and genData (parser.c:1180) for a global variable. -/
def varExt : Thing → Option Ext
  | .room i T => T[i]?.map fun e => .var e.pub false (toTy (tabNames T) e.type) e.dim e.name.toList
  | .value i _ T _ => T[i]?.map fun e => .var e.pub true (toTy (tabNames T) e.type) e.dim e.name.toList
  | .code .. => none

/-- No arrays of more than one dimension of void (C77_voids_false), no names of strings (C76_string_false); int, char and void are keywords. -/
structure Plain (T : Tab) : Prop where
  voids : NoVoids T
  names : ∀ e ∈ T, ∀ l, e.name.toList ≠ strLab l
  kw : ∀ e ∈ T, e.name.toList ∉ baseTys

/-- As `Decln` (Verif/Parse/ProgSyn.lean) with functions that are well typed by the manual (`SynT`). Without `typedef` (see C78_typedef_false) and
interrupt functions. The list is what is printed. -/
inductive DeclnT : Spot → List Parse.Tok → List Ext → Spot → Prop
  | struct {p x fs p' fl} : Fresh p.tab ScSTRC x →
      Lines { p.enter ⟨x, ScSTRC, TySTRUC, p.dim, p.cnt, false⟩ with cnt := 0 } fs p' →
      p'.tab = p.tab ++ ⟨x, ScSTRC, TySTRUC, p.dim, p.cnt, false⟩ :: fl → Plain p'.tab →
      DeclnT p (Parse.Lx.STRUCT :: .name x :: Parse.Lx.lbrc :: (fs ++ [Parse.Lx.rbrc, Parse.Lx.semi]))
        [.struct x.toList (fl.map fun e => (toTy (tabNames p'.tab) e.type, e.dim, e.name.toList))]
        { p' with tab := keep none p.tab ⟨x, ScSTRC, TySTRUC, p.dim, fl.length, false⟩ fl }
  | vars {p pub k ty dim us m p'} : TypeTok p.tab k ty → Valued (ty, dim) → GVars ty dim pub { p with dim := dim } us m p' → Plain p'.tab →
      DeclnT p (Parse.pubToks pub ++ k :: (Parse.dimToks dim ++ (us ++ [Parse.Lx.semi]))) (m.filterMap varExt) p'
  | proto {p pub k ty dim x ps old prm p1} : TypeTok p.tab k ty → ty ≠ TyINTR → Fresh p.tab ScPROT x →
      Sig ty dim pub x { p with dim := dim } ps old prm p1 → Plain p1.tab →
      DeclnT p (Parse.pubToks pub ++ k :: (Parse.dimToks dim ++ .name x :: (Parse.Lx.lpar :: (ps ++ [Parse.Lx.rpar, Parse.Lx.semi]))))
        [.proto (toFn (tabNames p1.tab) ty dim pub x prm none)]
        { p1 with tab := keep old p.tab ⟨x, ScPROT, ty, dim, prm.length, pub⟩ prm }
  | func {p pub k ty dim x ps old prm p1 p2 ts b p3 n} : TypeTok p.tab k ty → ty ≠ TyINTR → Fresh p.tab ScPROT x →
      Sig ty dim pub x { p with dim := dim } ps old prm p1 →
      (∀ i d, old = some i → p.tab[i]? = some d → d.scope = ScPROT) →
      p2 = { p1 with tab := nowFun old p.tab ++ ⟨x, ScFUNC, ty, dim, prm.length, pub⟩ :: prm, most := 0, cnt := 0 } →
      SynT (ty, dim) (.items none) false p2 ts b p3 → (Valued (ty, dim) → p3.last = some Parse.Lx.RETURN) → Plain p3.tab →
      DeclnT p (Parse.pubToks pub ++ k :: (Parse.dimToks dim ++ .name x :: (Parse.Lx.lpar :: (ps ++ Parse.Lx.rpar :: Parse.Lx.lbrc :: (ts ++ [Parse.Lx.rbrc])))))
        [.fn (toFn (tabNames p3.tab) ty dim pub x prm b)]
        { p3 with tab := keep old (nowFun old p.tab) ⟨x, ScFUNC, ty, dim, prm.length, pub⟩ prm, cnt := 0, lab := n }

/-- Programs. -/
inductive ProgT : Spot → List Parse.Tok → List Ext → Spot → Prop
  | done {p} : ProgT p [] [] p
  | more {p ts m p1 us m' p'} : DeclnT p ts m p1 → ProgT p1 us m' p' → ProgT p (ts ++ us) (m ++ m') p'

/-! ### The name table of a file -/

/-- The type can be declared. -/
def TyOk (T : Tab) (ty : Int) : Prop :=
  ty ∈ [TyVOID, TyINT, TyCHAR, TyBOOL] ∨ ∃ (i : Nat) (d : Ent), ty = -(i : Int) ∧ T[i]? = some d ∧ d.scope = ScSTRC

def Owner (e : Ent) : Prop := IsFun e.scope ∨ e.type = TySTRUC

structure FInv (U : CUnit) (T : Tab) : Prop where
  inv : Inv (tabNames T) U.G U.M T
  scp : ∀ e ∈ T, e.scope = ScVOID ∨ (e.scope = ScSTRC ∧ e.type = TySTRUC) ∨ IsGlob e
  strc : ∀ e ∈ T, e.type = TySTRUC → e.scope = ScSTRC
  tys : ∀ e ∈ T, e.type ≠ TySTRUC → e.type ≠ TyDOTDOTDOT → TyOk T e.type
  dots : ∀ e ∈ T, e.type = TyDOTDOTDOT → e.scope = ScVOID
  own : ∀ (n : Nat) e, T[n]? = some e → Owner e → ∀ d ∈ (T.drop (n + 1)).take e.cnt, d.type ≠ TySTRUC ∧ (e.type = TySTRUC → d.type ≠ TyDOTDOTDOT)
  uniq : ∀ (i j : Nat) d e, T[i]? = some d → T[j]? = some e → IsGlob d → IsGlob e → d.name = e.name → i = j
  types : ∀ w, U.K w = true ↔ ∃ e ∈ T, e.scope = ScSTRC ∧ e.name.toList = w
  known : ∀ w d, U.G w = some d → (∃ l, w = strLab l) ∨ ∃ e ∈ T, IsGlob e ∧ e.name.toList = w
  link : ∀ e ∈ T, IsGlob e → U.S e.name.toList = some (!e.pub)
  defd : ∀ w, U.F w = true → ∃ e ∈ T, e.name.toList = w ∧ (e.scope = ScFUNC ∨ e.scope = ScGVAR)

section
variable {N N' : Nat → Text} {G : Gam} {M : Text → Text → Option CT} {T T' : Tab} {U U' : CUnit}

theorem declTy_congr {ty : Int} {d : Nat} (h : TyOk T ty) (hN : ∀ i, i < T.length → N i = N' i) : declTy N (ty, d) = declTy N' (ty, d) := by
  have : toTy N ty = toTy N' ty := by
    unfold toTy
    rcases h with h | ⟨i, e, rfl, h1, -⟩
    · simp only [List.mem_cons, List.not_mem_nil, or_false] at h
      rcases h with rfl | rfl | rfl | rfl <;> rfl
    · have := (List.getElem?_eq_some_iff.1 h1).1
      rw [show (- -(i : Int)).toNat = i by omega, hN i this]
  simp only [declTy, this]

theorem TyOk.mono {ty : Int} {l : Tab} (h : TyOk T ty) : TyOk (T ++ l) ty := by
  rcases h with h | ⟨i, e, h, h1, h2⟩
  · exact .inl h
  · exact .inr ⟨i, e, h, by rw [List.getElem?_append_left (List.getElem?_eq_some_iff.1 h1).1]; exact h1, h2⟩

theorem TyOk.not {ty : Int} (h : TyOk T ty) : ty ≠ TySTRUC ∧ ty ≠ TyDOTDOTDOT ∧ ty ≠ TyINTR := by
  rcases h with h | ⟨i, e, h, -⟩
  · simp only [List.mem_cons, List.not_mem_nil, or_false] at h
    rcases h with rfl | rfl | rfl | rfl <;> decide
  · simp only [TySTRUC, TyDOTDOTDOT, TyINTR]; omega

theorem tyOk_of {l : Tab} {k : Parse.Tok} {ty : Int} (h : TypeTok (T ++ l) k ty) (hi : ty ≠ TyINTR) (hl : ∀ e ∈ l, e.scope ≠ ScSTRC) : TyOk T ty := by
  cases h with
  | int | char | void | bool => exact .inl (by decide)
  | intr => exact absurd rfl hi
  | name h =>
    obtain ⟨⟨e, h1, -, h2⟩, -⟩ := h
    rcases getElem?_app h1 with ⟨-, h3⟩ | ⟨-, h3⟩
    · exact .inr ⟨_, e, rfl, h3, h2⟩
    · exact absurd h2 (hl e h3)

theorem tabNames_left {l : Tab} {i : Nat} (h : i < T.length) : tabNames (T ++ l) i = tabNames T i := by
  unfold tabNames
  rw [List.getElem?_append_left h]

theorem Plain.names_ok (h : Plain T) : Names (tabNames T) T := by
  intro n e he
  have hn : tabNames T n = e.name.toList := by simp [tabNames, he]
  exact ⟨hn, fun l => by rw [hn]; exact h.names e (List.mem_of_getElem? he) l⟩

theorem Plain.pre {l : Tab} (h : Plain (T ++ l)) : Plain T :=
  ⟨fun e he => h.voids e (by simp [he]), fun e he => h.names e (by simp [he]), fun e he => h.kw e (by simp [he])⟩

theorem mem_takeWhile_imp {α : Type} {q : α → Bool} {l : List α} {a : α} (h : a ∈ l.takeWhile q) : q a = true :=
  List.all_eq_true.1 List.all_takeWhile a h

/-- Other names for the indices that are not used. -/
theorem Inv.rename (h : Inv N G M T) (hN : ∀ i, i < T.length → N i = N' i)
    (ht : ∀ e ∈ T, e.type ≠ TySTRUC → e.type ≠ TyDOTDOTDOT → TyOk T e.type) (hs : ∀ e ∈ T, e.type = TySTRUC → e.scope = ScSTRC)
    (hd : ∀ e ∈ T, e.type = TyDOTDOTDOT → e.scope = ScVOID)
    (ho : ∀ (n : Nat) e, T[n]? = some e → Owner e → ∀ d ∈ (T.drop (n + 1)).take e.cnt, d.type ≠ TySTRUC ∧ (e.type = TySTRUC → d.type ≠ TyDOTDOTDOT)) :
    Inv N' G M T := by
  have low : ∀ {n : Nat} {e : Ent}, T[n]? = some e → N n = N' n := fun h => hN _ (List.getElem?_eq_some_iff.1 h).1
  have vis : ∀ {x n e}, Sees T x n e → ∀ d, declTy N (e.type, d) = declTy N' (e.type, d) := by
    intro x n e h1 d
    have hm := List.mem_of_getElem? h1.1
    refine declTy_congr (ht e hm ?_ ?_) hN
    · intro h2
      have h3 := h1.2.2.1
      rw [hs e hm h2] at h3
      exact absurd h3 (by decide)
    · intro h2
      have h3 := h1.2.2.1
      rw [hd e hm h2] at h3
      exact absurd h3 (by decide)
  refine ⟨⟨?_, ?_, h.dcl.str, ?_⟩, h.val, h.rng⟩
  · intro x n e k h1 h2 h3
    rw [← low h1.1, ← vis h1]
    exact h.dcl.var x n e k h1 h2 h3
  · intro x n e h1 h2
    rw [← low h1.1, ← vis h1, h.dcl.fn x n e h1 h2]
    congr 2
    unfold prmsOf
    apply List.map_congr_left
    intro d hd'
    have h4 := mem_takeWhile_imp hd'
    have h5 := (List.takeWhile_sublist _).subset hd'
    have h6 := ho n e h1.1 (.inl h2) d h5
    exact declTy_congr (ht d (List.mem_of_mem_drop (List.mem_of_mem_take h5)) h6.1 (by simpa using h4)) hN
  · intro i d f n e h1 h2 h3
    have h4 := h.dcl.mem i d f n e h1 h2 h3
    obtain ⟨⟨d', g1, g2, g3⟩, g4, -⟩ := h3
    rw [h1] at g1
    cases g1
    have h5 : e ∈ (T.drop (i + 1)).take d.cnt := by
      refine List.mem_of_getElem? (i := n - (i + 1)) ?_
      rw [List.getElem?_take_of_lt (by omega), List.getElem?_drop, show i + 1 + (n - (i + 1)) = n by omega]
      exact g4
    have h6 := ho i d h1 (.inr h2) e h5
    rw [← low g4, ← declTy_congr (ht e (List.mem_of_getElem? g4) h6.1 (h6.2 h2)) hN,
      ← declTy_congr (T := T) (N := N) (.inr ⟨i, d, rfl, h1, hs d (List.mem_of_getElem? h1) h2⟩) hN]
    exact h4

end
end Cmm.CText
