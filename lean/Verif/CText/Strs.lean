import Verif.CText.ScopeFn
import Verif.CText.ReadStmt

/-
Strings in the C text: the macros of genStrLit and the names that stand for them, for Verif/Props/C80.lean.
-/
namespace Cmm.CText
open Cmm.Tree
open Cmm.Parse (Spot ExpAt Ent Tab Assignable TypeTok Sees Cond ForCond ForRini)

/-! ### The model -/

/-- cCode.c:618-622 genStrLit without _RTC. -/
def genStrLit (lab : Nat) (s : Text) : Text := t!"#define " ++ strLab lab ++ t!" \"" ++ s ++ t!"\"\n"

/-- cCode.c:602-609 newStrLab and 626-631 genStr for the strings that the parser meets one after the other (parser.c:512); `m` strings have been there
before. As in the trees of the parser model the first label is 1 (0 in cCode.c). -/
def genStrs (m : Nat) : List String → Text
  | [] => []
  | s :: ss => genStrLit (m + 1) s.toList ++ genStrs (m + 1) ss

/-! ### Specification -/

/-- The strings of a source in their order. -/
def strsOf (ts : List Parse.Tok) : List String := ts.filterMap fun | .str s => some s | _ => none

/-- Definitions of macros whose value is one string (C11 6.10.3). -/
inductive Defs : Text → List (Text × Text) → Prop
  | nil : Defs [] []
  | cons {w s r D} : IsWord w → '\n' ∉ s → Defs r D → Defs (t!"#define " ++ w ++ t!" \"" ++ s ++ t!"\"\n" ++ r) ((w, s) :: D)

/-- What a token becomes by replacement of macros: a string, or itself. Strings do not contain macros. -/
def expand (D : List (Text × Text)) : Tok → Tok ⊕ Text
  | .word w => match D.lookup w with | some s => .inr s | none => .inl (.word w)
  | t => .inl t

/-- The strings of a text behind replacement. -/
def strings (ts : List (Tok ⊕ Text)) : List Text := ts.filterMap fun | .inr s => some s | _ => none

/-! ### Labels -/

/-- The value of decimal digits. -/
def decVal (t : Text) : Nat := t.foldl (fun v c => v * 10 + (c.toNat - 48)) 0

theorem digit_val {k : Nat} (h : k < 10) : (Char.ofNat (48 + k)).toNat - 48 = k := by
  have : ∀ k : Fin 10, (Char.ofNat (48 + k.1)).toNat - 48 = k.1 := by decide
  exact this ⟨k, h⟩

theorem decVal_dec (n : Nat) : decVal (dec n) = n := by
  induction n using dec.induct with
  | case1 n h => rw [dec, if_pos h]; simp only [decVal, List.foldl_cons, List.foldl_nil]; rw [digit_val h]; omega
  | case2 n h ih =>
    rw [dec, if_neg h]
    unfold decVal at ih ⊢
    rw [List.foldl_append, ih]
    simp only [List.foldl_cons, List.foldl_nil]
    rw [digit_val (Nat.mod_lt _ (by omega))]
    omega

theorem dec_inj {a b : Nat} (h : dec a = dec b) : a = b := by rw [← decVal_dec a, h, decVal_dec]

theorem strLab_inj {a b : Nat} (h : strLab a = strLab b) : a = b := by
  unfold strLab at h
  exact dec_inj (List.append_cancel_left (List.append_cancel_right h))

theorem strLab_ne {c : Char} {cs : Text} (h : c ≠ '_') (l : Nat) : c :: cs ≠ strLab l := by
  unfold strLab
  intro he
  simp only [List.cons_append, List.cons.injEq] at he
  exact h he.1

/-! ### The labels of the tree are those of the strings, in their order -/

def lits (os : List Occ) : List Nat := os.filterMap fun | .lit l => some l | _ => none

theorem lits_append (a b : List Occ) : lits (a ++ b) = lits a ++ lits b := List.filterMap_append
theorem strsOf_append (a b : List Parse.Tok) : strsOf (a ++ b) = strsOf a ++ strsOf b := List.filterMap_append

/-- `ts` with the occurrences `os` uses the labels between `m` and `m'`. -/
def Num (m : Nat) (ts : List Parse.Tok) (os : List Occ) (m' : Nat) : Prop :=
  lits os = List.range' (m + 1) (strsOf ts).length ∧ m' = m + (strsOf ts).length

theorem Num.append {m ts os m1 us os' m2} (h : Num m ts os m1) (h' : Num m1 us os' m2) : Num m (ts ++ us) (os ++ os') m2 := by
  obtain ⟨h1, rfl⟩ := h
  obtain ⟨h2, rfl⟩ := h'
  refine ⟨?_, by rw [strsOf_append, List.length_append]; omega⟩
  rw [lits_append, strsOf_append, List.length_append, h1, h2]
  have : m + (strsOf ts).length + 1 = m + 1 + 1 * (strsOf ts).length := by omega
  rw [this, List.range'_append]

theorem Num.cons {m t ts os m'} (ht : strsOf [t] = []) (h : Num m ts os m') : Num m (t :: ts) os m' := by
  have := Num.append (m := m) (ts := [t]) (os := []) (m1 := m) (by simp [Num, ht, lits]) h
  simpa using this

theorem Num.nil {m} : Num m [] [] m := ⟨rfl, rfl⟩

theorem Num.quiet {m ts os} (ht : strsOf ts = []) (ho : lits os = []) : Num m ts os m := by simp [Num, ht, ho]

theorem Num.snoc {m t ts os m'} (ht : strsOf [t] = []) (h : Num m ts os m') : Num m (ts ++ [t]) os m' := by
  have := h.append (us := [t]) (os' := []) (Num.quiet ht rfl)
  simpa using this

theorem dims_str (d : Nat) : strsOf (Parse.dimToks d) = [] := by
  induction d with
  | zero => rfl
  | succ d ih => simpa [Parse.dimToks, strsOf] using ih

theorem type_str {T : Tab} {k : Parse.Tok} {t : Int} (h : TypeTok T k t) : strsOf [k] = [] := by cases h <;> rfl

theorem bin_str {k : Nat} {t : Parse.Tok} {op : Tree.Bin} (h : Parse.IsBin k t op) : strsOf [t] = [] ∧ op ≠ .dot := by
  obtain ⟨row, h1, -, h2⟩ := h
  have : ∀ row ∈ Parse.binRows, ∀ q ∈ row, (strsOf [q.1] = [] ∧ q.2 ≠ .dot) := by decide
  exact this row (List.mem_of_getElem? h1) _ h2

theorem ty_num {R : Parse.Rules} (hR : R = Parse.actual) {T : Tab} {m : Nat} {x : Parse.SX} {ts : List (Int × Nat)} {e : Expr} (h : Parse.Ty R T m x ts e) :
    Num m x.toks (occ e) (m + x.strs) := by
  subst hR
  induction h with
  | int => exact .quiet rfl rfl
  | chr => exact .quiet rfl rfl
  | log => exact .quiet rfl rfl
  | @str m v => exact ⟨rfl, rfl⟩
  | nul => exact .quiet rfl rfl
  | sizeof h1 _ =>
    exact .cons rfl (.cons rfl (.cons (type_str h1) (.snoc rfl (.quiet (dims_str _) rfl))))
  | addrof => exact .quiet rfl rfl
  | var _ h2 =>
    refine .quiet rfl ?_
    generalize Ent.scope _ = s at h2
    cases h2 <;> rfl
  | call0 => exact .quiet rfl rfl
  | call _ _ _ _ _ ih => exact .cons rfl (.cons rfl (.snoc rfl ih))
  | args _ _ ih1 ih2 =>
    simp only [occ, Parse.SX.strs, reduceCtorEq, if_false]
    rw [← Nat.add_assoc]
    exact ih1.append (.cons rfl ih2)
  | par _ ih => exact .cons rfl (.snoc rfl ih)
  | conv hc _ ih => cases hc <;> exact .cons rfl (.cons rfl (.snoc rfl ih))
  | idx _ _ he ih1 ih2 =>
    have hd : ∀ {t op}, Parse.Elem t op → op ≠ .dot := by intro t op h; cases h <;> nofun
    simp only [occ, Parse.SX.strs, if_neg (hd he)]
    rw [← Nat.add_assoc]
    exact ih1.append (.cons rfl (.snoc rfl ih2))
  | @fld m a i d f n e ea _ _ _ _ ih =>
    simp only [occ, if_true]
    have := ih.append (Num.quiet (ts := [Parse.Lx.dot, .name f]) (os := []) rfl rfl)
    rw [List.append_nil] at this
    exact this
  | pre hp _ ih => cases hp <;> exact .cons rfl ih
  | bin hb _ _ _ ih1 ih2 =>
    obtain ⟨h1, h2⟩ := bin_str hb
    simp only [occ, Parse.SX.strs, if_neg h2]
    rw [← Nat.add_assoc]
    exact ih1.append (.cons h1 ih2)
  | @ass m l a el r b er e hty hlv _ _ hst ih1 ih2 =>
    have key : ∀ {os}, lits os = lits (occ el) → Num m (l.toks ++ Parse.Lx.eq :: r.toks) (os ++ occ er) (m + l.strs + r.strs) := by
      intro os h
      exact Num.append ⟨by rw [h]; exact ih1.1, ih1.2⟩ (.cons rfl ih2)
    simp only [Parse.SX.toks, Parse.SX.strs]
    rw [← Nat.add_assoc]
    cases hst with
    | @var k n =>
      refine key (os := [.obj (k = .loc ∨ k = .prm) n.toNat]) ?_
      by_cases hk' : k = .str
      · subst hk'; exact absurd hlv (not_lv hty rfl)
      · cases k <;> first | exact absurd rfl hk' | rfl
    | @mem op a i =>
      simp only [occ]
      refine key ?_
      simp only [occ]
      split
      · simp
      · rfl
  | com _ _ ih1 ih2 =>
    simp only [occ, Parse.SX.strs, reduceCtorEq, if_false]
    rw [← Nat.add_assoc]
    exact ih1.append (.cons rfl ih2)

variable {strict : Bool} {F : Int × Nat} {l : Bool} {p p' p1 : Spot} {ts ps : List Parse.Tok}

theorem exp_num {k : Nat} {x : Parse.SX} {t : Int × Nat} {e : Expr} (h : ExpAt p k x t e) : Num p.lab x.toks (occ e) (p.lit x).lab := ty_num rfl h.ty

theorem cond_num {e : Expr} (h : Cond p ts e p') : Num p.lab ts (occ e) p'.lab := by
  cases h with
  | mk h => exact .cons rfl (.snoc rfl (exp_num h))

theorem fcond_num {e : Option Expr} (h : ForCond p ts e p') : Num p.lab ts (occO e) p'.lab := by
  cases h with
  | none => exact .nil
  | exp h => exact exp_num h

theorem frini_num {e : Option Expr} (h : ForRini p ts e p') : Num p.lab ts (occO e) p'.lab := by
  cases h with
  | none => exact .nil
  | exp h => exact exp_num h

theorem declr_num {ty : Int} {dim : Nat} {v : VS} (h : DeclrV ty dim p ts v p') : Num p.lab ts v.occ p'.lab := by
  cases h with
  | plain => exact .quiet rfl rfl
  | init _ h _ =>
    have := exp_num h
    exact .cons rfl (.cons rfl (Num.append (ts := []) (os := [.obj _ _]) (m1 := p.lab) (.quiet rfl rfl) this))

theorem declrs_num {ty : Int} {dim : Nat} {v : VS} (h : DeclrsV ty dim p ts v p') : Num p.lab ts v.occ p'.lab := by
  induction h with
  | one h => exact declr_num h
  | more _ h ih => exact ih.append (.cons rfl (declr_num h))

theorem ldecl_num {v : VS} (h : LocalDeclV p ts v p') : Num p.lab ts v.occ p'.lab := by
  cases h with
  | mk h1 _ _ h4 =>
    have := declrs_num h4
    exact .cons (type_str h1) (Num.append (os := []) (.quiet (dims_str _) rfl) this)

theorem fini_num {v : Option VS} (h : ForIniV p ts v p') : Num p.lab ts (occV v) p'.lab := by
  cases h with
  | none => exact .nil
  | decl h => exact ldecl_num h
  | exp h _ => exact exp_num h

theorem occ_stOf (a : Option VS) : (stOfV a).occ = occV a := by cases a <;> rfl
theorem occ_join (a b : Option VS) : occV (joinV a b) = occV a ++ occV b := by cases a <;> cases b <;> simp [joinV, occV, VS.occ]
theorem occ_block (a : Option VS) : occV (blockOfV a) = occV a := by
  cases a with
  | none => rfl
  | some v =>
    cases v with
    | seq k s t => cases k <;> rfl
    | _ => rfl

/-- What has been there before the statement. -/
def NTV.before : NTV → List Occ
  | .stat _ => []
  | .items a => occV a

theorem syn_num {nt : NTV} {v : Option VS} (h : SynV strict F nt l p ts v p') : ∃ os, occV v = nt.before ++ os ∧ Num p.lab ts os p'.lab := by
  induction h with
  | null => exact ⟨[], rfl, .quiet rfl rfl⟩
  | exp h => exact ⟨_, rfl, .snoc rfl (exp_num h)⟩
  | ret => exact ⟨[], rfl, .quiet rfl rfl⟩
  | retV _ h _ => exact ⟨_, rfl, .cons rfl (.snoc rfl (exp_num h))⟩
  | brk => exact ⟨[], rfl, .quiet rfl rfl⟩
  | cnt => exact ⟨[], rfl, .quiet rfl rfl⟩
  | ifs hc _ ih =>
    obtain ⟨os, h1, h2⟩ := ih
    refine ⟨_, rfl, ?_⟩
    simp only [VS.occ, occ_stOf, h1, NTV.before, List.nil_append]
    exact .cons rfl ((cond_num hc).append h2)
  | els hc _ _ ih1 ih2 =>
    obtain ⟨os, h1, h2⟩ := ih1
    obtain ⟨os', h3, h4⟩ := ih2
    refine ⟨_, rfl, ?_⟩
    simp only [VS.occ, occ_stOf, h1, h3, NTV.before, List.nil_append, List.append_eq, List.append_assoc]
    exact .cons rfl ((cond_num hc).append (h2.append (.cons rfl h4)))
  | whl hc _ ih =>
    obtain ⟨os, h1, h2⟩ := ih
    refine ⟨_, rfl, ?_⟩
    simp only [VS.occ, occ_stOf, h1, NTV.before, List.nil_append, occO, List.append_nil]
    exact .cons rfl ((cond_num hc).append h2)
  | dos _ hc ih =>
    obtain ⟨os, h1, h2⟩ := ih
    refine ⟨_, rfl, ?_⟩
    simp only [VS.occ, occ_stOf, h1, NTV.before, List.nil_append]
    exact .cons rfl (h2.append (.cons rfl (.snoc rfl (cond_num hc))))
  | «for» h1 h2 h3 _ ih =>
    obtain ⟨os, h4, h5⟩ := ih
    refine ⟨_, rfl, ?_⟩
    simp only [VS.occ, occ_stOf, h4, NTV.before, List.nil_append, List.append_assoc]
    exact .cons rfl (.cons rfl ((fini_num h1).append (.cons rfl ((fcond_num h2).append (.cons rfl ((frini_num h3).append (.cons rfl h5)))))))
  | block _ _ ih =>
    obtain ⟨os, h1, h2⟩ := ih
    refine ⟨os, ?_, .cons rfl (.snoc rfl h2)⟩
    rw [occ_block, h1]
    rfl
  | done => exact ⟨[], by simp [NTV.before], .nil⟩
  | decl hd _ ih =>
    obtain ⟨os, h1, h2⟩ := ih
    refine ⟨_, ?_, (ldecl_num hd).append (.cons rfl h2)⟩
    rw [h1]
    simp only [NTV.before, occ_join, List.append_assoc]
    rfl
  | stat _ _ _ ih1 ih2 =>
    obtain ⟨os, h1, h2⟩ := ih1
    obtain ⟨os', h3, h4⟩ := ih2
    refine ⟨_, ?_, h2.append h4⟩
    rw [h3]
    simp [NTV.before, occ_join, h1]

/-! ### The words of the text that are macros -/

variable {N : Nat → Text} {g : Text → Option Text}

/-- What `g` finds in the words of a text. -/
def found (g : Text → Option Text) (ts : List Tok) : List Text := ts.filterMap fun | .word w => g w | _ => none

theorem found_append (a b : List Tok) : found g (a ++ b) = found g a ++ found g b := List.filterMap_append
theorem found_pun (q : P) (a : List Tok) : found g (.pun q :: a) = found g a := rfl
theorem found_num (q : Text) (a : List Tok) : found g (.num q :: a) = found g a := rfl
theorem found_nil : found g [] = [] := rfl
theorem found_none {w : Text} (h : g w = none) (a : List Tok) : found g (.word w :: a) = found g a := by simp [found, h]
theorem found_star (n : Nat) : found g (List.replicate n (.pun .star)) = [] := by
  induction n with
  | zero => rfl
  | succ n ih => exact ih

/-- Only labels are found. -/
structure OnlyLabs (g : Text → Option Text) (N : Nat → Text) : Prop where
  kw : ∀ c cs, c ≠ '_' → g (c :: cs) = none
  empty : g [] = none
  name : ∀ n, g (N n) = none

theorem found_ty (hg : OnlyLabs g N) (ty : Int) (dim : Nat) (b : Bool) : found g (ttoks (toTy N ty) dim b) = [] := by
  have : g (toTy N ty).word = none := by
    unfold toTy
    repeat' split
    all_goals first | exact hg.kw _ _ (by decide) | exact hg.name _
  unfold ttoks tyToks
  rw [found_append, found_star]
  simp [found, this]

/-- The strings of occurrences. -/
def litsIn (g : Text → Option Text) (os : List Occ) : List Text := (lits os).filterMap fun l => g (strLab l)

theorem litsIn_append (a b : List Occ) : litsIn g (a ++ b) = litsIn g a ++ litsIn g b := by simp [litsIn, lits_append]

theorem found_one (w : Text) : found g [.word w] = (g w).toList := by cases h : g w <;> simp [found, h]
theorem litsIn_one (l : Nat) : litsIn g [.lit l] = (g (strLab l)).toList := by cases h : g (strLab l) <;> simp [litsIn, lits, h]

theorem fld_none (hg : OnlyLabs g N) (e : Expr) : g (fldName N e) = none := by
  unfold fldName
  split
  · exact hg.name _
  · exact hg.empty

theorem found_toEA (hg : OnlyLabs g N) : ∀ e : Expr, found g (toks (toEA N e).1) = litsIn g (occ e) ∧ found g (atoks (toEA N e).2) = litsIn g (occ e) := by
  have obj : ∀ b n, litsIn g [Occ.obj b n] = [] := fun _ _ => rfl
  have objc : ∀ b n os, litsIn g (Occ.obj b n :: os) = litsIn g os := fun _ _ _ => rfl
  intro e
  induction e with
  | cnst v =>
    have : found g (toks (.cnst v)) = [] := by rw [toks]; split <;> rfl
    exact ⟨this, by rw [show litsIn g (occ (.cnst v)) = [] from rfl]; simpa [toEA, atoks] using this⟩
  | leaf k n =>
    have key : ∀ x : Exp, (x = .var (N n.toNat) ∨ x = .addr (N n.toNat)) → found g (toks x) = [] ∧ found g (atoks (.one x)) = [] := by
      rintro x (rfl | rfl)
      · simp [toks, atoks, found_none (hg.name _), found_nil]
      · simp [toks, atoks, found_pun, found_none (hg.name _), found_none (hg.kw _ _ (by decide : 'i' ≠ '_')), found_nil]
    cases k
    case str => exact ⟨by simp [toEA, toks, occ, found_one, litsIn_one], by simp [toEA, toks, atoks, occ, found_one, litsIn_one]⟩
    all_goals first | exact key _ (.inl rfl) | exact key _ (.inr rfl)
  | func0 f => simp [toEA, toks, atoks, occ, obj, found_none (hg.name _), found_pun, found_nil]
  | func f a ih => simp [toEA, toks, atoks, occ, objc, found_none (hg.name _), found_pun, found_append, found_nil, ih.2]
  | un op e ih => cases op <;> simp [toEA, toks, atoks, occ, found_pun, found_num, found_append, found_nil, ih.1]
  | bin op l r ih1 ih2 =>
    cases op <;> simp [toEA, toMem, toBi, toks, atoks, occ, litsIn_append, found_pun, found_append, found_nil, found_none (fld_none hg _),
      ih1.1, ih2.1, ih1.2, ih2.2]
  | assV k n r ih => simp [toEA, toks, atoks, occ, objc, found_none (hg.name _), found_pun, found_append, found_nil, ih.1]
  | assM op a i r ih1 ih2 ih3 =>
    cases op <;> simp [toEA, toMem, toks, atoks, occ, litsIn_append, found_pun, found_append, found_nil, found_none (fld_none hg _), ih1.1, ih2.1, ih3.1]

theorem found_exp (hg : OnlyLabs g N) (e : Expr) : found g (toks (toE N e)) = litsIn g (occ e) := (found_toEA hg e).1

theorem found_opt (hg : OnlyLabs g N) (e : Option Expr) : found g (toksO (e.map (toE N))) = litsIn g (occO e) := by
  cases e with
  | none => rfl
  | some e => exact found_exp hg e

theorem found_est (x : Exp) : found g (stoks (.exp x)) = found g (toks x) := by
  cases x with
  | cnst v => rw [toks]; split <;> rfl
  | _ => simp [stoks, found_append, found_pun, found_nil]

theorem found_stm (hg : OnlyLabs g N) (v : VS) : found g (stoks (toS N v)) = litsIn g v.occ := by
  have kw : ∀ c cs a, c ≠ '_' → found g (.word (c :: cs) :: a) = found g a := fun c cs a h => found_none (hg.kw c cs h) a
  induction v with
  | null => rfl
  | exp e => rw [toS, found_est, found_exp hg]; rfl
  | ifs c s ih => simp [toS, stoks, VS.occ, kw, found_pun, found_append, found_nil, found_exp hg, litsIn_append, ih]
  | els c s t ih1 ih2 => simp [toS, stoks, VS.occ, kw, found_pun, found_append, found_nil, found_exp hg, litsIn_append, ih1, ih2]
  | whl c b re ih => simp [toS, stoks, VS.occ, kw, found_pun, found_append, found_nil, found_opt hg, litsIn_append, ih]
  | dos b c ih => simp [toS, stoks, VS.occ, kw, found_pun, found_append, found_nil, found_exp hg, litsIn_append, ih]
  | brk => exact found_none (hg.kw _ _ (by decide)) _
  | cnt => exact found_none (hg.kw _ _ (by decide)) _
  | ret e => simp [toS, stoks, VS.occ, kw, found_pun, found_append, found_nil, found_opt hg]
  | var n ty dim => simp [toS, stoks, VS.occ, found_append, found_ty hg, found_none (hg.name _), found_pun, found_nil, litsIn, lits]
  | seq k s t ih1 ih2 => cases k <;> simp [toS, stoks, VS.occ, found_pun, found_append, found_nil, litsIn_append, ih1, ih2]

theorem found_unblk (s : Stm) : found g (stoks (unblk s)) = found g (stoks s) := by
  unfold unblk
  split <;> simp [stoks, found_pun, found_append, found_nil]

theorem found_pars (hg : OnlyLabs g N) (prm : Tab) (h : ∀ e ∈ prm, g e.name.toList = none) : found g (parstoks (prm.map (toPar N))) = [] := by
  have one : ∀ e ∈ prm, found g (partoks (toPar N e)) = [] := by
    intro e he
    unfold toPar
    split
    · rfl
    · simp [partoks, found_append, found_ty hg, found_none (h e he), found_nil]
  clear h
  induction prm with
  | nil => rfl
  | cons e prm ih =>
    have ih := ih fun e he => one e (List.mem_cons_of_mem _ he)
    have he := one e (List.mem_cons_self ..)
    cases prm with
    | nil => exact he
    | cons d prm =>
      simp only [List.map_cons, parstoks, found_append, found_pun] at ih ⊢
      rw [he, ih]
      rfl

theorem found_fn (hg : OnlyLabs g N) {ty : Int} {dim : Nat} {pub : Bool} {x : String} {prm : Tab} {b : Option VS} (hx : g x.toList = none)
    (h : ∀ e ∈ prm, g e.name.toList = none) : found g (fntoks (toFn N ty dim pub x prm b)) = litsIn g (occV b) := by
  have kw : ∀ a, found g (.word t!"static" :: a) = found g a := fun a => found_none (hg.kw _ _ (by decide)) a
  cases pub <;> simp [fntoks, dcltoks, toFn, found_append, found_pun, found_ty hg, kw, found_none hx, found_pars hg prm h, found_unblk, found_stm hg, found_nil,
    occ_stOf, occ_block]

/-! ### Definitions -/

/-- The macros of strings behind `m` others. -/
def macros (m : Nat) : List String → List (Text × Text)
  | [] => []
  | s :: ss => (strLab (m + 1), s.toList) :: macros (m + 1) ss

theorem genStrs_defs {m : Nat} {ss : List String} (h : ∀ s ∈ ss, '\n' ∉ s.toList) : Defs (genStrs m ss) (macros m ss) := by
  induction ss generalizing m with
  | nil => exact .nil
  | cons s ss ih => exact .cons (strLab_word _) (h s (by simp)) (ih fun s hs => h s (List.mem_cons_of_mem _ hs))

theorem split_at {c : Char} {a b a' b' : Text} (ha : c ∉ a) (ha' : c ∉ a') (h : a ++ c :: b = a' ++ c :: b') : a = a' ∧ b = b' := by
  induction a generalizing a' with
  | nil =>
    cases a' with
    | nil => simpa using h
    | cons d a' => simp at h ha'; exact absurd h.1 ha'.1
  | cons d a ih =>
    cases a' with
    | nil => simp at h ha; exact absurd h.1.symm ha.1
    | cons d' a' =>
      simp only [List.cons_append, List.cons.injEq, List.mem_cons, not_or] at h ha ha'
      obtain ⟨h1, h2⟩ := ih ha.2 ha'.2 h.2
      exact ⟨by rw [h.1, h1], h2⟩

theorem word_space {w : Text} (h : IsWord w) : ' ' ∉ w := by
  cases w with
  | nil => simp
  | cons c cs =>
    intro hm
    rcases List.mem_cons.mp hm with he | hm
    · have := h.1; rw [← he] at this; exact absurd this (by decide)
    · exact absurd (h.2 _ hm) (by decide)

theorem Defs.unique {t : Text} {D D' : List (Text × Text)} (h : Defs t D) (h' : Defs t D') : D = D' := by
  induction h generalizing D' with
  | nil => generalize he : ([] : Text) = t at h'; cases h' with
    | nil => rfl
    | cons => simp at he
  | @cons w s r D hw hs _ ih =>
    generalize he : t!"#define " ++ w ++ t!" \"" ++ s ++ t!"\"\n" ++ r = t at h'
    cases h' with
    | nil => simp at he
    | @cons w' s' r' D' hw' hs' hr' =>
      simp only [List.append_assoc, List.cons_append, List.nil_append, List.cons.injEq, true_and] at he
      obtain ⟨e1, e2⟩ := split_at (word_space hw) (word_space hw') he
      simp only [List.cons.injEq, true_and] at e2
      have e3 : (s ++ t!"\"") ++ '\n' :: r = (s' ++ t!"\"") ++ '\n' :: r' := by simpa using e2
      obtain ⟨e4, e5⟩ := split_at (by simp [hs]) (by simp [hs']) e3
      subst e5
      rw [ih hr', e1, List.append_cancel_right e4]

theorem macros_lookup_le {m k : Nat} (h : k ≤ m) (ss : List String) : (macros m ss).lookup (strLab k) = none := by
  induction ss generalizing m with
  | nil => rfl
  | cons s ss ih =>
    have : (strLab k == strLab (m + 1)) = false := by
      simp only [beq_eq_false_iff_ne]
      intro he
      have := strLab_inj he
      omega
    simp [macros, List.lookup, this, ih (m := m + 1) (by omega)]

theorem macros_lookup {m : Nat} (ss : List String) (g : Text → Option Text) (hgm : ∀ k, m < k → g (strLab k) = (macros m ss).lookup (strLab k)) :
    (List.range' (m + 1) ss.length).filterMap (fun k => g (strLab k)) = ss.map String.toList := by
  induction ss generalizing m g with
  | nil => rfl
  | cons s ss ih =>
    simp only [List.length_cons, List.range'_succ, List.map_cons]
    have h1 : g (strLab (m + 1)) = some s.toList := by rw [hgm _ (by omega)]; simp [macros]
    rw [List.filterMap_cons, h1]
    simp only
    rw [ih]
    intro k hk
    have : (strLab k == strLab (m + 1)) = false := by
      simp only [beq_eq_false_iff_ne]
      intro he
      have := strLab_inj he
      omega
    rw [hgm k (by omega)]
    simp [macros, List.lookup, this]

theorem strings_expand (D : List (Text × Text)) (ts : List Tok) : strings (ts.map (expand D)) = found (fun w => D.lookup w) ts := by
  unfold strings found
  rw [List.filterMap_map]
  congr 1
  funext t
  cases t with
  | word w => simp only [Function.comp, expand]; cases D.lookup w <;> rfl
  | num w => rfl
  | pun q => rfl

end Cmm.CText
