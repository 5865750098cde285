import Verif.Parse.InitSyn
import Verif.Opt.RefineS

/-
C70: initial values of global variables mean what is written: the parser reads exactly the grammar `Says`, constants have the
value of the expression, and the data directives represent the tree.
-/
namespace Cmm.Parse
open Cmm.Tree Cmm.Gen Cmm.Opt

variable {T : Tab} {s s' : PS} {d : DT} {ty : Int} {dim : Nat}

/-- What may follow an initial value: what does not continue an expression, and commas. -/
def Stops (r : List Tok) : Prop := ∀ t, r.head? = some t → t = Lx.comma ∨ t ∉ contToks

theorem Stops.fol {r : List Tok} (h : Stops r) : FolLt 13 r := by
  intro t ht
  rcases h t ht with rfl | h
  · decide
  · have := Ends.fol (r := [t]) (by intro x hx; cases hx; exact h) t rfl
    omega

/-- C70: if what follows cannot continue an initial value, getInit accepts exactly the initial values of the grammar, with the
tree and the labels of the grammar, and changes nothing else. -/
theorem C70 {ts r : List Tok} {m : Nat} (hs : s.toks = ts ++ r) (hr : Stops r) :
    Says s.tab (.val ty dim) s.lab ts d m ↔ getInit ty dim s = some (d, { s with toks := r, lab := m }) := by
  constructor
  · exact fun h => (h.read s r rfl rfl hs hr.fol).1
  · intro h
    obtain ⟨us, h1, -, h2⟩ := getInit_did h
    obtain rfl : ts = us := List.append_cancel_right (hs.symm.trans h1)
    exact h2

/-- Every initial value that is accepted is one of the grammar, whatever follows. -/
theorem C70_accepted (h : getInit ty dim s = some (d, s')) : ∃ ts, s.toks = ts ++ s'.toks ∧
    s' = { s with toks := s'.toks, lab := s'.lab } ∧ Says s.tab (.val ty dim) s.lab ts d s'.lab := by
  obtain ⟨ts, h1, h2, h3⟩ := getInit_did h
  exact ⟨ts, h1, h2, h3⟩

/-- The grammar is unambiguous. -/
theorem C70_unambiguous {ts : List Tok} {m m1 m2 : Nat} {d1 d2 : DT} (h1 : Says T (.val ty dim) m ts d1 m1)
    (h2 : Says T (.val ty dim) m ts d2 m2) : d1 = d2 ∧ m1 = m2 := by
  let s : PS := { toks := ts, tab := T, lab := m, curCnt := 0, maxCnt := 0, depth := 0, lastStat := none }
  have hr : Stops [] := nofun
  have g1 := (C70 (s := s) (r := []) (by simp [s]) hr).1 h1
  have g2 := (C70 (s := s) (r := []) (by simp [s]) hr).1 h2
  rw [g1] at g2
  cases g2
  exact ⟨rfl, rfl⟩

/-- A constant as an expression. -/
def constant : DT → Expr
  | .addr n => .leaf .addr n
  | .str l => .leaf .str l
  | .cnst v => .cnst v
  | _ => .cnst 0

/-- C70 for constants: a value of the type of the variable, and the value of the expression (if the optimiser removes no call and
no assignment, see C65). -/
theorem C70_constant {x : SX} {m : Nat} (h : Cst T m ty x d) : ∃ t e, Ty actual T m x [t] e ∧ Assignable t (ty, 0) ∧
    (Opt.mildE .val e = true → ∀ {σ : Type} (w : World σ) (st st' : σ) (vs : List Word), evalLR w e st = some (vs, st') →
      evalLR w (constant d) st = some (vs, st')) := by
  obtain ⟨-, t, e, e', h1, h2, h3, h4⟩ := h
  refine ⟨t, e, h1, h2, fun hm σ w st st' vs he => ?_⟩
  have hc : constant d = e' := by
    unfold cnstTree at h4
    split at h4 <;> cases h4 <;> rfl
  obtain ⟨vs', h5, h6⟩ := Opt.mildE_le (w := w) hm h3 st vs st' he
  rcases h6 with rfl | ⟨h6, -⟩
  · rw [hc]; exact h5
  · cases h6

/-- C70 for numbers: the word in the data is the value of the expression. -/
theorem C70_number {x : SX} {m : Nat} {v : Int} (h : Cst T m ty x (.cnst v)) : ∃ t e, Ty actual T m x [t] e ∧ Assignable t (ty, 0) ∧
    (Opt.mildE .val e = true → ∀ {σ : Type} (w : World σ) (st st' : σ) (vs : List Word), evalLR w e st = some (vs, st') →
      vs = [BitVec.ofInt 16 v] ∧ st' = st) := by
  obtain ⟨t, e, h1, h2, h3⟩ := C70_constant h
  refine ⟨t, e, h1, h2, fun hm σ w st st' vs he => ?_⟩
  have := h3 hm w st st' vs he
  cases this
  exact ⟨rfl, rfl⟩

/-- C70 for a variable: what stands behind `=` is an initial value of the grammar, and the data made for the variable represent it. -/
theorem C70_variable {pub : Bool} {r : List Tok} (h : getGVar ty pub s = some s') (hs : s.toks = Lx.eq :: r) :
    ∃ ts d k c v, r = ts ++ s'.toks ∧ Says (setScope s.tab (s.tab.length - 1) ScGVAR) (.val ty s.curDim) s.lab ts d k ∧
      s'.out = .data (s.tab.length - 1) d (setScope s.tab (s.tab.length - 1) ScGVAR) k :: s.out ∧
      (genData (s.tab.length - 1 : Nat) s.curDim d k).1 = c ++ [.nam (s.tab.length - 1 : Nat), v] ∧
      s'.lab = (genData (s.tab.length - 1 : Nat) s.curDim d k).2 ∧
      ∀ p q, (∀ l ∈ dataLabs p, l ≤ k) → Rep (p ++ (c ++ [.nam (s.tab.length - 1 : Nat), v] ++ q)) d [v] := by
  simp only [getGVar, hs] at h
  simp only [Option.bind_eq_bind, Option.bind_eq_some_iff] at h
  obtain ⟨⟨d, s1⟩, h1, h⟩ := h
  obtain ⟨ts, g1, g2, g3⟩ := C70_accepted h1
  rw [next_eq hs] at g1 g2 g3
  simp only at g1 g2 g3
  split at h
  · cases h
  · next hb =>
    have hcur : s1.curDim = s.curDim := by rw [g2]
    have hout : s1.out = s.out := by rw [g2]
    have htab : s1.tab = setScope s.tab (s.tab.length - 1) ScGVAR := by rw [g2]
    obtain ⟨f1, f2⟩ := getInit_shape h1
    simp only [hcur] at hb h
    have hw := init_wf f1 hb
    obtain ⟨c, v, e1, -⟩ := C57_data (s.tab.length - 1 : Nat) s.curDim d s1.lab hw f2 [] [] nofun
    have hR : ∀ p q, (∀ l ∈ dataLabs p, l ≤ s1.lab) → Rep (p ++ (c ++ [.nam (s.tab.length - 1 : Nat), v] ++ q)) d [v] := by
      intro p q hp
      obtain ⟨c', v', e2, e3⟩ := C57_data (s.tab.length - 1 : Nat) s.curDim d s1.lab hw f2 p q hp
      have : v' = v := by
        rw [e1] at e2
        simpa using (congrArg List.getLast? e2).symm
      rw [e1] at e3
      exact this ▸ e3
    have hfin : s'.toks = s1.toks ∧ s'.out = .data (s.tab.length - 1) d s1.tab s1.lab :: s1.out ∧
        s'.lab = (genData (s.tab.length - 1 : Nat) s.curDim d s1.lab).2 := by
      split at h
      · simp only [Option.bind_eq_some_iff] at h
        obtain ⟨e, he, h⟩ := h
        split at h
        · cases h
        · split at h
          · cases h; exact ⟨rfl, rfl, rfl⟩
          · cases h
      · cases h; exact ⟨rfl, rfl, rfl⟩
    refine ⟨ts, d, s1.lab, c, v, ?_, g3, ?_, e1, hfin.2.2, hR⟩
    · rw [hfin.1]; exact g1
    · rw [hfin.2.1, htab, hout]

/-! ### Examples -/

theorem cst_int {m : Nat} {v : Int} (hv : optExp (.cnst v) = some (.cnst v)) : Cst T m TyINT (.int v) (.cnst v) :=
  ⟨.up (.up (.up (.up (.up (.up (.up (.up (.up (.up (.up (.up .int))))))))))), _, _, _, .int, .same, hv, rfl⟩

/-- `{{1, 2}, null}` for `int[][]` -/
example : Says [] (.val TyINT 2) 0
    [Lx.lbrc, Lx.lbrc, .int 1, Lx.comma, .int 2, Lx.rbrc, Lx.comma, Lx.NUL, Lx.rbrc]
    (.list (.semi (.list (.semi (.cnst 1) (.cnst 2)) 0) (.cnst 0)) 0) 0 :=
  .list (ts := [Lx.lbrc, .int 1, Lx.comma, .int 2, Lx.rbrc, Lx.comma, Lx.NUL])
    (.more (ts := [Lx.lbrc, .int 1, Lx.comma, .int 2, Lx.rbrc])
      (.one (.list (ts := [.int 1, Lx.comma, .int 2])
        (.more (ts := [.int 1]) (.one (.cst (.inl rfl) (cst_int (by decide +kernel)))) (.cst (.inl rfl) (cst_int (by decide +kernel))))))
      .nulA)

/-- `array(2, 3)` for `char[][]`: bytes in the last dimension. -/
example : Says [] (.val TyCHAR 2) 0 [Lx.ARRAY, Lx.lpar, .int 2, Lx.comma, .int 3, Lx.rpar]
    (.arry (.semi (.cnst 3) (.cnst 2)) 2) 0 :=
  .arr (ts := [.int 2, Lx.comma, .int 3])
    (.sizes (cst_int (by decide +kernel)) (by decide) (.size (cst_int (by decide +kernel)) (by decide)))

/-- `{1, "x"}` for `struct S { int a; char[] s; };` -/
example : Says [⟨"S", ScSTRC, TySTRUC, 0, 2, false⟩, ⟨"a", ScVOID, TyINT, 0, 0, false⟩, ⟨"s", ScVOID, TyCHAR, 1, 0, false⟩] (.val 0 0) 0
    [Lx.lbrc, .int 1, Lx.comma, .str "x", Lx.rbrc] (.list (.semi (.cnst 1) (.str 1)) 9999) 1 :=
  .struct (ts := [.int 1, Lx.comma, .str "x"]) (j := 3) (by decide)
    (.next (ts := [.int 1]) (.first (i := 1) rfl rfl (.fldC (.inl rfl) (cst_int (by decide +kernel)))) rfl rfl .fldS) nofun

/-- `1 + 2 * 3` for `int` is 7, and the condition of C70_number is met. -/
example : ∃ x e, x.toks = [.int 1, Lx.plus, .int 2, Lx.star, .int 3] ∧ Cst [] 0 TyINT x (.cnst 7) ∧
    Ty actual [] 0 x [(TyINT, 0)] e ∧ mildE .val e = true := by
  have h : Ty actual [] 0 (.bin Lx.plus (.int 1) (.bin Lx.star (.int 2) (.int 3))) [(TyINT, 0)]
      (.bin .add (.cnst 1) (.bin .mul (.cnst 2) (.cnst 3))) :=
    .bin (k := 3) (binOp_iff.1 rfl) (.arith (by decide) (.inl rfl) (.inl rfl)) .int
      (.bin (k := 2) (binOp_iff.1 rfl) (.arith (by decide) (.inl rfl) (.inl rfl)) .int .int)
  refine ⟨_, _, rfl, ⟨?_, _, _, .cnst 7, h, .same, by decide +kernel, rfl⟩, h, by decide +kernel⟩
  exact (SX.At.bin (k := 3) (op := .add) (binOp_iff.1 rfl) (.up (.up (.up .int))) (.bin (k := 2) (op := .mul) (binOp_iff.1 rfl) (.up (.up .int)) (.up .int))).mono
    (by decide)

/-- C70 without its condition is false: `int v = f() * 0;` is accepted, although the expression is not a constant: it calls `f`. -/
theorem C70_constant_false : ∃ (T : Tab) (x : SX) (e : Expr), x.toks = [.name "f", Lx.lpar, Lx.rpar, Lx.star, .int 0] ∧
    Cst T 0 TyINT x (.cnst 0) ∧ Ty actual T 0 x [(TyINT, 0)] e ∧
    ∃ (w : World Nat), evalLR w e 0 = some ([0], 1) := by
  have h : Ty actual [⟨"f", ScPROT, TyINT, 0, 0, false⟩] 0 (.bin Lx.star (.call0 "f") (.int 0)) [(TyINT, 0)]
      (.bin .mul (.func0 0) (.cnst 0)) :=
    .bin (k := 2) (binOp_iff.1 rfl) (.arith (by decide) (.inl rfl) (.inl rfl))
      (.call0 (n := 0) (e := ⟨"f", ScPROT, TyINT, 0, 0, false⟩) ⟨rfl, rfl, by decide, fun m e' h1 h2 => by
        obtain ⟨h3, -⟩ := List.getElem?_eq_some_iff.1 h2
        exact absurd h3 (by simp only [List.length_singleton]; omega)⟩ (by decide) (by decide) (.done (by decide))) .int
  refine ⟨_, _, _, rfl, ⟨?_, _, _, .cnst 0, h, .same, by decide +kernel, rfl⟩, h,
    ⟨fun _ _ _ => 0, fun _ _ _ s => s, fun _ _ _ _ => 0, fun _ _ _ _ s => s, fun _ _ s => some (3, s + 1), id, id, fun _ _ _ => true⟩, ?_⟩
  · exact (SX.At.bin (k := 2) (op := .mul) (binOp_iff.1 rfl) (.up (.up .call0)) (.up .int)).mono (by decide)
  · decide +kernel

end Cmm.Parse
