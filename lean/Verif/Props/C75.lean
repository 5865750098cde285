import Verif.CText.DataCst
import Verif.Props.C70

/-
C75: the C translator turns the initial value of a global variable into C definitions that are correct C (types, order, one member each) and mean
the same data; every object it defines is used exactly once. Model: Verif/CText/Data.lean (src/cCode.c:421-598).

False as a whole: an address of a name inside a list or as a size ends the translator with an internal error though the parser accepts it
(C75_addr_false), and arrays of void are printed (C75_void_false).
-/
namespace Cmm.CText
open Cmm.Gen (DT dimTree)
open Cmm.Parse (Tab Ent Kind Says Basic TyVOID TyINT TyCHAR TyBOOL ScVOID)

variable {T : Tab} {ty : Int} {dim t : Nat} {d : DT}

/-- The definitions for a value and the element that is printed for it, when the first label is `t`. -/
structure Fine (T : Tab) (ty : Int) (dim t : Nat) (d : DT) (os : List Obj) (c : Cell) : Prop where
  /-- The labels are new ones, in order. -/
  labs : os.map Obj.lab = List.range' t os.length
  /-- Every definition is correct C after the ones before it. -/
  ok : Correct T os
  /-- The initial value has the type of the variable. -/
  typed : CellOk os (cty ty dim) c
  /-- It stands for the data of the tree. -/
  means : Means os d [c]
  /-- Every object is referred to exactly once. -/
  once : (os.flatMap Obj.refs ++ c.ref).Perm (List.range' t os.length)

theorem C75_tree (h : Init T (.val ty dim) d) (hv : ty ≠ TyVOID) :
    ∃ os c, genData ty dim d t = some (os, .cell c, t + os.length) ∧ Fine T ty dim t d os c := by
  obtain ⟨os, d', c, h1, h2, h3, h4⟩ := h.holds hv t
  have hf : Fine T ty dim t d os c := ⟨h3.labs, h3.ok, h4, h3.means, by simpa using h3.once⟩
  refine ⟨os, c, ?_, hf⟩
  cases d with
  | cnst v => cases h1; cases h2; rfl
  | str l => cases h1; cases h2; rfl
  | arry d r =>
    simp only [printList1, Option.bind_eq_bind, Option.bind_eq_some_iff] at h1
    obtain ⟨⟨os', ln, t'⟩, h1, h5⟩ := h1
    obtain ⟨rfl, rfl, rfl⟩ : os' = os ∧ .arry d ln = d' ∧ t' = t + os.length := by simpa using h5
    simp only [genData, h1, Option.bind_eq_bind, Option.bind_some]
    cases h with
    | arr =>
      simp only [printList2, Int.toNat_natCast] at h2
      rw [if_neg (by push_cast; omega)] at h2
      cases h2
      rfl
  | list b r =>
    have h5 := h1
    simp only [printList1, Option.bind_eq_bind, Option.bind_eq_some_iff] at h5
    obtain ⟨⟨os', b', t'⟩, h5, cs, h6, h7⟩ := h5
    have hd : d' = .list b' t' := by
      simp only [Option.some.injEq, Prod.mk.injEq] at h7
      exact h7.2.1.symm
    subst hd
    simp only [genData, h1, Option.bind_eq_bind, Option.bind_some]
    simp only [printList2, Int.toNat_natCast] at h2
    cases h with
    | list =>
      rw [if_neg (by push_cast; omega)] at h2
      cases h2
      simp
    | struct hty =>
      rw [if_pos ⟨hty, by simp⟩] at h2
      cases h2
      simp
  | semi => cases h
  | _ => exact h3.means.elim

/-- Initial values without addresses of names, of variables that are not of type void. -/
theorem C75_partial {m m' : Nat} {ts : List Parse.Tok} (h : Says T (.val ty dim) m ts d m') (hn : NoAddr d) (hv : ty ≠ TyVOID) :
    ∃ os c, genData ty dim d t = some (os, .cell c, t + os.length) ∧ Fine T ty dim t d os c :=
  C75_tree (says_init h hn) hv

/-- The same for what the parser accepts. -/
theorem C75_accepted {s s' : Parse.PS} (h : Parse.getInit ty dim s = some (d, s')) (hn : NoAddr d) (hv : ty ≠ TyVOID) :
    ∃ os c, genData ty dim d t = some (os, .cell c, t + os.length) ∧ Fine s.tab ty dim t d os c := by
  obtain ⟨ts, -, -, h⟩ := Parse.C70_accepted h
  exact C75_partial h hn hv

/-- A constant of a basic type is a number or the address of a name, never a string. -/
theorem C75_constant {m : Nat} {x : Parse.SX} (hb : Basic ty) (h : Parse.Cst T m ty x d) : (∃ v, d = .cnst v) ∨ ∃ n, d = .addr n :=
  cst_num hb h

theorem printArray0_noAddr {dim : Int} {d : DT} {cnt t : Nat} {r : List Obj × Nat × Nat} (h : printArray0 ty dim d cnt t = some r) :
    NoAddr d := by
  induction d generalizing dim cnt t r with
  | semi l x ih1 ih2 =>
    cases x with
    | cnst v =>
      simp only [printArray0, Option.bind_eq_bind, Option.bind_eq_some_iff] at h
      obtain ⟨r, h, -⟩ := h
      exact ⟨ih1 h, trivial⟩
    | _ => cases h
  | cnst v => trivial
  | _ => cases h

theorem printList1_noAddr {dim : Int} {d : DT} {t : Nat} {r : List Obj × DT × Nat} (h : printList1 ty dim d t = some r) : NoAddr d := by
  induction d generalizing dim t r with
  | semi a b ih1 ih2 =>
    simp only [printList1, Option.bind_eq_bind, Option.bind_eq_some_iff] at h
    obtain ⟨r, h1, r', h2, -⟩ := h
    exact ⟨ih1 h1, ih2 h2⟩
  | list b r ih =>
    simp only [printList1, Option.bind_eq_bind, Option.bind_eq_some_iff] at h
    obtain ⟨r, h1, -⟩ := h
    exact ih h1
  | arry d r =>
    simp only [printList1, Option.bind_eq_bind, Option.bind_eq_some_iff] at h
    obtain ⟨r, h1, -⟩ := h
    exact (printArray0_noAddr h1 :)
  | cnst v => trivial
  | str l => trivial
  | _ => cases h

/-- An address of a name is printed only as the whole initial value of a variable; in a list and as a size the translator stops. -/
theorem C75_stops {ts : List Parse.Tok} {m m' : Nat} (h : Says T (.val ty dim) m ts d m') (hn : ¬ NoAddr d) (hv : ty ≠ TyVOID) :
    (∃ n, d = .addr n ∧ genData ty dim d t = some ([], .exp d, t)) ∨ genData ty dim d t = none := by
  cases d with
  | addr n => exact .inl ⟨n, rfl, rfl⟩
  | arry d r =>
    right
    rw [genData]
    cases h1 : printArray0 ty dim d 1 t with
    | none => rfl
    | some r => exact absurd (printArray0_noAddr h1 :) hn
  | list b r =>
    right
    rw [genData]
    cases h1 : printList1 ty dim (.list b r) t with
    | none => rfl
    | some r => exact absurd (printList1_noAddr h1) hn
  | semi => cases h; rename_i hb hc; rcases cst_num hb hc with ⟨v, h⟩ | ⟨v, h⟩ <;> cases h
  | other => cases h; rename_i hb hc; rcases cst_num hb hc with ⟨v, h⟩ | ⟨v, h⟩ <;> cases h
  | _ => exact absurd trivial hn

/-! ### Counterexamples -/

/-- `int f(); int[] a = {addrof(f)};` is accepted, the code generators of the other back ends (C57, C70) take it; here the translator stops. -/
theorem C75_addr_false : ∃ (T : Tab) (ts : List Parse.Tok) (d : DT),
    ts = [Parse.Lx.lbrc, Parse.Lx.ADDROF, Parse.Lx.lpar, .name "f", Parse.Lx.rpar, Parse.Lx.rbrc] ∧
    Says T (.val TyINT 1) 0 ts d 0 ∧ genData TyINT 1 d 0 = none := by
  let T : Tab := [⟨"f", Parse.ScPROT, TyINT, 0, 0, false⟩]
  have hc : Parse.Cst T 0 TyINT (.addrof "f") (.addr 0) :=
    ⟨.up (.up (.up (.up (.up (.up (.up (.up (.up (.up (.up (.up .addrof))))))))))), _, _, _,
      .addrof (n := 0) (e := ⟨"f", Parse.ScPROT, TyINT, 0, 0, false⟩) ⟨rfl, rfl, by decide, fun m e' h1 h2 => by
        cases m with
        | zero => omega
        | succ m => simp [T] at h2⟩ (.inl (.inl rfl)), .same, rfl, rfl⟩
  exact ⟨T, _, .list (.addr 0) (Parse.bytes TyINT 1), rfl,
    .list (ts := [Parse.Lx.ADDROF, Parse.Lx.lpar, .name "f", Parse.Lx.rpar]) (.one (.cst (.inl rfl) hc)), rfl⟩

/-- `void[] x = array(5);` is accepted; `static void _cmm_0T[5];` is printed. -/
theorem C75_void_false : ∃ (ts : List Parse.Tok) (d : DT) (os : List Obj) (c : Cell),
    ts = [Parse.Lx.ARRAY, Parse.Lx.lpar, .int 5, Parse.Lx.rpar] ∧ Says [] (.val TyVOID 1) 0 ts d 0 ∧
    genData TyVOID 1 d 0 = some (os, .cell c, 1) ∧ os.flatMap (objText fun _ => []) = t!"static void _cmm_0T[5];\n" ∧ ¬ Correct [] os := by
  refine ⟨_, .arry (.cnst 5) (Parse.bytes TyVOID 1), _, _, rfl, .arr (ts := [.int 5]) (.size (Parse.cst_int (by decide +kernel)) (by decide)),
    rfl, by decide +kernel, fun h => ?_⟩
  exact (h [] _ [] rfl).2 rfl

/-! ### Examples: definitions of the tests of the project (Test of the repository: C.Opt/t170.c, t080.c, t010.c), and the hypotheses -/

/-- `int[][][] m = {{{1,2},{3,4,5}},{{6},{7,8},{9}}};` -/
example : varText (fun _ => []) false t!"m" TyINT 3 (.list (.semi (.list (.semi (.list (.semi (.cnst 1) (.cnst 2)) 0)
      (.list (.semi (.semi (.cnst 3) (.cnst 4)) (.cnst 5)) 0)) 0)
    (.list (.semi (.semi (.list (.cnst 6) 0) (.list (.semi (.cnst 7) (.cnst 8)) 0)) (.list (.cnst 9) 0)) 0)) 0) 4 =
    some (t!"static int _cmm_4T[]={1,2};\nstatic int _cmm_5T[]={3,4,5};\nstatic int *_cmm_6T[]={_cmm_4T,_cmm_5T};\n" ++
      t!"static int _cmm_7T[]={6};\nstatic int _cmm_8T[]={7,8};\nstatic int _cmm_9T[]={9};\n" ++
      t!"static int *_cmm_10T[]={_cmm_7T,_cmm_8T,_cmm_9T};\nstatic int **_cmm_11T[]={_cmm_6T,_cmm_10T};\nstatic int ***m=_cmm_11T;\n", 12) := by
  decide +kernel

/-- `int[][] y = array(5,5);` -/
example : varText (fun _ => []) false t!"y" TyINT 2 (.arry (.semi (.cnst 5) (.cnst 5)) 1) 1 =
    some (t!"static int _cmm_1T[5];\nstatic int _cmm_2T[5];\nstatic int _cmm_3T[5];\nstatic int _cmm_4T[5];\nstatic int _cmm_5T[5];\n" ++
      t!"static int *_cmm_6T[]={_cmm_1T,_cmm_2T,_cmm_3T,_cmm_4T,_cmm_5T};\nstatic int **y=_cmm_6T;\n", 7) := by
  decide +kernel

/-- The structures of t080.cmm: `X h = {1, true, "abc"}; X[] i = {{1, true, "abc"}, {2, false, "def"}};` -/
example : varText (fun _ => t!"X") false t!"h" 0 0 (.list (.semi (.semi (.cnst 1) (.cnst 1)) (.str 1)) 9999) 8 =
      some (t!"static X _cmm_8T={1,1,_cmm_1S};\nstatic X *h=&_cmm_8T;\n", 9) ∧
    varText (fun _ => t!"X") false t!"i" 0 1 (.list (.semi (.list (.semi (.semi (.cnst 1) (.cnst 1)) (.str 2)) 9999)
        (.list (.semi (.semi (.cnst 2) (.cnst 0)) (.str 3)) 9999)) 0) 9 =
      some (t!"static X _cmm_9T={1,1,_cmm_2S};\nstatic X _cmm_10T={2,0,_cmm_3S};\nstatic X *_cmm_11T[]={&_cmm_9T,&_cmm_10T};\n" ++
        t!"static X **i=_cmm_11T;\n", 12) := by
  decide +kernel

/-- The table of t080.cmm and its value of `i` meet the hypotheses. -/
example : Init [⟨"X", Parse.ScSTRC, Parse.TySTRUC, 0, 3, false⟩, ⟨"a", ScVOID, TyINT, 0, 0, false⟩, ⟨"b", ScVOID, TyBOOL, 0, 0, false⟩,
      ⟨"c", ScVOID, TyCHAR, 1, 0, false⟩] (.val 0 1)
    (.list (.semi (.list (.semi (.semi (.cnst 1) (.cnst 1)) (.str 2)) 9999) (.list (.semi (.semi (.cnst 2) (.cnst 0)) (.str 3)) 9999)) 0) ∧
    NoAddr (.list (.semi (.list (.semi (.semi (.cnst 1) (.cnst 1)) (.str 2)) 9999) (.list (.semi (.semi (.cnst 2) (.cnst 0)) (.str 3)) 9999)) 0) ∧
    (0 : Int) ≠ TyVOID := by
  have h : ∀ a b : Int, ∀ s : Int, Init [⟨"X", Parse.ScSTRC, Parse.TySTRUC, 0, 3, false⟩, ⟨"a", ScVOID, TyINT, 0, 0, false⟩,
      ⟨"b", ScVOID, TyBOOL, 0, 0, false⟩, ⟨"c", ScVOID, TyCHAR, 1, 0, false⟩] (.val 0 0)
      (.list (.semi (.semi (.cnst a) (.cnst b)) (.str s)) 9999) := fun a b s =>
    .struct (j := 4) (by decide)
      (.next (.next (.first (i := 1) rfl rfl (.fldC (.inl rfl))) rfl rfl (.fldC (.inr (.inr rfl)))) rfl rfl .fldS) nofun
  exact ⟨.list (.more (.one (h _ _ _)) (h _ _ _)), by simp [NoAddr], by decide⟩

theorem cellOk_first {k : Int × Nat} {c : Cell} (h : CellOk [] k c) : (∃ v, c = .num v ∧ (k.2 = 0 ∨ v = 0)) ∨ ∃ l, c = .str l := by
  cases h with
  | num => exact .inl ⟨_, rfl, .inl rfl⟩
  | null => exact .inl ⟨_, rfl, .inr rfl⟩
  | str => exact .inr ⟨_, rfl⟩
  | arr h => cases h
  | room h => cases h
  | adr h => cases h

/-- The specification refuses what it should: an element of another type, an object used before its definition, a missing member. -/
example : ¬ Correct [] [⟨0, TyINT, 1, .arr [.num 1]⟩] ∧ ¬ Correct [] [⟨0, TyINT, 1, .arr [.tmp 1]⟩, ⟨1, TyINT, 0, .arr [.num 1]⟩] ∧
    ¬ Correct [⟨"X", Parse.ScSTRC, Parse.TySTRUC, 0, 1, false⟩, ⟨"a", ScVOID, TyINT, 0, 0, false⟩] [⟨0, 0, 0, .inst []⟩] := by
  refine ⟨fun h => ?_, fun h => ?_, fun h => ?_⟩
  · have := (h [] _ [] rfl).2.2 _ List.mem_cons_self
    rcases cellOk_first this with ⟨v, h, h'⟩ | ⟨l, h⟩ <;> cases h
    revert h'; decide
  · have := (h [] _ _ rfl).2.2 _ List.mem_cons_self
    rcases cellOk_first this with ⟨v, h, h'⟩ | ⟨l, h⟩ <;> cases h
  · have := (h [] _ [] rfl).2.2
    simp [members] at this

end Cmm.CText
