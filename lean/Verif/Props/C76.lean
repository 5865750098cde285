import Verif.CText.ScopeFn
import Verif.Props.C55
import Verif.Props.C73

/-
C76: names in the text of the C translator. The parser replaces names by indices of the name table; cCode.c prints the names of the
entries again. C looks names up by its own rules of scope: `resolve` and `resolveFn` (Verif/CText/Scope.lean, ScopeFn.lean) say which
declaration each name of the text refers to. It should be the declaration that the parser had chosen (`Occ.use`).

The tree is the one the parser makes (the optimiser off). If a block of the source is a single declaration without value, its braces are
lost (parser.c marks only SySEMI as a block), and names can change their meaning or be declared twice: `C76_false`, `C76_redeclared_false`.
Without such blocks (`SynV true`), and if no name has the form of the names of strings (`Names`), every name means the same.
-/
namespace Cmm.CText
open Cmm.Tree (Expr Stmt)
open Cmm.Parse (Tab Ent Spot ExpAt Syn Sees Sig AllGlob nowFun Unused NoType TypeTok ScLVAR ScPRM ScVOID ScFUNC ScCOMM TyINT TyVOID)

variable {N : Nat → Text} {F : Int × Nat} {p p1 p2 p3 p' : Spot} {ts ps : List Parse.Tok} {l q : Bool}

/-- The statements with declarations are those of the grammar of C72. -/
theorem C76_tree {s : Option Stmt} : Syn F (.items none) l p ts s p' ↔
    ∃ v, SynV false F (.items none) l p ts v p' ∧ v.map VS.erase = s := by
  constructor
  · intro h; exact syn_with h (.items none) rfl
  · rintro ⟨v, h, rfl⟩; exact h.plain_of

/-- Every name of a statement refers in C to the variable it means in the source; nothing is declared twice, and what follows sees the
same names as before. -/
theorem C76_statement_partial {v : Option VS} (h : SynV true F (.stat q) l p ts v p') {env : Env} (he : EnvOk env p.tab)
    (hN : Names N p'.tab) :
    resolve (CS.ofList (trS (toS N (stOfV v)))) env p.tab.length = some (env, p'.tab.length, (stOfV v).occ.map (Occ.use N)) ∧
      EnvOk env p'.tab := by
  obtain ⟨h1, h2, -⟩ := runs (N := N) h
  refine ⟨?_, (h2 env he hN).2⟩
  have h3 := h2.body h1 he hN
  obtain ⟨c, hc⟩ := h1
  rw [hc] at h3 ⊢
  rw [resolve_one]
  exact h3

/-- What an index in a tree stands for: the entry that is visible under its name at that place, a local variable or parameter if the tree
says so. -/
theorem C76_index {k : Nat} {x : Parse.SX} {t : Int × Nat} {e : Expr} (h : ExpAt p k x t e) {loc : Bool} {n : Nat} (ho : .obj loc n ∈ occ e) :
    ∃ d, Sees p.tab d.name n d ∧ (loc = true ↔ d.scope = ScLVAR ∨ d.scope = ScPRM) := ty_occ h.ty _ ho

/-- The same for functions with their parameters, where the parser calls genFunc (parser.c:976-1015). -/
theorem C76_function_partial {ty : Int} {dim : Nat} {pub : Bool} {x : String} {old : Option Nat} {prm : Tab} {b : Option VS}
    (hs : Sig ty dim pub x p ps old prm p1)
    (hp : p2 = { p1 with tab := nowFun old p.tab ++ ⟨x, ScFUNC, ty, dim, prm.length, pub⟩ :: prm, most := 0, cnt := 0 })
    (hb : SynV true (ty, dim) (.items none) false p2 ts b p3) (hg : AllGlob p.tab) (hN : Names N p3.tab) :
    resolveFn (trF (toFn N ty dim pub x prm b)) (p.tab.length + 1) = some ((occV b).map (Occ.use N)) := by
  obtain ⟨l, h1, h2, h3, -⟩ := prms_tab hs.prms
  have hl : l = prm := by
    rw [hs.tab] at h1
    simpa [Spot.enter] using h1.symm
  subst hl
  have hlen : (nowFun old p.tab ++ [(⟨x, ScFUNC, ty, dim, l.length, pub⟩ : Ent)]).length = p.tab.length + 1 := by
    cases old <;> simp [nowFun]
  have hT : ∀ d ∈ nowFun old p.tab ++ [(⟨x, ScFUNC, ty, dim, l.length, pub⟩ : Ent)], ¬ Loc d := by
    intro d hd
    rcases List.mem_append.1 hd with hd | hd
    · exact allGlob_not (nowFun_glob hg) d hd
    · rw [List.mem_singleton.1 hd]
      rintro (h | h) <;> exact absurd h (by show ¬ ScFUNC = _; decide)
  obtain ⟨sc, r1, r2⟩ := parScope_ok (N := N) h2 h3 (EnvOk.first hT) (fun e _ d hd _ => hT d hd)
  have h5 : p2.tab = (nowFun old p.tab ++ [(⟨x, ScFUNC, ty, dim, l.length, pub⟩ : Ent)]) ++ l := by rw [hp]; simp
  rw [← h5] at r1 r2
  obtain ⟨env', r3⟩ := body_run (N := N) hb r2 hN
  rw [hlen] at r1
  have r1' : parScope (trF (toFn N ty dim pub x l b)).1.pars [] (p.tab.length + 1) = some (sc, p2.tab.length) := r1
  have r3' : resolve (trF (toFn N ty dim pub x l b)).2 [sc] p2.tab.length = some (env', p3.tab.length, (occV b).map (Occ.use N)) := r3
  simp only [resolveFn, r1', r3', Option.bind_eq_bind, Option.bind_some]

/-- Between declarations only global names are visible. -/
theorem C76_between {o : Parse.Opts} {m : List Parse.Thing} (h : Parse.Prog o .first ts m p') : AllGlob p'.tab :=
  prog_glob h AllGlob.nil

/-- With C55: the text of the function has a reading as a C function, and in every reading every name refers to the variable it means in
the source. -/
theorem C76_text_partial {ty : Int} {dim : Nat} {pub : Bool} {x : String} {old : Option Nat} {prm : Tab} {b : Option VS}
    (hs : Sig ty dim pub x p ps old prm p1)
    (hp : p2 = { p1 with tab := nowFun old p.tab ++ ⟨x, ScFUNC, ty, dim, prm.length, pub⟩ :: prm, most := 0, cnt := 0 })
    (hb : SynV true (ty, dim) (.items none) false p2 ts b p3) (hg : AllGlob p.tab) (hN : Names N p3.tab)
    (tn : Text → Bool) (htn : Types tn) (hl : FnLexOk (toFn N ty dim pub x prm b)) (ho : FnOk tn (toFn N ty dim pub x prm b)) :
    (∃ us f, Lex (pfn (toFn N ty dim pub x prm b)) us ∧ FunT tn us f) ∧
    ∀ us f, Lex (pfn (toFn N ty dim pub x prm b)) us → FunT tn us f → resolveFn f (p.tab.length + 1) = some ((occV b).map (Occ.use N)) := by
  obtain ⟨⟨us, h1, h2⟩, h3⟩ := C55_fn_partial tn htn _ hl ho
  refine ⟨⟨us, _, h1, h2⟩, fun us f h4 h5 => ?_⟩
  rw [h3 us f h4 h5]
  exact C76_function_partial hs hp hb hg hN

/-! ### Blocks that lose their braces -/

theorem sees_of {T : Tab} {x : String} {n : Nat} {e : Ent} (h1 : T[n]? = some e) (h2 : e.name = x) (h3 : 0 ≤ e.scope)
    (h4 : (T.drop (n + 1)).all (fun d => d.name != x || decide (d.scope < 0)) = true) : Sees T x n e := by
  refine ⟨h1, h2, h3, fun m e' hm he' hn => ?_⟩
  have : e' ∈ T.drop (n + 1) := by
    rw [List.mem_iff_getElem?]
    exact ⟨m - (n + 1), by rw [List.getElem?_drop]; rw [← he']; congr 1; omega⟩
  have := List.all_eq_true.1 h4 e' this
  simpa [hn] using this

theorem up {x : Parse.SX} {k : Nat} (h : x.At k) (n : Nat) : x.At (k + n) := by
  induction n with
  | zero => exact h
  | succ n ih => exact .up ih

/-- `x = 1` at a place where `x` is an int. -/
theorem ass_at {p : Spot} {x : String} {n : Nat} {e : Ent} {k : Tree.Kind} (h : Sees p.tab x n e) (hk : Parse.VarKind e.scope k)
    (ht : (e.type, e.dim) = (TyINT, 0)) : ExpAt p 13 (.ass (.var x) (.int 1)) (TyINT, 0) (.assV k n (.cnst 1)) := by
  refine ⟨.up (.ass (up .var 11) (up .int 12)), ?_⟩
  have := Parse.Ty.var (R := Parse.actual) (m := p.lab) h hk
  rw [ht] at this
  exact .ass this rfl .int .same .var

/-- A declaration `int x;` of one variable without value. -/
theorem int_at {p : Spot} {x : String} (h : Unused p.tab x) :
    LocalDeclV p [Parse.Lx.INT, .name x] (.var p.tab.length TyINT 0)
      { ({ p with dim := 0 } : Spot).local x TyINT 0 with most := max p.most (p.cnt + 1) } :=
  .mk (ts := [.name x]) (dim := 0) .int (by decide) (by decide) (.one (.plain h))

/-- Names of the examples. -/
def names (T : Tab) (n : Nat) : Text := ((T[n]?.map Ent.name).getD "").toList

theorem names_ok {T : Tab} (h : ∀ e ∈ T, e.name.toList.head? ≠ some '_') : Names (names T) T := by
  intro n e he
  have hn : names T n = e.name.toList := by simp [names, he]
  refine ⟨hn, fun l hl => h e (List.mem_of_getElem? he) ?_⟩
  rw [← hn, hl]
  rfl

/-- `int x; void f() ...`: inside the function. -/
def spot0 : Spot := ⟨[⟨"x", ScCOMM, TyINT, 0, 0, false⟩, ⟨"f", ScFUNC, TyVOID, 0, 0, false⟩], 0, 0, 0, none, 0⟩

theorem noType_name {T : Tab} {x : String} {ts : List Parse.Tok} (h : ∀ d ∈ T, d.scope ≠ Parse.ScSTRC) : NoType T (.name x :: ts) := by
  intro k ty hk ht
  cases hk
  cases ht with
  | name h1 =>
    obtain ⟨⟨e, he, -, h2⟩, -⟩ := h1
    exact h e (List.mem_of_getElem? he) h2

/-- `{ int x; } x = 1;` in a function, with a global `x`: the source assigns to the global variable, the C text
`int x; (x=1);` to the local one, which is number 2. -/
theorem C76_false : ∃ (ts : List Parse.Tok) (v : Option VS) (p' : Spot),
    ts = [Parse.Lx.lbrc, Parse.Lx.INT, .name "x", Parse.Lx.semi, Parse.Lx.rbrc, .name "x", Parse.Lx.eq, .int 1, Parse.Lx.semi] ∧
    SynV false (TyVOID, 0) (.items none) false spot0 ts v p' ∧ Names (names p'.tab) p'.tab ∧
    pfn (toFn (names p'.tab) TyVOID 0 true "f" [] v) = t!"void f(){\nint x;\n(x=1);\n}\n" ∧
    (occV v).map (Occ.use (names p'.tab)) = [(t!"x", none)] ∧
    resolveFn (trF (toFn (names p'.tab) TyVOID 0 true "f" [] v)) 2 = some [(t!"x", some 2)] := by
  refine ⟨_, _, _, rfl,
    .stat (ts := [Parse.Lx.lbrc, Parse.Lx.INT, .name "x", Parse.Lx.semi, Parse.Lx.rbrc])
      (.block (ts := [Parse.Lx.INT, .name "x", Parse.Lx.semi])
        (.decl (us := []) (int_at (p := spot0) (x := "x") ⟨by decide, by decide +kernel⟩) .done) nofun)
      (fun k ty hk ht => by cases hk; cases ht)
      (.stat (us := []) (.exp (ass_at (x := "x") (n := 0) (sees_of rfl rfl (by decide) (by decide +kernel)) .comm rfl))
        (noType_name (by decide +kernel)) .done), ?_, ?_, ?_, ?_⟩
  · exact names_ok (by decide +kernel)
  · decide +kernel
  · decide +kernel
  · decide +kernel

/-- `{ int a; } { int a; }`: the C text declares `a` twice in a block. -/
theorem C76_redeclared_false : ∃ (ts : List Parse.Tok) (v : Option VS) (p' : Spot),
    ts = [Parse.Lx.lbrc, Parse.Lx.INT, .name "a", Parse.Lx.semi, Parse.Lx.rbrc, Parse.Lx.lbrc, Parse.Lx.INT, .name "a", Parse.Lx.semi, Parse.Lx.rbrc] ∧
    SynV false (TyVOID, 0) (.items none) false spot0 ts v p' ∧ Names (names p'.tab) p'.tab ∧
    pfn (toFn (names p'.tab) TyVOID 0 true "f" [] v) = t!"void f(){\nint a;\nint a;\n}\n" ∧
    resolveFn (trF (toFn (names p'.tab) TyVOID 0 true "f" [] v)) 2 = none := by
  refine ⟨_, _, _, rfl,
    .stat (ts := [Parse.Lx.lbrc, Parse.Lx.INT, .name "a", Parse.Lx.semi, Parse.Lx.rbrc])
      (.block (ts := [Parse.Lx.INT, .name "a", Parse.Lx.semi])
        (.decl (us := []) (int_at (p := spot0) (x := "a") ⟨by decide, by decide +kernel⟩) .done) nofun)
      (fun k ty hk ht => by cases hk; cases ht)
      (.stat (us := []) (ts := [Parse.Lx.lbrc, Parse.Lx.INT, .name "a", Parse.Lx.semi, Parse.Lx.rbrc])
        (.block (ts := [Parse.Lx.INT, .name "a", Parse.Lx.semi])
          (.decl (us := []) (int_at (x := "a") ⟨by decide +kernel, by decide +kernel⟩) .done) nofun)
        (fun k ty hk ht => by cases hk; cases ht) .done), ?_, ?_, ?_⟩
  · exact names_ok (by decide +kernel)
  · decide +kernel
  · decide +kernel

/-- `char[] _cmm_1S = "a";`: the variable and the string have the same name in the text. With `_RTC` strings are objects
(cCode.c:611-616) and the variable hides the string, as here; without it they are macros (cCode.c:618-624), and the
preprocessor puts the string in the place of the variable. The numbers are those of the parser model, which counts strings
from 1 as vmCode.c does. -/
theorem C76_string_false : ∃ (ts : List Parse.Tok) (v : Option VS) (p' : Spot),
    ts = [Parse.Lx.CHAR, Parse.Lx.lbrk, Parse.Lx.rbrk, .name "_cmm_1S", Parse.Lx.eq, .str "a", Parse.Lx.semi] ∧
    SynV true (TyVOID, 0) (.items none) false spot0 ts v p' ∧
    pfn (toFn (names p'.tab) TyVOID 0 true "f" [] v) = t!"void f(){\nchar *_cmm_1S;\n(_cmm_1S=_cmm_1S);\n}\n" ∧
    (occV v).map (Occ.use (names p'.tab)) = [(t!"_cmm_1S", some 2), (t!"_cmm_1S", none)] ∧
    resolveFn (trF (toFn (names p'.tab) TyVOID 0 true "f" [] v)) 2 = some [(t!"_cmm_1S", some 2), (t!"_cmm_1S", some 2)] := by
  refine ⟨_, _, _, rfl,
    .decl (us := []) (ts := [Parse.Lx.CHAR, Parse.Lx.lbrk, Parse.Lx.rbrk, .name "_cmm_1S", Parse.Lx.eq, .str "a"])
      (.mk (p := spot0) (ts := [.name "_cmm_1S", Parse.Lx.eq, .str "a"]) (dim := 1) .char (by decide) (by decide)
        (.one (.init (x := "_cmm_1S") (y := .str "a") ⟨by decide, by decide +kernel⟩ ⟨up .str 12, .str⟩ .same))) .done, ?_, ?_, ?_⟩
  · decide +kernel
  · decide +kernel
  · decide +kernel

/-! ### Examples -/

/-- `{ int x; x = 1; } x = 1;` in a function with a parameter `a` and a global `x`: the hypotheses of C76_function_partial hold. -/
theorem example_fn : ∃ (v : Option VS) (p' : Spot),
    SynV true (TyVOID, 0) (.items none) false
      ⟨[⟨"x", ScCOMM, TyINT, 0, 0, false⟩, ⟨"f", ScFUNC, TyVOID, 0, 1, true⟩, ⟨"a", ScPRM, TyINT, 0, 0, false⟩], 0, 0, 0, none, 0⟩
      [Parse.Lx.lbrc, Parse.Lx.INT, .name "x", Parse.Lx.semi, .name "x", Parse.Lx.eq, .int 1, Parse.Lx.semi, Parse.Lx.rbrc,
        .name "x", Parse.Lx.eq, .int 1, Parse.Lx.semi] v p' ∧ Names (names p'.tab) p'.tab ∧
    pfn (toFn (names p'.tab) TyVOID 0 true "f" [⟨"a", ScPRM, TyINT, 0, 0, false⟩] v) =
      t!"void f(int a){\n{\nint x;\n(x=1);\n}\n(x=1);\n}\n" ∧
    (occV v).map (Occ.use (names p'.tab)) = [(t!"x", some 3), (t!"x", none)] := by
  refine ⟨_, _,
    .stat (ts := [Parse.Lx.lbrc, Parse.Lx.INT, .name "x", Parse.Lx.semi, .name "x", Parse.Lx.eq, .int 1, Parse.Lx.semi, Parse.Lx.rbrc])
      (.block (ts := [Parse.Lx.INT, .name "x", Parse.Lx.semi, .name "x", Parse.Lx.eq, .int 1, Parse.Lx.semi])
        (.decl (ts := [Parse.Lx.INT, .name "x"]) (int_at (x := "x") ⟨by decide, by decide +kernel⟩)
          (.stat (us := []) (.exp (ass_at (x := "x") (n := 3) (sees_of rfl rfl (by decide) (by decide +kernel)) .lvar rfl))
            (noType_name (by decide +kernel)) .done)) (fun _ => rfl))
      (fun k ty hk ht => by cases hk; cases ht)
      (.stat (us := []) (.exp (ass_at (x := "x") (n := 0) (sees_of rfl rfl (by decide) (by decide +kernel)) .comm rfl))
        (noType_name (by decide +kernel)) .done), ?_, ?_, ?_⟩
  · exact names_ok (by decide +kernel)
  · decide +kernel
  · decide +kernel

/-- Its signature `void f(int a)` behind `int x;`. -/
example : Sig TyVOID 0 true "f" ⟨[⟨"x", ScCOMM, TyINT, 0, 0, false⟩], 0, 0, 0, none, 0⟩ [Parse.Lx.INT, .name "a"] none
    [⟨"a", ScPRM, TyINT, 0, 0, false⟩]
    ⟨[⟨"x", ScCOMM, TyINT, 0, 0, false⟩, ⟨"f", Parse.ScPROT, TyVOID, 0, 0, true⟩, ⟨"a", ScPRM, TyINT, 0, 0, false⟩], 0, 0, 0, none, 0⟩ :=
  ⟨by simp [Parse.Earlier], nofun, fun h => absurd h (by decide),
    .last (dim := 0) .int ⟨by decide, by decide⟩ nofun ⟨by decide, by simp [Spot.enter, Parse.ScPROT, ScCOMM, Parse.ScSTRC, ScPRM, ScLVAR]⟩, rfl⟩

end Cmm.CText
