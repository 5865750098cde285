import Verif.CText.Strs
import Verif.CText.Unit
import Verif.Props.C55

/-
C80: the strings of the C text are those of the source: every string is printed as a macro before the function, its label stands in the text, and
behind the replacement of macros the same strings follow each other as in the source.
-/
namespace Cmm.CText
open Cmm.Tree
open Cmm.Parse (Spot ExpAt Ent Tab)

variable {strict : Bool} {F : Int × Nat} {l : Bool} {p p' p1 p2 p3 : Spot} {ts ps : List Parse.Tok} {N : Nat → Text}

/-- C80: labels of different strings are different. -/
theorem C80_label {a b : Nat} (h : strLab a = strLab b) : a = b := strLab_inj h

/-- C80: what genStr prints is read as the definitions of the macros, in one way only. -/
theorem C80_macros (m : Nat) {ss : List String} (h : ∀ s ∈ ss, '\n' ∉ s.toList) :
    ∀ D, Defs (genStrs m ss) D ↔ D = macros m ss :=
  fun _ => ⟨fun hD => hD.unique (genStrs_defs h), fun hD => hD ▸ genStrs_defs h⟩

/-- C80: no label is defined twice, also by what comes later. -/
theorem C80_once (m : Nat) (ss : List String) : (macros m ss).Pairwise (fun a b => a.1 ≠ b.1) ∧ ∀ q ∈ macros m ss, ∃ k, m < k ∧ k ≤ m + ss.length ∧ q.1 = strLab k := by
  induction ss generalizing m with
  | nil => exact ⟨.nil, nofun⟩
  | cons s ss ih =>
    obtain ⟨h1, h2⟩ := ih (m + 1)
    constructor
    · refine .cons (fun q hq he => ?_) h1
      obtain ⟨k, h3, -, h4⟩ := h2 q hq
      rw [h4] at he
      have := strLab_inj he
      omega
    · intro q hq
      rcases List.mem_cons.mp hq with rfl | hq
      · exact ⟨m + 1, by omega, by simp, rfl⟩
      · obtain ⟨k, h3, h4, h5⟩ := h2 q hq
        exact ⟨k, by omega, by simp; omega, h5⟩

/-- The macros of what has been printed before: labels up to `m`. -/
def Earlier (m : Nat) (D : List (Text × Text)) : Prop := ∀ q ∈ D, ∃ k, k ≤ m ∧ q.1 = strLab k

theorem lookup_none {D : List (Text × Text)} {w : Text} (h : ∀ q ∈ D, q.1 ≠ w) : D.lookup w = none := by
  induction D with
  | nil => rfl
  | cons q D ih =>
    have : (w == q.1) = false := by simp only [beq_eq_false_iff_ne]; exact (h q (by simp)).symm
    simp [List.lookup, this, ih fun q hq => h q (List.mem_cons_of_mem _ hq)]

theorem lookup_app {D D' : List (Text × Text)} {w : Text} (h : D.lookup w = none) : (D ++ D').lookup w = D'.lookup w := by
  rw [List.lookup_append, h]; rfl

theorem not_label {m : Nat} {D : List (Text × Text)} (hD : Earlier m D) (ss : List String) {w : Text} (hw : ∀ k, w ≠ strLab k) :
    (D ++ macros m ss).lookup w = none := by
  refine lookup_none fun q hq he => ?_
  rcases List.mem_append.mp hq with h | h
  · obtain ⟨k, -, h⟩ := hD q h
    exact hw k (by rw [← he, h])
  · obtain ⟨k, -, -, h⟩ := (C80_once m ss).2 q h
    exact hw k (by rw [← he, h])

theorem only {m : Nat} {D : List (Text × Text)} (hD : Earlier m D) (ss : List String) (hN : ∀ n k, N n ≠ strLab k) :
    OnlyLabs (fun w => (D ++ macros m ss).lookup w) N where
  kw c cs h := not_label hD ss (strLab_ne h)
  empty := not_label hD ss (by intro k h; simp [strLab] at h)
  name n := not_label hD ss (hN n)

theorem litsIn_num {m m' : Nat} {D : List (Text × Text)} (hD : Earlier m D) {os : List Occ} (h : Num m ts os m') :
    litsIn (fun w => (D ++ macros m (strsOf ts)).lookup w) os = (strsOf ts).map String.toList := by
  unfold litsIn
  rw [h.1]
  refine macros_lookup (strsOf ts) (fun w => (D ++ macros m (strsOf ts)).lookup w) fun k hk => lookup_app (lookup_none fun q hq he => ?_)
  obtain ⟨j, h1, h2⟩ := hD q hq
  rw [h2] at he
  have := strLab_inj he
  omega

/-- C80: expressions. -/
theorem C80_expr {k : Nat} {x : Parse.SX} {t : Int × Nat} {e : Expr} (h : ExpAt p k x t e) {D} (hD : Earlier p.lab D) (hN : ∀ n k, N n ≠ strLab k) :
    strings ((toks (toE N e)).map (expand (D ++ macros p.lab (strsOf x.toks)))) = (strsOf x.toks).map String.toList ∧
    (p.lit x).lab = p.lab + (strsOf x.toks).length := by
  rw [strings_expand, found_exp (only hD _ hN)]
  exact ⟨litsIn_num hD (exp_num h), (exp_num h).2⟩

/-- C80: bodies of functions and blocks, with everything before them. -/
theorem C80_statement {q : Bool} {v : Option VS} (h : SynV strict F (.stat q) l p ts v p') {D} (hD : Earlier p.lab D) (hN : ∀ n k, N n ≠ strLab k) :
    strings ((stoks (toS N (stOfV v))).map (expand (D ++ macros p.lab (strsOf ts)))) = (strsOf ts).map String.toList ∧
    p'.lab = p.lab + (strsOf ts).length := by
  obtain ⟨os, h1, h2⟩ := syn_num h
  rw [strings_expand, found_stm (only hD _ hN), occ_stOf, h1]
  exact ⟨litsIn_num hD h2, h2.2⟩

/-- C80: functions. Their strings get the labels behind those of the program before (`D`), their macros are printed before them; the strings in the text of
the function (however it is read) are those of the source, in their order. -/
theorem C80_function {ty : Int} {dim : Nat} {pub : Bool} {x : String} {prm : Tab} {b : Option VS}
    (h : SynV strict F (.items none) l p ts b p') {D} (hD : Earlier p.lab D) (hN : ∀ n k, N n ≠ strLab k)
    (hx : ∀ k, x.toList ≠ strLab k) (hp : ∀ e ∈ prm, ∀ k, e.name.toList ≠ strLab k)
    (hl : FnLexOk (toFn N ty dim pub x prm b)) (hn : ∀ s ∈ strsOf ts, '\n' ∉ s.toList) :
    ∃ M, Defs (genStrs p.lab (strsOf ts)) M ∧ Earlier p'.lab (D ++ M) ∧
      ∀ us, Lex (pfn (toFn N ty dim pub x prm b)) us → strings (us.map (expand (D ++ M))) = (strsOf ts).map String.toList := by
  obtain ⟨os, h1, h2⟩ := syn_num h
  refine ⟨_, genStrs_defs hn, ?_, fun us hu => ?_⟩
  · intro q hq
    rcases List.mem_append.mp hq with hq | hq
    · obtain ⟨k, h3, h4⟩ := hD q hq
      exact ⟨k, by rw [h2.2]; omega, h4⟩
    · obtain ⟨k, -, h3, h4⟩ := (C80_once _ _).2 q hq
      exact ⟨k, by rw [h2.2]; omega, h4⟩
  · rw [hu.unique (lex_fn hl), strings_expand, found_fn (only hD _ hN) (not_label hD _ hx) fun e he => not_label hD _ (hp e he), h1]
    exact litsIn_num hD h2

/-- C80: no other word is replaced: keywords, types, names of variables, functions, members. -/
theorem C80_others {m : Nat} {D} (hD : Earlier m D) (ss : List String) {w : Text} (hw : ∀ k, w ≠ strLab k) :
    expand (D ++ macros m ss) (.word w) = .inl (.word w) := by simp only [expand, not_label hD ss hw]

/-- C80: it is false if a name looks like a label: `char[] f(int _cmm_2S) { return "b"; }` behind one string. The parameter becomes a string. -/
theorem C80_name_false : ∃ (p p' : Spot) (ts : List Parse.Tok) (b : Option VS) (prm : Tab), p.tab = ⟨"f", Parse.ScFUNC, Parse.TyCHAR, 1, 1, true⟩ :: prm ∧
    SynV true (Parse.TyCHAR, 1) (.items none) false p ts b p' ∧ Earlier p.lab [(strLab 1, t!"a")] ∧
    strings ((fntoks (toFn (fun _ => t!"v") Parse.TyCHAR 1 true "f" prm b)).map (expand ([(strLab 1, t!"a")] ++ macros p.lab (strsOf ts)))) = [t!"b", t!"b"] ∧
    (strsOf ts).map String.toList = [t!"b"] :=
  ⟨{ tab := [⟨"f", Parse.ScFUNC, Parse.TyCHAR, 1, 1, true⟩, ⟨"_cmm_2S", Parse.ScPRM, Parse.TyINT, 0, 1, false⟩], lab := 1, cnt := 0, most := 0, last := none, dim := 0 }, _,
    Parse.Lx.RETURN :: ((Parse.SX.str "b").toks ++ [Parse.Lx.semi]) ++ [], some (.ret (some (.leaf .str 2))), [⟨"_cmm_2S", Parse.ScPRM, Parse.TyINT, 0, 1, false⟩], rfl,
    .stat (.retV (t := (Parse.TyCHAR, 1)) ⟨by decide, by decide⟩ ⟨Parse.SX.At.mono (k := 0) .str (by decide), .str⟩ .same) (by intro k ty h; cases h; nofun) .done,
    by intro q hq; simp at hq; subst hq; exact ⟨1, by decide, rfl⟩, by decide +kernel, by decide +kernel⟩

/-! ### Examples -/

example : String.ofList (genStrs 0 ["abc", "x\\n"]) = "#define _cmm_1S \"abc\"\n#define _cmm_2S \"x\\n\"\n" := by decide +kernel

/-- `return "b";` behind one string. -/
def strSpot : Spot := { tab := [], lab := 1, cnt := 0, most := 0, last := none, dim := 0 }

theorem strRet : SynV true (Parse.TyCHAR, 1) (.stat false) false strSpot (Parse.Lx.RETURN :: ((Parse.SX.str "b").toks ++ [Parse.Lx.semi]))
    (some (.ret (some (.leaf .str 2)))) { strSpot.lit (.str "b") with last := some Parse.Lx.RETURN } :=
  .retV (t := (Parse.TyCHAR, 1)) ⟨by decide, by decide⟩ ⟨Parse.SX.At.mono (k := 0) .str (by decide), .str⟩ .same

theorem strBody : SynV true (Parse.TyCHAR, 1) (.items none) false strSpot (Parse.Lx.RETURN :: ((Parse.SX.str "b").toks ++ [Parse.Lx.semi]) ++ [])
    (some (.ret (some (.leaf .str 2)))) { strSpot.lit (.str "b") with last := some Parse.Lx.RETURN } :=
  .stat strRet (by intro k ty h; cases h; nofun) .done

example : Earlier strSpot.lab [(strLab 1, t!"a")] ∧
    strings ((stoks (toS (fun _ => t!"v") (.ret (some (.leaf .str 2))))).map (expand ([(strLab 1, t!"a")] ++ macros strSpot.lab ["b"]))) = [t!"b"] :=
  ⟨by intro q hq; simp at hq; subst hq; exact ⟨1, by decide, rfl⟩, by decide +kernel⟩

/-- The hypotheses of `C80_function`: `char[] f() { return "b"; }` behind one string. -/
example : ∃ M, Defs t!"#define _cmm_2S \"b\"\n" M ∧ Earlier 2 ([(strLab 1, t!"a")] ++ M) ∧
    ∀ us, Lex t!"char *f(){\nreturn _cmm_2S;\n}\n" us → strings (us.map (expand ([(strLab 1, t!"a")] ++ M))) = [t!"b"] := by
  have h := C80_function (N := fun _ => t!"v") (ty := Parse.TyCHAR) (dim := 1) (pub := true) (x := "f") (prm := []) strBody
    (D := [(strLab 1, t!"a")]) (by intro q hq; simp at hq; subst hq; exact ⟨1, by decide, rfl⟩) (fun _ => strLab_ne (by decide))
    (strLab_ne (by decide)) nofun ⟨by simp [toFn, toTy, Ty.Ok, Parse.TyCHAR, Parse.TyVOID, Parse.TyINT, Parse.TyBOOL], ⟨by decide, nofun⟩, nofun, by simp [toFn, toS, stOfV, blockOfV, SLexOk, LexOkO, LexOk, toE, toEA]⟩ (by decide)
  have e1 : genStrs strSpot.lab (strsOf (Parse.Lx.RETURN :: ((Parse.SX.str "b").toks ++ [Parse.Lx.semi]) ++ [])) = t!"#define _cmm_2S \"b\"\n" := by decide +kernel
  have e2 : pfn (toFn (fun _ => t!"v") Parse.TyCHAR 1 true "f" [] (some (.ret (some (.leaf .str 2))))) = t!"char *f(){\nreturn _cmm_2S;\n}\n" := by decide +kernel
  rw [e1, e2] at h
  exact h

end Cmm.CText
