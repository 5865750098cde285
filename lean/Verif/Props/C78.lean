import Verif.CText.UnitFile
import Verif.CText.UnitText
import Verif.CText.WordsFile

/-
C78: whole files of the C translator. C77 shows that functions are well typed in C behind the declarations of the source; here these
declarations are the ones that are printed before them. `CUnit.Steps` (Verif/CText/Unit.lean) is the rule of C for a file: types are declared
before they are used, a name is declared again only with the same type and the same linkage, and no name is defined twice.

Proved for programs without `typedef` (see below) and interrupt functions (the translator rejects them, cCode.c:76), within the limits of C77. The
strings are macros and are not declarations. Values of variables are C75.
-/
namespace Cmm.CText
open Cmm.Parse (Tab Ent Spot Sees Fresh Sig GVar GVars Valued TypeTok Thing IsGlob TyVOID TyINT TyCHAR TyBOOL TyINTR TySTRUC TyDOTDOTDOT
  ScLVAR ScPRM ScVOID ScFUNC ScPROT ScCOMM ScGVAR ScSTRC ScFLD)

theorem FInv.start : FInv CUnit.start [] where
  inv := {
    dcl := {
      var := fun x n e k h => absurd h.1 (by simp)
      fn := fun x n e h => absurd h.1 (by simp)
      str := fun l => if_pos ⟨l, rfl⟩
      mem := fun i d f n e h => absurd h (by simp) }
    val := {
      var := nofun
      prm := fun x n e h => absurd h.1 (by simp)
      fld := fun i d f n e h => absurd h (by simp) }
    rng := fun n e h => absurd h (by simp) }
  scp := nofun
  strc := nofun
  tys := nofun
  dots := nofun
  own := fun n e h => absurd h (by simp)
  uniq := fun i j d e h => absurd h (by simp)
  types := fun w => ⟨nofun, fun ⟨e, h, _⟩ => absurd h (by simp)⟩
  known := fun w d h => by
    by_cases hl : ∃ l, w = strLab l
    · exact .inl hl
    · have h' : CUnit.start.G w = none := if_neg hl
      rw [h'] at h
      cases h
  link := nofun
  defd := nofun

/-- The declarations printed for a program make a correct file of C. -/
theorem C78_file_partial {p p' : Spot} {ts : List Parse.Tok} {m : List Ext} (h : ProgT p ts m p') (hp : p.tab = []) :
    ∃ U', CUnit.start.Steps (m.map trExt) U' := by
  obtain ⟨U', h1, -⟩ := prog_step h (hp ▸ FInv.start)
  exact ⟨U', h1⟩

/-- What C has seen of the file at its end is what the source has declared: the types, and the names with their types and linkage. -/
theorem C78_names_partial {p p' : Spot} {ts : List Parse.Tok} {m : List Ext} (h : ProgT p ts m p') (hp : p.tab = []) :
    ∃ U', CUnit.start.Steps (m.map trExt) U' ∧
      (∀ w, U'.K w = true ↔ ∃ e ∈ p'.tab, e.scope = ScSTRC ∧ e.name.toList = w) ∧
      (∀ w d, (∀ l, w ≠ strLab l) → U'.G w = some d → ∃ e ∈ p'.tab, IsGlob e ∧ e.name.toList = w) ∧
      (∀ e ∈ p'.tab, IsGlob e → U'.S e.name.toList = some (!e.pub)) ∧
      (∀ e ∈ p'.tab, e.scope = ScCOMM ∨ e.scope = ScGVAR → U'.G e.name.toList = some (.obj (declTy (tabNames p'.tab) (e.type, e.dim)))) ∧
      ∀ (i : Nat) e, p'.tab[i]? = some e → e.scope = ScPROT ∨ e.scope = ScFUNC →
        U'.G e.name.toList = some (.fn (declTy (tabNames p'.tab) (e.type, e.dim)) (prmsOf (tabNames p'.tab) p'.tab i e.cnt)
          (((p'.tab.drop (i + 1)).take e.cnt).any fun d => d.type = TyDOTDOTDOT)) := by
  obtain ⟨U', h1, h2⟩ := prog_step h (hp ▸ FInv.start)
  refine ⟨U', h1, h2.types, ?_, h2.link, ?_, ?_⟩
  · intro w d hw hd
    exact (h2.known w d hd).resolve_left fun ⟨l, hl⟩ => hw l hl
  · intro e he hs
    obtain ⟨i, hi⟩ := List.mem_iff_getElem?.1 he
    exact h2.var_at hi hs
  · intro i e hi hs
    exact h2.fn_at hi hs

/-! ### The text -/

/-- The types that are known at the beginning. -/
def baseTy (x : Text) : Bool := baseTys.contains x

theorem baseTy_ok : FileTypes baseTy := ⟨⟨by decide, by decide, by decide, by decide⟩, by decide⟩

/-- The text of a file without values of variables is a file of C, in one way only, and it has the declarations above. -/
theorem C78_text_partial {es : List Ext} (h : FileOk baseTy es) :
    (∃ ts, Lex (pfile es) ts ∧ FileT baseTy ts (es.map trExt)) ∧
    ∀ ts cs, Lex (pfile es) ts → FileT baseTy ts cs → cs = es.map trExt := by
  have h1 := lex_file h.lex
  have h2 := read_file baseTy_ok h
  refine ⟨⟨_, h1, h2⟩, fun ts cs h3 h4 => ?_⟩
  rw [h3.unique h1] at h4
  exact h4.unique baseTy_ok h2

/-- Whatever a C compiler reads in the text of a program is a correct file. -/
theorem C78_text_file_partial {p p' : Spot} {ts : List Parse.Tok} {m : List Ext} (h : ProgT p ts m p') (hp : p.tab = []) (hm : FileOk baseTy m) :
    (∃ us cs, Lex (pfile m) us ∧ FileT baseTy us cs) ∧
    ∀ us cs, Lex (pfile m) us → FileT baseTy us cs → ∃ U', CUnit.start.Steps cs U' := by
  obtain ⟨⟨us, h1, h2⟩, h3⟩ := C78_text_partial hm
  refine ⟨⟨us, _, h1, h2⟩, fun us cs h4 h5 => ?_⟩
  rw [h3 us cs h4 h5]
  exact C78_file_partial h hp

theorem ctx_start : Ctx baseTy [] where
  ident := nofun
  types y hy := .inl (by simpa [baseTy] using hy)
  base y hy := by simpa [baseTy] using hy
  strc := nofun
  str n := by
    have h : ∀ w ∈ keywords, w.head? ≠ some '_' := by decide
    have h' : (strLab n).head? = some '_' := rfl
    refine ⟨fun hq => h _ hq h', ?_⟩
    have hb : ∀ w ∈ baseTys, w.head? ≠ some '_' := by decide
    cases hc : baseTy (strLab n) with
    | false => rfl
    | true => exact absurd h' (hb _ (by simpa [baseTy] using hc))

/-- The same with conditions on the source in the place of conditions on the text: the names of the program are identifiers of C. There remains what
is false without (`Rest`): `...` is not the only parameter (C55_dots_false) and no body of a do statement begins with a word (C55_do_false);
values of variables are left out in this text. -/
theorem C78_program_partial {p p' : Spot} {ts : List Parse.Tok} {m : List Ext} (h : ProgT p ts m p') (hp : p.tab = []) (hk : ToksOk ts)
    (hr : ∀ e ∈ m, Rest e) :
    (∃ us cs, Lex (pfile m) us ∧ FileT baseTy us cs) ∧
    ∀ us cs, Lex (pfile m) us → FileT baseTy us cs → ∃ U', CUnit.start.Steps cs U' :=
  C78_text_file_partial h hp (prog_words h (hp ▸ ctx_start) hk hr)

/-! ### typedef -/

/-- `typedef X; X a;`: nothing is printed for the first (parser.c:1226-1231), so that the type of `a` is unknown in C unless a header of C
declares it. -/
theorem C78_typedef_false (o : Parse.Opts) : ∃ ts m p', Parse.Prog o ⟨[], 0, 0, 0, none, 0⟩ ts m p' ∧ Plain p'.tab ∧
    m.filterMap varExt = [.var false false (.named t!"X") 0 t!"a"] ∧ ∀ U', ¬ CUnit.start.Steps ((m.filterMap varExt).map trExt) U' := by
  refine ⟨_, _, _, .more (.typedef (x := "X") ⟨by decide, nofun⟩)
    (.more (.vars (pub := false) (k := .name "X") (ty := -(0 : Nat)) (dim := 0) (.name (n := 0) ⟨⟨_, rfl, rfl, rfl⟩, fun m e h => absurd h (Nat.not_lt_zero m)⟩)
      ⟨by decide, by decide⟩ (.one (.room (x := "a") ⟨by simp [Spot.enter], by
        intro d hd hn
        simp only [Spot.enter, List.nil_append, List.mem_singleton] at hd
        subst hd
        exact absurd hn (by decide)⟩ (by
        intro d hd _ hn
        simp only [Spot.enter, List.nil_append, List.mem_singleton] at hd
        subst hd
        exact absurd hn (by decide))))) .done), ?_, ?_, ?_⟩
  · refine ⟨?_, ?_, ?_⟩
    · unfold NoVoids; decide +kernel
    · have : ∀ e ∈ ([⟨"X", ScSTRC, Parse.TyREF, 0, 0, false⟩, ⟨"a", ScCOMM, 0, 0, 0, false⟩] : Tab), e.name.toList.length ≤ 1 := by decide +kernel
      intro e he l hl
      have h1 := this e he
      rw [hl] at h1
      simp [strLab] at h1
    · decide +kernel
  · rfl
  · intro U' h
    change CUnit.start.Steps [.var true false (t!"X", 1) t!"a"] U' at h
    cases h with
    | cons h _ =>
      cases h with
      | var h =>
        rcases h with h | h
        · exact absurd h (by decide +kernel)
        · cases h

/-! ### Examples -/

/-- Behind `struct S { S next; int v; };`. -/
def ex1 : Tab := [⟨"S", ScSTRC, TySTRUC, 0, 2, false⟩, ⟨"next", ScVOID, 0, 0, 0, false⟩, ⟨"v", ScVOID, TyINT, 0, 1, false⟩]

/-- Behind `public S p;`. -/
def ex2 : Tab := ex1 ++ [⟨"p", ScCOMM, 0, 0, 2, true⟩]

/-- Behind `int f(S q);`. -/
def ex3 : Tab := ex2 ++ [⟨"f", ScPROT, TyINT, 0, 1, false⟩, ⟨"q", ScVOID, 0, 0, 0, false⟩]

/-- Inside of `int f(S q) { S r = q.next; ... }`. -/
def ex4 : Tab := Parse.nowFun (some 4) ex3 ++ [⟨"f", ScFUNC, TyINT, 0, 1, false⟩, ⟨"q", ScPRM, 0, 0, 0, false⟩]

def ex5 : Tab := ex4 ++ [⟨"r", ScLVAR, 0, 0, 1, false⟩]

theorem plain_of {T : Tab} (h1 : NoVoids T) (h2 : ∀ e ∈ T, e.name.toList.head? ≠ some '_') (h3 : ∀ e ∈ T, e.name.toList ∉ baseTys) : Plain T :=
  ⟨h1, fun e he l hl => h2 e he (by rw [hl]; rfl), h3⟩

theorem sees_S {l : Tab} : Parse.SeesType (⟨"S", ScSTRC, TySTRUC, 0, k, false⟩ :: l) "S" 0 :=
  ⟨⟨_, rfl, rfl, rfl⟩, fun m e h => absurd h (Nat.not_lt_zero m)⟩

theorem field_next {l : Tab} : Parse.Field (ex1 ++ l) 0 "next" 1 ⟨"next", ScVOID, 0, 0, 0, false⟩ :=
  ⟨⟨_, rfl, by decide, by decide⟩, rfl, rfl, fun m e' h1 h2 => by omega⟩

theorem field_v {l : Tab} : Parse.Field (ex1 ++ l) 0 "v" 2 ⟨"v", ScVOID, TyINT, 0, 1, false⟩ :=
  ⟨⟨_, rfl, by decide, by decide⟩, rfl, rfl, fun m e' h1 h2 h3 => by
    have : m = 1 := by omega
    subst this; cases h3; decide⟩

/-- What is printed for `struct S { S next; int v; }; public S p; int f(S q); int f(S q) { S r = q.next; return r.v; }`. -/
def exFile : List Ext :=
  [.struct t!"S" [(.named t!"S", 0, t!"next"), (.int, 0, t!"v")], .var true false (.named t!"S") 0 t!"p",
   .proto ⟨false, .int, 0, t!"f", [.p (.named t!"S") 0 t!"q"], .null⟩,
   .fn ⟨false, .int, 0, t!"f", [.p (.named t!"S") 0 t!"q"],
     .blk (.semi (.var (.named t!"S") 0 t!"r") (.exp (.bin .ass (.var t!"r") (.dot (.var t!"q") t!"next")))) (.ret (some (.dot (.var t!"r") t!"v")))⟩]

example : pfile exFile = t!"typedef struct _S S;\nstruct _S {\nS *next;\nint v;\n};\nS *p;\nstatic int f(S *q);\nstatic int f(S *q){\nS *r;\n(r=q->next);\nreturn r->v;\n}\n" := by
  decide +kernel

/-- Its names are identifiers of C. -/
theorem exFile_ok : FileOk baseTy exFile := by
  have w : ∀ c : Char, isIdStart c = true → IsWord [c] := fun c h => ⟨h, nofun⟩
  have dots : ∀ (i : Nat), [Par.p (.named t!"S") 0 t!"q"][i]? = some .dots → 0 < i ∧ i + 1 = [Par.p (.named t!"S") 0 t!"q"].length := by
    intro i hi
    rcases i with _ | i <;> simp at hi
  have pl : ∀ p ∈ [Par.p (.named t!"S") 0 t!"q"], ParLexOk p := by
    intro p hp
    rw [List.mem_singleton.1 hp]
    exact ⟨w _ (by decide), w _ (by decide)⟩
  let ty : Text → Bool := (trExt (exFile.headD (.proto ⟨false, .int, 0, [], [], .null⟩))).types baseTy
  have id : ∀ x, x ∉ keywords → ty x = false → Ident ty x := fun _ h1 h2 => ⟨h1, h2⟩
  have pg : ∀ p ∈ [Par.p (.named t!"S") 0 t!"q"], ParOk ty p := by
    intro p hp
    rw [List.mem_singleton.1 hp]
    exact ⟨by decide +kernel, id _ (by decide) (by decide +kernel)⟩
  refine ⟨⟨w _ (by decide), ?_⟩, ⟨⟨by decide, by decide⟩, ?_⟩, ⟨rfl, w _ (by decide), w _ (by decide)⟩, ⟨by decide +kernel, id _ (by decide) (by decide +kernel)⟩,
    ⟨trivial, w _ (by decide), pl, trivial⟩, ⟨by decide +kernel, id _ (by decide) (by decide +kernel), pg, dots, trivial⟩,
    ⟨trivial, w _ (by decide), pl, ?_⟩, ⟨by decide +kernel, id _ (by decide) (by decide +kernel), pg, dots, ?_⟩, trivial⟩
  · intro m hm
    simp only [List.mem_cons, List.not_mem_nil, or_false] at hm
    rcases hm with rfl | rfl
    · exact ⟨w _ (by decide), by decide, by decide⟩
    · exact ⟨trivial, w _ (by decide)⟩
  · intro m hm
    simp only [List.mem_cons, List.not_mem_nil, or_false] at hm
    rcases hm with rfl | rfl
    · exact ⟨.inl rfl, ⟨by decide, by decide⟩, by decide⟩
    · exact ⟨.inr (by decide), ⟨by decide, by decide⟩, by decide⟩
  · exact ⟨⟨⟨w _ (by decide), w _ (by decide)⟩, ⟨w _ (by decide), ⟨w _ (by decide), by decide, by decide⟩, nofun⟩⟩, w _ (by decide), w _ (by decide)⟩
  · exact ⟨⟨⟨by decide +kernel, id _ (by decide) (by decide +kernel)⟩, id _ (by decide) (by decide +kernel), id _ (by decide) (by decide +kernel), by decide, rfl⟩,
      id _ (by decide) (by decide +kernel), by decide, rfl⟩

/-- The source is a program. -/
theorem example_file : ∃ ts p', ProgT ⟨[], 0, 0, 0, none, 0⟩ ts exFile p' ∧ ToksOk ts := by
  have d1 : DeclnT ⟨[], 0, 0, 0, none, 0⟩ _ _ ⟨ex1, 0, 2, 0, none, 0⟩ := .struct (p := ⟨[], 0, 0, 0, none, 0⟩) (x := "S")
      (p' := ⟨[⟨"S", ScSTRC, TySTRUC, 0, 0, false⟩, ⟨"next", ScFLD, 0, 0, 0, false⟩, ⟨"v", ScFLD, TyINT, 0, 1, false⟩], 0, 2, 0, none, 0⟩)
      (fl := [⟨"next", ScFLD, -(0 : Nat), 0, 0, false⟩, ⟨"v", ScFLD, TyINT, 0, 1, false⟩]) ⟨by decide, nofun⟩
      (.more (dim := 0) (.name sees_S) ⟨by decide, by decide⟩ (.one (x := "next") ⟨by decide, by decide +kernel⟩)
        (.one (dim := 0) .int ⟨by decide, by decide⟩ (.one (x := "v") ⟨by decide, by decide +kernel⟩))) rfl
      (plain_of (by unfold NoVoids; decide +kernel) (by decide +kernel) (by decide +kernel))
  have d2 : DeclnT ⟨ex1, 0, 2, 0, none, 0⟩ _ _ ⟨ex2, 0, 2, 0, none, 0⟩ := .vars (p := ⟨ex1, 0, 2, 0, none, 0⟩) (pub := true) (dim := 0) (.name sees_S) ⟨by decide, by decide⟩
      (.one (.room (x := "p") ⟨by decide, by decide +kernel⟩ (by unfold Parse.Earlier IsGlob; decide +kernel)))
      (plain_of (by unfold NoVoids; decide +kernel) (by decide +kernel) (by decide +kernel))
  have s3 : Sig TyINT 0 false "f" ⟨ex2, 0, 2, 0, none, 0⟩ [.name "S", .name "q"] none [⟨"q", ScPRM, 0, 0, 0, false⟩]
      ⟨ex2 ++ [⟨"f", ScPROT, TyINT, 0, 2, false⟩, ⟨"q", ScPRM, 0, 0, 0, false⟩], 0, 0, 0, none, 0⟩ :=
    ⟨by unfold Parse.Earlier IsGlob; decide +kernel, nofun, fun h => absurd h (by decide),
      .last (dim := 0) (.name sees_S) ⟨by decide, by decide⟩ nofun ⟨by decide, by decide +kernel⟩, rfl⟩
  have d3 : DeclnT ⟨ex2, 0, 2, 0, none, 0⟩ _ _ ⟨ex3, 0, 0, 0, none, 0⟩ := .proto (p := ⟨ex2, 0, 2, 0, none, 0⟩) (pub := false) (dim := 0) .int (by decide)
      ⟨by decide, by decide +kernel⟩ s3 (plain_of (by unfold NoVoids; decide +kernel) (by decide +kernel) (by decide +kernel))
  have s4 : Sig TyINT 0 false "f" ⟨ex3, 0, 0, 0, none, 0⟩ [.name "S", .name "q"] (some 4) [⟨"q", ScPRM, 0, 0, 0, false⟩]
      ⟨ex3 ++ [⟨"f", ScPROT, TyINT, 0, 0, false⟩, ⟨"q", ScPRM, 0, 0, 0, false⟩], 0, 0, 0, none, 0⟩ := by
    refine ⟨⟨_, rfl, .inl rfl, rfl, ?_⟩, ?_, fun h => absurd h (by decide),
      .last (dim := 0) (.name sees_S) ⟨by decide, by decide⟩ ?_ ⟨by decide, by decide +kernel⟩, rfl⟩
    · intro j d hj hd
      have : ∀ d ∈ ex3.take 4, d.name ≠ "f" := by decide +kernel
      exact fun h => this d (List.mem_of_getElem? (i := j) (by rw [List.getElem?_take_of_lt hj]; exact hd)) h.2
    · intro i d hi hd
      cases hi
      cases hd
      exact ⟨.inl rfl, rfl, rfl, rfl, rfl⟩
    · intro i hi
      cases hi
      exact ⟨_, rfl, rfl, rfl⟩
  have hq : Sees ex5 "q" 7 ⟨"q", ScPRM, 0, 0, 0, false⟩ := sees_of rfl rfl (by decide) (by decide +kernel)
  have hr : Sees ex5 "r" 8 ⟨"r", ScLVAR, 0, 0, 1, false⟩ := sees_of rfl rfl (by decide) (by decide +kernel)
  have e1 : ExpT ⟨ex5, 0, 1, 0, none, 0⟩ 12 (.fld (.var "q") "next") (0, 0) _ :=
    ⟨up (.fld .var) 12, .fld (i := 0) (.var hq .prm) rfl rfl (field_next (l := ex5.drop 3)), show "q" ≠ "" by decide⟩
  have e2 : ExpT ⟨ex5, 0, 1, 1, none, 0⟩ 13 (.fld (.var "r") "v") (TyINT, 0) _ :=
    ⟨up (.fld .var) 13, .fld (i := 0) (.var hr .lvar) rfl rfl (field_v (l := ex5.drop 3)), show "r" ≠ "" by decide⟩
  have b4 : SynT (TyINT, 0) (.items none) false ⟨ex4, 0, 0, 0, none, 0⟩ _ _ ⟨ex5, 0, 1, 1, some Parse.Lx.RETURN, 0⟩ :=
    .decl (.mk (dim := 0) (.name sees_S) (by decide) (by decide)
        (.one (.init (x := "r") ⟨by decide, by decide +kernel⟩ e1 .same)))
      (.stat (us := []) (.retV ⟨by decide, by decide⟩ e2 .same) (fun k ty hk ht => by cases hk; cases ht) .done)
  have d4 : DeclnT ⟨ex3, 0, 0, 0, none, 0⟩ _ _ _ := .func (p := ⟨ex3, 0, 0, 0, none, 0⟩) (pub := false) (dim := 0) (n := 0) .int (by decide) ⟨by decide, by decide +kernel⟩ s4
      (by intro i d hi hd; cases hi; cases hd; rfl) rfl b4 (fun _ => rfl)
      (plain_of (by unfold NoVoids; decide +kernel) (by decide +kernel) (by decide +kernel))
  exact ⟨_, _, .more d1 (.more d2 (.more d3 (.more d4 .done))), by decide +kernel⟩

example : ∀ e ∈ exFile, Rest e := by
  intro e he
  simp only [exFile, List.mem_cons, List.not_mem_nil, or_false] at he
  rcases he with rfl | rfl | rfl | rfl <;> simp [Rest, DoOk]

end Cmm.CText
