import Verif.Parse.StatSyn
import Verif.Parse.Top

/-
Programs, for Verif/Props/C73.lean: a grammar of declarations with the names they enter and what they make. The functions of the
parser do not occur; those of the optimiser and the code generator do where the parser calls them.
-/
namespace Cmm.Parse
open Cmm.Tree

/-- What is handed to the code generator: the body of a function (its entry, the slots, the tree as written and as optimised, the
names), room for a variable, the value of a variable. -/
inductive Thing
  | code (idx slots : Nat) (tree body : Stmt) (tab : Tab)
  | room (idx : Nat) (tab : Tab)
  | value (idx : Nat) (d : Gen.DT) (tab : Tab) (lab : Nat)

/-- A name of scope `sc` may be called `x`. -/
def Fresh (T : Tab) (sc : Int) (x : String) : Prop :=
  T.length < 500 ∧ ∀ d ∈ T, d.name = x → d.scope ≠ ScVOID →
    sc ≠ ScSTRC ∧ d.scope ≠ ScSTRC ∧ (ScLVAR ≤ sc → d.scope ≠ sc) ∧ (sc = ScLVAR → d.scope ≠ ScPRM)

/-- The first global name `x`, if there is one. -/
def Earlier (T : Tab) (x : String) : Option Nat → Prop
  | none => ∀ d ∈ T, IsGlob d → d.name ≠ x
  | some i => ∃ d, T[i]? = some d ∧ IsGlob d ∧ d.name = x ∧ ∀ j d', j < i → T[j]? = some d' → ¬(IsGlob d' ∧ d'.name = x)

/-- The parameter `n` has been declared with this type if the function has been declared. -/
def AsBefore (T : Tab) (old : Option Nat) (n : Nat) (ty : Int) (dim : Nat) : Prop :=
  ∀ i, old = some i → ∃ d, T[i + 1 + n]? = some d ∧ d.type = ty ∧ d.dim = dim

/-- Behind a name that has been entered. -/
def Spot.enter (p : Spot) (e : Ent) : Spot := { p with tab := p.tab ++ [e] }

/-- Parameters. A comma may stand at the end, and `...` alone. -/
inductive Prms (old : Option Nat) : Spot → List Tok → Spot → Prop
  | none {p} : Prms old p [] p
  | dots {p} : AsBefore p.tab old p.cnt TyDOTDOTDOT 0 → Fresh p.tab ScPRM "" →
      Prms old p [Lx.DOTDOTDOT] { p.enter ⟨"", ScPRM, TyDOTDOTDOT, 0, p.cnt, false⟩ with dim := 0 }
  | last {p k ty dim x} : TypeTok p.tab k ty → Valued (ty, dim) → AsBefore p.tab old p.cnt ty dim → Fresh p.tab ScPRM x →
      Prms old p (k :: (dimToks dim ++ [.name x])) { p.enter ⟨x, ScPRM, ty, dim, p.cnt, false⟩ with dim := dim }
  | more {p k ty dim x us p'} : TypeTok p.tab k ty → Valued (ty, dim) → AsBefore p.tab old p.cnt ty dim → Fresh p.tab ScPRM x →
      Prms old { p.enter ⟨x, ScPRM, ty, dim, p.cnt, false⟩ with dim := dim, cnt := p.cnt + 1 } us p' →
      Prms old p (k :: (dimToks dim ++ .name x :: Lx.comma :: us)) p'

/-- The names that remain of a function: nothing new if it had been declared. -/
def keep (old : Option Nat) (T : Tab) (e : Ent) (prm : Tab) : Tab :=
  match old with
  | some _ => T
  | none => T ++ e :: prm.map fun e => { e with scope := ScVOID }

/-- An earlier declaration has become a definition. -/
def nowFun (old : Option Nat) (T : Tab) : Tab :=
  match old with
  | some i => T.modify i fun e => { e with scope := ScFUNC }
  | none => T

/-- The parameters of the function `x`. They agree with an earlier declaration. -/
structure Sig (ty : Int) (dim : Nat) (pub : Bool) (x : String) (p : Spot) (ps : List Tok) (old : Option Nat) (prm : Tab) (p1 : Spot) : Prop where
  earlier : Earlier p.tab x old
  like : ∀ i d, old = some i → p.tab[i]? = some d → IsFun d.scope ∧ d.type = ty ∧ d.dim = dim ∧ d.pub = pub ∧ d.cnt = prm.length
  intr : ty = TyINTR → dim = 0 ∧ prm = []
  prms : Prms old { p.enter ⟨x, ScPROT, ty, dim, p.cnt, pub⟩ with cnt := 0, last := none } ps p1
  tab : p1.tab = p.tab ++ ⟨x, ScPROT, ty, dim, p.cnt, pub⟩ :: prm

/-- The function `x` behind its name. -/
inductive Func (o : Opts) (ty : Int) (dim : Nat) (pub : Bool) (x : String) (p : Spot) : List Tok → List Thing → Spot → Prop
  | proto {ps old prm p1} : Sig ty dim pub x p ps old prm p1 →
      Func o ty dim pub x p (Lx.lpar :: (ps ++ [Lx.rpar, Lx.semi])) []
        { p1 with tab := keep old p.tab ⟨x, ScPROT, ty, dim, prm.length, pub⟩ prm }
  | body {ps old prm p1 p2 ts b p3 c n} : Sig ty dim pub x p ps old prm p1 →
      (∀ i d, old = some i → p.tab[i]? = some d → d.scope = ScPROT) →
      p2 = { p1 with tab := nowFun old p.tab ++ ⟨x, ScFUNC, ty, dim, prm.length, pub⟩ :: prm, most := 0, cnt := 0 } →
      Syn (ty, dim) (.items none) false p2 ts b p3 → (Valued (ty, dim) → p3.last = some Lx.RETURN) →
      optS o (stOf (blockOf b)) = some c →
      n = (Gen.genFunc (ntOf (p2.leave p3).tab) p.tab.length (ty == TyINTR) o.krn p3.most c p3.lab).2 →
      Func o ty dim pub x p (Lx.lpar :: (ps ++ Lx.rpar :: Lx.lbrc :: (ts ++ [Lx.rbrc])))
        [.code p.tab.length p3.most (stOf (blockOf b)) c (p2.leave p3).tab]
        { p3 with tab := keep old (nowFun old p.tab) ⟨x, ScFUNC, ty, dim, prm.length, pub⟩ prm, cnt := 0, lab := n }

/-- The earlier declaration of a variable is alike and of a scope in `ok`. -/
def Again (T : Tab) (i : Nat) (ok : Int → Prop) (ty : Int) (dim : Nat) (pub : Bool) : Prop :=
  ∃ d, T[i]? = some d ∧ ok d.scope ∧ d.type = ty ∧ d.dim = dim ∧ d.pub = pub

/-- A global variable, from its name on. -/
inductive GVar (ty : Int) (dim : Nat) (pub : Bool) (p : Spot) : List Tok → List Thing → Spot → Prop
  | room {x} : Fresh p.tab ScCOMM x → Earlier p.tab x none →
      GVar ty dim pub p [.name x] [.room p.tab.length (p.enter ⟨x, ScCOMM, ty, dim, p.cnt, pub⟩).tab] (p.enter ⟨x, ScCOMM, ty, dim, p.cnt, pub⟩)
  | again {x i} : Fresh p.tab ScCOMM x → Earlier p.tab x (some i) → Again p.tab i (fun c => c = ScCOMM ∨ c = ScGVAR) ty dim pub →
      GVar ty dim pub p [.name x] [] p
  | value {x ts d m} : Fresh p.tab ScCOMM x → Earlier p.tab x none →
      Says (p.enter ⟨x, ScGVAR, ty, dim, p.cnt, pub⟩).tab (.val ty dim) p.lab ts d m →
      Gen.Dir.bug ∉ (Gen.genData p.tab.length dim d m).1 →
      GVar ty dim pub p (.name x :: Lx.eq :: ts) [.value p.tab.length d (p.enter ⟨x, ScGVAR, ty, dim, p.cnt, pub⟩).tab m]
        { p.enter ⟨x, ScGVAR, ty, dim, p.cnt, pub⟩ with lab := (Gen.genData p.tab.length dim d m).2 }
  | valueAgain {x i ts d m} : Fresh p.tab ScCOMM x → Earlier p.tab x (some i) → Again p.tab i (fun c => c = ScCOMM) ty dim pub →
      Says (p.enter ⟨x, ScGVAR, ty, dim, p.cnt, pub⟩).tab (.val ty dim) p.lab ts d m →
      Gen.Dir.bug ∉ (Gen.genData p.tab.length dim d m).1 →
      GVar ty dim pub p (.name x :: Lx.eq :: ts) [.value p.tab.length d (p.enter ⟨x, ScGVAR, ty, dim, p.cnt, pub⟩).tab m]
        { p with tab := p.tab.modify i fun e => { e with scope := ScGVAR }, lab := (Gen.genData p.tab.length dim d m).2 }

/-- Global variables separated by commas. -/
inductive GVars (ty : Int) (dim : Nat) (pub : Bool) : Spot → List Tok → List Thing → Spot → Prop
  | one {p ts m p'} : GVar ty dim pub p ts m p' → GVars ty dim pub p ts m p'
  | more {p ts m p1 us m' p'} : GVar ty dim pub p ts m p1 → GVars ty dim pub p1 us m' p' →
      GVars ty dim pub p (ts ++ Lx.comma :: us) (m ++ m') p'

/-- Fields of one type. -/
inductive Flds (ty : Int) (dim : Nat) : Spot → List Tok → Spot → Prop
  | one {p x} : Fresh p.tab ScFLD x → Flds ty dim p [.name x] { p.enter ⟨x, ScFLD, ty, dim, p.cnt, false⟩ with cnt := p.cnt + 1 }
  | more {p x us p'} : Fresh p.tab ScFLD x → Flds ty dim { p.enter ⟨x, ScFLD, ty, dim, p.cnt, false⟩ with cnt := p.cnt + 1 } us p' →
      Flds ty dim p (.name x :: Lx.comma :: us) p'

/-- The fields of a structure. -/
inductive Lines : Spot → List Tok → Spot → Prop
  | one {p k ty dim us p'} : TypeTok p.tab k ty → Valued (ty, dim) → Flds ty dim { p with dim := dim } us p' →
      Lines p (k :: (dimToks dim ++ (us ++ [Lx.semi]))) p'
  | more {p k ty dim us p1 vs p'} : TypeTok p.tab k ty → Valued (ty, dim) → Flds ty dim { p with dim := dim } us p1 → Lines p1 vs p' →
      Lines p (k :: (dimToks dim ++ (us ++ Lx.semi :: vs))) p'

/-- `public` or nothing. -/
def pubToks : Bool → List Tok
  | true => [Lx.PUBLIC]
  | false => []

/-- A declaration. -/
inductive Decln (o : Opts) : Spot → List Tok → List Thing → Spot → Prop
  | struct {p x fs p' fl} : Fresh p.tab ScSTRC x →
      Lines { p.enter ⟨x, ScSTRC, TySTRUC, p.dim, p.cnt, false⟩ with cnt := 0 } fs p' →
      p'.tab = p.tab ++ ⟨x, ScSTRC, TySTRUC, p.dim, p.cnt, false⟩ :: fl →
      Decln o p (Lx.STRUCT :: .name x :: Lx.lbrc :: (fs ++ [Lx.rbrc, Lx.semi])) []
        { p' with tab := keep none p.tab ⟨x, ScSTRC, TySTRUC, p.dim, fl.length, false⟩ fl }
  | typedef {p x} : Fresh p.tab ScSTRC x →
      Decln o p [Lx.TYPEDEF, .name x, Lx.semi] [] (p.enter ⟨x, ScSTRC, TyREF, p.dim, p.cnt, false⟩)
  | vars {p pub k ty dim us m p'} : TypeTok p.tab k ty → Valued (ty, dim) → GVars ty dim pub { p with dim := dim } us m p' →
      Decln o p (pubToks pub ++ k :: (dimToks dim ++ (us ++ [Lx.semi]))) m p'
  | func {p pub k ty dim x us m p'} : TypeTok p.tab k ty → (ty = TyINTR → o.krn = true) → Fresh p.tab ScPROT x →
      Func o ty dim pub x { p with dim := dim } us m p' →
      Decln o p (pubToks pub ++ k :: (dimToks dim ++ .name x :: us)) m p'

/-- Declarations, and what they make in the order of the text. -/
inductive Prog (o : Opts) : Spot → List Tok → List Thing → Spot → Prop
  | done {p} : Prog o p [] [] p
  | more {p ts m p1 us m' p'} : Decln o p ts m p1 → Prog o p1 us m' p' → Prog o p (ts ++ us) (m ++ m') p'

/-! ### Names -/

variable {s s' : PS} {o : Opts}

theorem collides_fresh {x : String} {sc : Int} {d : Ent} : collides x sc d = false ↔ (d.name = x → d.scope ≠ ScVOID →
    sc ≠ ScSTRC ∧ d.scope ≠ ScSTRC ∧ (ScLVAR ≤ sc → d.scope ≠ sc) ∧ (sc = ScLVAR → d.scope ≠ ScPRM)) := by
  rw [Bool.eq_false_iff]
  simp only [collides, ne_eq, Bool.and_eq_true, Bool.or_eq_true, bne_iff_ne, beq_iff_eq, decide_eq_true_eq, ScVOID, ScSTRC, ScLVAR, ScPRM]
  constructor
  · intro h hn hv
    refine ⟨fun h' => h ?_, fun h' => h ?_, fun h1 h' => h ?_, fun h1 h' => h ?_⟩
    · exact ⟨⟨hv, hn⟩, .inl (.inl (.inl h'))⟩
    · exact ⟨⟨hv, hn⟩, .inl (.inl (.inr h'))⟩
    · exact ⟨⟨hv, hn⟩, .inl (.inr ⟨h1, h'⟩)⟩
    · exact ⟨⟨hv, hn⟩, .inr ⟨h', h1⟩⟩
  · intro h ⟨⟨h1, h2⟩, h3⟩
    obtain ⟨k1, k2, k3, k4⟩ := h h2 h1
    rcases h3 with ((h3 | h3) | ⟨h3, h4⟩) | ⟨h3, h4⟩
    · exact k1 h3
    · exact k2 h3
    · exact k3 h3 h4
    · exact k4 h4 h3

theorem defName_fresh {t t' : Tab} {e : Ent} : defName t e = some t' ↔ Fresh t e.scope e.name ∧ t' = t ++ [e] := by
  unfold defName Fresh
  constructor
  · intro h
    obtain ⟨h1, h2, h3⟩ := defName_some h
    rw [chkName_none_iff] at h3
    exact ⟨⟨h2, fun d hd => collides_fresh.1 (h3 d hd)⟩, h1⟩
  · rintro ⟨⟨h1, h2⟩, rfl⟩
    have h3 : chkName t e.name e.scope = none := by
      rw [chkName_none_iff]
      exact fun d hd => collides_fresh.2 (h2 d hd)
    rw [if_neg (by unfold NtMAX; omega), h3]
    rfl

theorem getName_iff {sc ty : Int} {pub : Bool} : getName o sc ty pub s = some s' ↔
    ∃ x r, s.toks = .name x :: r ∧ (sc = ScPROT ∨ Valued (ty, s.curDim)) ∧ (ty = TyINTR → o.krn = true) ∧ Fresh s.tab sc x ∧
      s' = { s with toks := r, tab := s.tab ++ [⟨x, sc, ty, s.curDim, s.curCnt, pub⟩] } := by
  unfold getName Valued
  constructor
  · intro h
    split at h
    · next x r hs =>
      split at h
      · cases h
      · next h1 =>
        split at h
        · cases h
        · next h2 =>
          split at h
          · cases h
          · next h3 =>
            simp only [Option.map_eq_some_iff] at h
            obtain ⟨t, h4, h⟩ := h
            cases h
            obtain ⟨h5, rfl⟩ := defName_fresh.1 h4
            refine ⟨x, r, hs, ?_, ?_, h5, rfl⟩
            · by_cases hp : sc = ScPROT
              · exact .inl hp
              · refine .inr ⟨fun h => h2 ⟨hp, h⟩, fun h => h1 ⟨hp, ?_⟩⟩
                simpa using h
            · intro hi
              by_contra hk
              exact h3 ⟨hi, by simpa using hk⟩
    · cases h
  · rintro ⟨x, r, hs, h1, h2, h3, rfl⟩
    rw [hs]
    have hd := (defName_fresh (t := s.tab) (e := ⟨x, sc, ty, s.curDim, s.curCnt, pub⟩)).2 ⟨h3, rfl⟩
    simp only
    rw [if_neg, if_neg, if_neg, hd]
    · rfl
    · rintro ⟨a, b⟩
      rw [h2 a] at b
      cases b
    · rintro ⟨a, b⟩
      exact (h1.resolve_left a).1 b
    · rintro ⟨a, b, c⟩
      exact (h1.resolve_left a).2 (by rw [b, c])

theorem earlier_iff {T : Tab} {e : Ent} : ∀ {old : Option Nat}, srcGlob (T ++ [e]) T.length = old ↔ Earlier T e.name old := by
  intro old
  cases old with
  | some i => exact srcGlob_iff
  | none =>
    rw [Option.eq_none_iff_forall_ne_some]
    constructor
    · intro h d hd hg hn
      have hex : ∃ i : Nat, ∃ e', T[i]? = some e' ∧ IsGlob e' ∧ e'.name = e.name := by
        obtain ⟨i, hi⟩ := List.mem_iff_getElem?.1 hd
        exact ⟨i, d, hi, hg, hn⟩
      classical
      obtain ⟨d', k1, k2, k3⟩ := Nat.find_spec hex
      exact h (Nat.find hex) (srcGlob_iff.2 ⟨d', k1, k2, k3, fun j d'' hj hd'' hc => Nat.find_min hex hj ⟨d'', hd'', hc⟩⟩)
    · intro h i hi
      obtain ⟨d, k1, k2, k3, -⟩ := srcGlob_iff.1 hi
      exact h d (List.mem_of_getElem? k1) k2 k3

/-- What the code generator gets (without `pts`, which the C program does not have). -/
def Out.thing : Out → Thing
  | .func i n src body tab _ => .code i n src body tab
  | .bss i tab => .room i tab
  | .data i d tab lab => .value i d tab lab

/-- The tokens `ts` have been read and `m` has been made. -/
structure Built (s s' : PS) (ts : List Tok) (m : List Thing) : Prop where
  toks : s.toks = ts ++ s'.toks
  depth : s'.depth = s.depth
  out : s'.out.map Out.thing = m.reverse ++ s.out.map Out.thing

theorem Moved.built {ts : List Tok} (h : Moved s s' ts) : Built s s' ts [] := ⟨h.toks, h.depth, by rw [h.out]; rfl⟩

theorem Built.trans {s s1 s2 : PS} {ts us : List Tok} {m m' : List Thing} (h : Built s s1 ts m) (h' : Built s1 s2 us m') :
    Built s s2 (ts ++ us) (m ++ m') :=
  ⟨by rw [h.toks, h'.toks, List.append_assoc], h'.depth.trans h.depth, by rw [h'.out, h.out]; simp⟩

/-! ### What is read is in the grammar -/

theorem getTy_iff_some {ty : Int} (h : getTy s = some (ty, s')) : ∃ k, TypeTok s.tab k ty ∧ Moved s s' (k :: dimToks s'.curDim) ∧
    s'.spot = { s.spot with dim := s'.curDim } := by
  simp only [getTy, Option.map_eq_some_iff] at h
  obtain ⟨⟨ty', dim, s1⟩, h1, e1⟩ := h
  cases e1
  obtain ⟨k, g1, g2, g3⟩ := getType_some h1
  refine ⟨k, g2, ⟨g1, ?_, ?_⟩, ?_⟩ <;> rw [g3] <;> rfl

theorem chkOld_iff {old : Option Nat} {ty : Int} : (∃ u, chkOld old ty s = some u) ↔ AsBefore s.tab old s.curCnt ty s.curDim := by
  unfold chkOld AsBefore chkParam
  cases old with
  | none => simp
  | some i =>
    simp only [Option.some.injEq, forall_eq']
    split
    · next e he => simp [he]
    · next he => simp [he]

theorem isType_not {t : Tok} {r : List Tok} (hs : s.toks = t :: r) (ht : ∀ ty, ¬TypeTok s.tab t ty) : ¬isType s = true := by
  intro h
  unfold isType at h
  rw [hs] at h
  obtain ⟨ty, hk⟩ := isType_iff.1 (by simpa using h : typeOf s.tab t ≠ TyNON)
  exact ht ty hk

theorem prmLoop_spot {old : Option Nat} {r : Bool × PS} (h : prmLoop o old s = some r) : ∃ ts, Moved s r.2 ts ∧
    (r.1 = false → Prms old s.spot ts r.2.spot) ∧
    (r.1 = true → ∀ us p', (us = [] ∨ us = [Lx.DOTDOTDOT]) → Prms old r.2.spot us p' → Prms old s.spot (ts ++ us) p') := by
  refine prmLoop.partial_correctness o old (fun s r => ∃ ts, Moved s r.2 ts ∧ (r.1 = false → Prms old s.spot ts r.2.spot) ∧
    (r.1 = true → ∀ us p', (us = [] ∨ us = [Lx.DOTDOTDOT]) → Prms old r.2.spot us p' → Prms old s.spot (ts ++ us) p')) ?_ s r h
  intro loop ih s r h
  split at h
  · simp only [Option.bind_eq_bind, Option.bind_eq_some_iff] at h
    obtain ⟨⟨ty, s1⟩, h1, u, h2, s2, h3, h⟩ := h
    obtain ⟨k, a1, a2, a3⟩ := getTy_iff_some h1
    have b := chkOld_iff.1 ⟨u, h2⟩
    obtain ⟨x, r', c1, c2, -, c3, rfl⟩ := getName_iff.1 h3
    have ht : s1.tab = s.tab := congrArg Spot.tab a3
    have hc : s1.curCnt = s.curCnt := congrArg Spot.cnt a3
    have c2 := c2.resolve_left (by decide)
    rw [ht, hc] at b
    rw [ht] at c3
    have hsp : PS.spot { s1 with toks := r', tab := s1.tab ++ [⟨x, ScPRM, ty, s1.curDim, s1.curCnt, false⟩] } =
        { s.spot.enter ⟨x, ScPRM, ty, s1.curDim, s.curCnt, false⟩ with dim := s1.curDim } := by
      rw [show PS.spot { s1 with toks := r', tab := s1.tab ++ [⟨x, ScPRM, ty, s1.curDim, s1.curCnt, false⟩] } =
        { s1.spot with tab := s1.spot.tab ++ [⟨x, ScPRM, ty, s1.curDim, s1.spot.cnt, false⟩] } from rfl, a3]
      rfl
    have hm : Moved s { s1 with toks := r', tab := s1.tab ++ [⟨x, ScPRM, ty, s1.curDim, s1.curCnt, false⟩] }
        (k :: (dimToks s1.curDim ++ [.name x])) := by
      have := a2.trans (us := [.name x]) (s2 := { s1 with toks := r', tab := s1.tab ++ [⟨x, ScPRM, ty, s1.curDim, s1.curCnt, false⟩] })
        ⟨c1, rfl, rfl⟩
      simpa using this
    split at h
    · next r'' hcm =>
      obtain ⟨ts, i1, i2, i3⟩ := ih _ _ h
      have hcm : r' = Lx.comma :: r'' := hcm
      have hsp2 : PS.spot { PS.next { s1 with toks := r', tab := s1.tab ++ [⟨x, ScPRM, ty, s1.curDim, s1.curCnt, false⟩] } with
          curCnt := s1.curCnt + 1 } =
          { s.spot.enter ⟨x, ScPRM, ty, s1.curDim, s.curCnt, false⟩ with dim := s1.curDim, cnt := s.curCnt + 1 } := by
        rw [show PS.spot { PS.next { s1 with toks := r', tab := s1.tab ++ [⟨x, ScPRM, ty, s1.curDim, s1.curCnt, false⟩] } with
          curCnt := s1.curCnt + 1 } = { PS.spot { s1 with toks := r', tab := s1.tab ++ [⟨x, ScPRM, ty, s1.curDim, s1.curCnt, false⟩] } with
          cnt := s1.curCnt + 1 } from rfl, hsp, hc]
      rw [hsp2] at i2 i3
      refine ⟨k :: (dimToks s1.curDim ++ .name x :: Lx.comma :: ts), ?_, ?_, ?_⟩
      · have hm2 : Moved { s1 with toks := r', tab := s1.tab ++ [⟨x, ScPRM, ty, s1.curDim, s1.curCnt, false⟩] }
            { PS.next { s1 with toks := r', tab := s1.tab ++ [⟨x, ScPRM, ty, s1.curDim, s1.curCnt, false⟩] } with
              curCnt := s1.curCnt + 1 } [Lx.comma] := ⟨by simp [PS.next, hcm], rfl, rfl⟩
        simpa using hm.trans (hm2.trans i1)
      · exact fun hf => .more a1 c2 b c3 (i2 hf)
      · intro hf us p' hu hp
        have := Prms.more a1 c2 b c3 (i3 hf us p' hu hp)
        simpa using this
    · cases h
      refine ⟨_, hm, fun _ => ?_, nofun⟩
      rw [hsp]
      exact .last a1 c2 b c3
  · cases h
    exact ⟨[], ⟨rfl, rfl, rfl⟩, nofun, fun _ us p' _ hp => hp⟩

theorem getParams_spot {old : Option Nat} (h : getParams o old s = some s') : ∃ ts, Prms old { s.spot with cnt := 0 } ts s'.spot ∧
    Moved s s' (ts ++ [Lx.rpar]) := by
  simp only [getParams, Option.bind_eq_bind, Option.bind_eq_some_iff] at h
  obtain ⟨⟨c, s1⟩, h1, s2, h2, h3⟩ := h
  obtain ⟨ts, a1, a2, a3⟩ := prmLoop_spot h1
  obtain ⟨d1, d2, -⟩ := chkTok_spot h3
  rw [d2]
  unfold getDots at h2
  split at h2
  · rename_i hc hs
    simp only [Option.bind_eq_bind, Option.bind_eq_some_iff] at h2
    obtain ⟨u, k1, t, k2, h2⟩ := h2
    cases h2
    obtain ⟨k3, rfl⟩ := defName_fresh.1 k2
    have hs : s1.toks = Lx.DOTDOTDOT :: _ := hs
    have k1 := chkOld_iff.1 ⟨u, k1⟩
    refine ⟨ts ++ [Lx.DOTDOTDOT], a3 hc _ _ (.inr rfl) (.dots k1 k3), ?_⟩
    have : Moved s1 { s1.next with curDim := 0, tab := s1.tab ++ [⟨"", ScPRM, TyDOTDOTDOT, 0, s1.curCnt, false⟩] } [Lx.DOTDOTDOT] :=
      ⟨by simp [PS.next, hs], rfl, rfl⟩
    have := (a1.trans this).trans d1
    exact ⟨this.toks, this.depth, this.out⟩
  · cases h2
    have hp : Prms old { s.spot with cnt := 0 } ts s1.spot := by
      cases c with
      | false => exact a2 rfl
      | true =>
        have := a3 rfl [] _ (.inl rfl) .none
        rw [List.append_nil] at this
        exact this
    have := a1.trans d1
    exact ⟨ts, hp, this.toks, this.depth, this.out⟩

/-- Parameters are entered behind the names. -/
theorem Prms.app {old : Option Nat} {p p' : Spot} {ts : List Tok} (h : Prms old p ts p') :
    (∃ l, p'.tab = p.tab ++ l) ∧ p'.lab = p.lab ∧ p'.most = p.most ∧ p'.last = p.last := by
  induction h with
  | none => exact ⟨⟨[], by simp⟩, rfl, rfl, rfl⟩
  | dots _ _ => exact ⟨⟨_, rfl⟩, rfl, rfl, rfl⟩
  | last _ _ _ _ => exact ⟨⟨_, rfl⟩, rfl, rfl, rfl⟩
  | more _ _ _ _ _ ih =>
    obtain ⟨⟨l, hl⟩, h2⟩ := ih
    exact ⟨⟨[_] ++ l, by rw [hl, Spot.enter]; simp only [List.append_assoc]; rfl⟩, h2⟩

theorem Syn.app {F : Int × Nat} {k : NT} {l : Bool} {p p' : Spot} {ts : List Tok} {r : Option Stmt} (h : Syn F k l p ts r p') :
    ∃ l, p'.tab = p.tab ++ l := by
  have tr : ∀ {a b c : Tab}, (∃ l, b = a ++ l) → (∃ l, c = b ++ l) → ∃ l, c = a ++ l := by
    rintro a b c ⟨l, rfl⟩ ⟨l', rfl⟩
    exact ⟨l ++ l', by simp⟩
  have rf : ∀ {a : Tab}, ∃ l, a = a ++ l := fun {a} => ⟨[], by simp⟩
  have cond : ∀ {p : Spot} {cs c p'}, Cond p cs c p' → ∃ l, p'.tab = p.tab ++ l := by
    intro p cs c p' h
    cases h
    exact rf
  have decl : ∀ {p : Spot} {ts d p'}, LocalDecl p ts d p' → ∃ l, p'.tab = p.tab ++ l := by
    intro p ts d p' h
    cases h with
    | mk _ _ _ h =>
      have one : ∀ {ty dim} {p : Spot} {ts d p'}, Declr ty dim p ts d p' → ∃ l, p'.tab = p.tab ++ l := by
        intro ty dim p ts d p' h
        cases h <;> exact ⟨_, rfl⟩
      have all : ∀ {ty dim} {p : Spot} {ts d p'}, Declrs ty dim p ts d p' → ∃ l, p'.tab = p.tab ++ l := by
        intro ty dim p ts d p' h
        induction h with
        | one h => exact one h
        | more _ h ih => exact tr ih (one h)
      obtain ⟨l, hl⟩ := all h
      exact ⟨l, hl⟩
  have lv : ∀ {p0 p : Spot}, (∃ l, p.tab = p0.tab ++ l) → ∃ l, (p0.leave p).tab = p0.tab ++ l := by
    rintro p0 p ⟨l, hl⟩
    refine ⟨(p.tab.drop p0.tab.length).map (fun e => { e with scope := ScVOID }), ?_⟩
    unfold Spot.leave
    rw [hl, List.take_left]
  induction h with
  | null => exact rf
  | exp _ => exact rf
  | ret _ => exact rf
  | retV _ _ _ => exact rf
  | brk => exact rf
  | cnt => exact rf
  | ifs hc _ ih => exact tr (cond hc) ih
  | els hc _ _ ih1 ih2 => exact tr (cond hc) (tr ih1 ih2)
  | whl hc _ ih => exact tr (cond hc) ih
  | dos _ hc ih =>
    obtain ⟨l, hl⟩ := tr ih (cond hc)
    exact ⟨l, hl⟩
  | @«for» _ _ p _ _ p1 _ _ p2 _ _ p3 _ _ p4 h1 h2 h3 _ ih =>
    refine lv (tr (b := p1.tab) ?_ (tr (b := p2.tab) ?_ (tr (b := p3.tab) ?_ ih)))
    · cases h1 with
      | none => exact rf
      | decl h => exact decl h
      | exp _ _ => exact rf
    · cases h2 <;> exact rf
    · cases h3 <;> exact rf
  | block _ ih => exact lv ih
  | done => exact rf
  | decl hd _ ih => exact tr (decl hd) ih
  | stat _ _ _ ih1 ih2 => exact tr ih1 ih2

theorem leave_take {F : Int × Nat} {k : NT} {l : Bool} {p p' : Spot} {ts : List Tok} {r : Option Stmt} (h : Syn F k l p ts r p') :
    (p.leave p').tab.take p.tab.length = p.tab := by
  obtain ⟨l, hl⟩ := h.app
  unfold Spot.leave
  rw [hl, List.take_left, List.take_left]

theorem keep_eq {T prm : Tab} {e : Ent} {old : Option Nat} {t : Tab} (h : t.take (T ++ e :: prm).length = T ++ e :: prm) :
    endFunc old T.length (T.length + 1) (T ++ e :: prm).length t = keep old T e prm := by
  unfold endFunc keep undefName setVoid
  cases old with
  | some i =>
    simp only
    have := congrArg (List.take T.length) h
    rw [List.take_take, List.take_left, Nat.min_eq_left (by simp)] at this
    exact this
  | none =>
    simp only
    rw [h]
    have e1 : (T ++ e :: prm).take (T.length + 1) = T ++ [e] := by
      rw [show T ++ e :: prm = (T ++ [e]) ++ prm by simp, List.take_left' (by simp)]
    have e2 : (T ++ e :: prm).drop (T.length + 1) = prm := by
      rw [show T ++ e :: prm = (T ++ [e]) ++ prm by simp, List.drop_left' (by simp)]
    rw [e1, e2]
    simp

theorem fnFits_iff {T : Tab} {e : Ent} {old : Option Nat} {ty : Int} {dim : Nat} {pub : Bool} (he : Earlier T e.name old) :
    fnFits (T ++ [e]) old ty dim pub = true ↔
      ∀ i d, old = some i → T[i]? = some d → IsFun d.scope ∧ d.type = ty ∧ d.dim = dim ∧ d.pub = pub := by
  unfold fnFits
  cases old with
  | none => simp
  | some i =>
    obtain ⟨d, h1, h2, -, -⟩ := he
    have hi := (List.getElem?_eq_some_iff.1 h1).1
    simp only [List.getElem?_append_left hi, h1]
    simp only [Bool.and_eq_true, bne_iff_ne, beq_iff_eq, ne_eq, Option.some.injEq]
    constructor
    · rintro ⟨⟨⟨⟨k1, k2⟩, k3⟩, k4⟩, k5⟩ j d' hj hd'
      subst hj
      rw [h1] at hd'
      cases hd'
      refine ⟨?_, k3, k4, k5⟩
      rcases h2 with h | h | h | h
      · exact .inl h
      · exact .inr h
      · exact absurd h k1
      · exact absurd h k2
    · intro h
      obtain ⟨k1, k2, k3, k4⟩ := h i d rfl h1
      refine ⟨⟨⟨⟨?_, ?_⟩, k2⟩, k3⟩, k4⟩ <;> intro hc <;> rw [hc] at k1 <;> rcases k1 with k1 | k1 <;> cases k1

theorem cntFits_iff {T r : Tab} {name : String} {old : Option Nat} {c : Nat} (he : Earlier T name old) :
    cntFits (T ++ r) old c = true ↔ ∀ i d, old = some i → T[i]? = some d → d.cnt = c := by
  unfold cntFits
  cases old with
  | none => simp
  | some i =>
    obtain ⟨d, h1, h2, -, -⟩ := he
    have hi := (List.getElem?_eq_some_iff.1 h1).1
    simp only [List.getElem?_append_left hi, h1]
    simp only [beq_iff_eq, Option.some.injEq]
    constructor
    · rintro h j d' hj hd'
      subst hj
      rw [h1] at hd'
      cases hd'
      exact h
    · exact fun h => h i d rfl h1

theorem modify_app {T r : Tab} {i : Nat} {f : Ent → Ent} (h : i < T.length) : (T ++ r).modify i f = T.modify i f ++ r := by
  induction T generalizing i with
  | nil => cases h
  | cons a t ih =>
    cases i with
    | zero => rfl
    | succ i => simpa using ih (by simpa using h)

theorem setOld_iff {T r t : Tab} {name : String} {old : Option Nat} (he : Earlier T name old) :
    setOld old (T ++ r) = some t ↔ (∀ i d, old = some i → T[i]? = some d → d.scope = ScPROT) ∧ t = nowFun old T ++ r := by
  unfold setOld nowFun
  cases old with
  | none => simp [eq_comm]
  | some i =>
    obtain ⟨d, h1, h2, -, -⟩ := he
    have hi := (List.getElem?_eq_some_iff.1 h1).1
    simp only [List.getElem?_append_left hi, h1, Option.bind_eq_bind, Option.bind_some, Option.some.injEq]
    have hm : setScope (T ++ r) i ScFUNC = (T.modify i fun e => { e with scope := ScFUNC }) ++ r := by
      unfold setScope
      exact modify_app hi
    split
    · next hs =>
      simp only [reduceCtorEq, false_iff]
      exact fun h => hs (h.1 i d rfl h1)
    · next hs =>
      rw [Option.some.injEq, hm]
      constructor
      · rintro rfl
        refine ⟨?_, rfl⟩
        rintro j d' hj hd'
        subst hj
        rw [h1] at hd'
        cases hd'
        exact not_not.1 hs
      · rintro ⟨-, rfl⟩
        rfl

theorem nowFun_length {T : Tab} {old : Option Nat} : (nowFun old T).length = T.length := by
  unfold nowFun
  cases old <;> simp

theorem getFunc_spot {ty : Int} {pub : Bool} (h : getFunc o ty pub s = some s') {T : Tab} {x : String}
    (ht : s.tab = T ++ [⟨x, ScPROT, ty, s.curDim, s.curCnt, pub⟩]) (hl : ∃ r, s.toks = Lx.lpar :: r) (hd : s.depth = 0) :
    ∃ ts m, Func o ty s.curDim pub x { s.spot with tab := T } ts m s'.spot ∧ Built s s' ts m := by
  have hlen : s.tab.length - 1 = T.length := by rw [ht]; simp
  have hlen1 : s.tab.length = T.length + 1 := by rw [ht]; simp
  obtain ⟨r0, hr0⟩ := hl
  obtain ⟨n1, n2⟩ := next_spot hr0
  unfold getFunc at h
  rw [hlen] at h
  simp only at h
  generalize hold : srcGlob s.tab T.length = old at h
  have he : Earlier T x old := by
    rw [ht] at hold
    exact earlier_iff.1 hold
  split at h
  · cases h
  · next h1 =>
    rw [Bool.not_eq_false, ht, fnFits_iff he] at h1
    split at h
    · cases h
    · next h2 =>
      simp only [Option.bind_eq_bind, Option.bind_eq_some_iff] at h
      obtain ⟨s1, h3, h⟩ := h
      obtain ⟨ps, a1, a2⟩ := getParams_spot h3
      have hsp : { PS.spot { s.next with lastStat := none } with cnt := 0 } =
          { Spot.enter { s.spot with tab := T } ⟨x, ScPROT, ty, s.curDim, s.curCnt, pub⟩ with cnt := 0, last := none } := by
        simp only [PS.spot, Spot.enter]
        rw [show s.next.tab = s.tab from rfl, ht]
        rfl
      rw [hsp] at a1
      obtain ⟨⟨prm, b1⟩, b2, b3, b4⟩ := a1.app
      have b1 : s1.tab = T ++ ⟨x, ScPROT, ty, s.curDim, s.curCnt, pub⟩ :: prm := by
        rw [show s1.tab = s1.spot.tab from rfl, b1]; simp [Spot.enter]
      have hc : s1.tab.length - s.tab.length = prm.length := by rw [b1, hlen1]; simp; omega
      rw [hc] at h
      split at h
      · cases h
      · next h4 =>
        have hset : setCnt s1.tab T.length prm.length = T ++ ⟨x, ScPROT, ty, s.curDim, prm.length, pub⟩ :: prm := by
          rw [b1, setCnt_app]
        simp only [hset] at h
        split at h
        · cases h
        · next h5 =>
          rw [Bool.not_eq_false, cntFits_iff he] at h5
          simp only [Option.bind_eq_some_iff] at h
          obtain ⟨s2, h6, h⟩ := h
          cases h
          have sig : Sig ty s.curDim pub x { s.spot with tab := T } ps old prm s1.spot := by
            refine ⟨he, fun i d hi hd => ?_, fun hi => ?_, a1, b1⟩
            · obtain ⟨k1, k2, k3, k4⟩ := h1 i d hi hd
              exact ⟨k1, k2, k3, k4, h5 i d hi hd⟩
            · refine ⟨?_, ?_⟩
              · by_contra hne
                exact h2 ⟨hi, hne⟩
              · by_contra hne
                exact h4 ⟨hi, fun h0 => hne (List.length_eq_zero_iff.1 h0)⟩
          have m1 : Moved s s1 (Lx.lpar :: (ps ++ [Lx.rpar])) := n1.cons ⟨a2.toks, a2.depth, a2.out⟩
          unfold getBodyOrSemi at h6
          rw [hlen1]
          split at h6
          · next r1 hs1 =>
            simp only [getBody, Option.bind_eq_bind, Option.bind_eq_some_iff] at h6
            obtain ⟨t, h7, ⟨b, s3⟩, h8, h6⟩ := h6
            have h7' := (setOld_iff he).1 h7
            obtain ⟨k1, rfl⟩ := h7'
            rw [← nowFun_length (old := old) (T := T), setScope_app] at h8
            obtain ⟨a, s4, ts, g1, g2, g3, g4⟩ := (syn_of o ty s.curDim).2.2.1 _ _ h8
            have hd1 : s1.depth = 0 := m1.depth.trans hd
            have g1 : Syn (ty, s.curDim) (.items none) false
                { s1.spot with tab := nowFun old T ++ ⟨x, ScFUNC, ty, s.curDim, prm.length, pub⟩ :: prm, most := 0, cnt := 0 } ts a s4.spot := by
              have e : decide (s1.depth ≠ 0) = false := by rw [hd1]; rfl
              rw [← e]
              exact g1
            have g4 : s3.spot = Spot.leave
                { s1.spot with tab := nowFun old T ++ ⟨x, ScFUNC, ty, s.curDim, prm.length, pub⟩ :: prm, most := 0, cnt := 0 } s4.spot := g4
            have g3 : b = blockOf a := g3
            subst g3
            split at h6
            · cases h6
            · next hv =>
              simp only [Option.bind_eq_bind, Option.bind_eq_some_iff] at h6
              obtain ⟨c, h9, h6⟩ := h6
              cases h6
              rw [orEmpty_eq] at h9
              have e1 : s3.tab = (Spot.leave
                { s1.spot with tab := nowFun old T ++ ⟨x, ScFUNC, ty, s.curDim, prm.length, pub⟩ :: prm, most := 0, cnt := 0 } s4.spot).tab :=
                congrArg Spot.tab g4
              have e2 : s3.maxCnt = s4.spot.most := congrArg Spot.most g4
              have e3 : s3.lab = s4.spot.lab := congrArg Spot.lab g4
              have e4 : s3.lastStat = s4.spot.last := congrArg Spot.last g4
              have e5 : s3.curCnt = 0 := congrArg Spot.cnt g4
              have e6 : s3.curDim = s4.spot.dim := congrArg Spot.dim g4
              have htk := leave_take g1
              rw [← e1] at htk
              have hk := keep_eq (old := old) htk
              rw [List.length_append, nowFun_length] at hk
              have hv' : Valued (ty, s.curDim) → s4.spot.last = some Lx.RETURN := by
                intro h
                by_contra hne
                exact hv ⟨hasVal_valued.2 h, by rw [e4]; exact hne⟩
              refine ⟨Lx.lpar :: (ps ++ Lx.rpar :: Lx.lbrc :: (ts ++ [Lx.rbrc])), [.code T.length s4.spot.most (stOf (blockOf a)) c s3.tab], ?_, ?_⟩
              · have F := Func.body sig k1 rfl g1 hv' h9 rfl
                rw [e1]
                refine cast (congrArg (Func o ty s.curDim pub x _ _ _) ?_) F
                simp only [PS.spot, Spot.mk.injEq]
                refine ⟨?_, ?_, e5.symm, e2.symm, e4.symm, e6.symm⟩
                · refine hk.symm.trans ?_
                  rw [List.length_append]
                  exact congrArg (endFunc old T.length (T.length + 1) _) e1
                · rw [e3, e2]
                  rfl
              · have hm : Moved s1 s3 (Lx.lbrc :: (ts ++ [Lx.rbrc])) := by
                  refine ⟨?_, g2.depth, g2.out⟩
                  have q : s1.toks = Lx.lbrc :: r1 := hs1
                  have q2 := g2.toks
                  simp only [PS.next, q, List.tail_cons] at q2
                  rw [q, q2]
                  rfl
                have := m1.trans hm
                refine ⟨?_, this.depth, ?_⟩
                · rw [this.toks]; simp
                · simp only [List.map_cons, Out.thing, this.out, orEmpty_eq, e2]
                  rfl
          · next hs1 =>
            obtain ⟨c1, c2, c3⟩ := chkTok_spot h6
            have e1 : s2.tab = T ++ ⟨x, ScPROT, ty, s.curDim, prm.length, pub⟩ :: prm := congrArg Spot.tab c2
            have hk := keep_eq (old := old) (T := T) (e := ⟨x, ScPROT, ty, s.curDim, prm.length, pub⟩) (prm := prm) (t := s2.tab)
              (by rw [e1, List.take_length])
            refine ⟨Lx.lpar :: (ps ++ [Lx.rpar, Lx.semi]), [], ?_, ?_⟩
            · have F := Func.proto (o := o) sig
              refine cast (congrArg (Func o ty s.curDim pub x _ _ _) ?_) F
              rw [show PS.spot { s2 with tab := endFunc old T.length (T.length + 1) (T ++ ⟨x, ScPROT, ty, s.curDim, prm.length, pub⟩ :: prm).length s2.tab }
                = { s2.spot with tab := endFunc old T.length (T.length + 1) (T ++ ⟨x, ScPROT, ty, s.curDim, prm.length, pub⟩ :: prm).length s2.tab } from rfl,
                hk, c2]
              rfl
            · have hm : Moved s1 s2 [Lx.semi] := ⟨c1.toks, c1.depth, c1.out⟩
              have := (m1.trans hm).built
              exact ⟨by rw [this.toks]; simp, this.depth, this.out⟩

theorem fits_iff {T r : Tab} {i : Nat} {f : Ent → Ent} {ty : Int} {dim : Nat} {pub : Bool} {d : Ent} (hd : T[i]? = some d)
    (hf : (f d).type = d.type ∧ (f d).dim = d.dim ∧ (f d).pub = d.pub) :
    varFits (undefName ((T ++ r).modify i f) T.length) i ty dim pub = true ↔ d.type = ty ∧ d.dim = dim ∧ d.pub = pub := by
  have hi := (List.getElem?_eq_some_iff.1 hd).1
  rw [modify_app hi, undefName, List.take_left' (by simp), varFits, List.getElem?_modify, hd]
  simp only [if_true, Option.map_eq_map, Option.map_some, Bool.and_eq_true, beq_iff_eq]
  rw [hf.1, hf.2.1, hf.2.2, and_assoc]

theorem getGVar_spot {ty : Int} {pub : Bool} (h : getGVar ty pub s = some s') {T : Tab} {x : String}
    (ht : s.tab = T ++ [⟨x, ScCOMM, ty, s.curDim, s.curCnt, pub⟩]) (hf : Fresh T ScCOMM x) :
    ∃ ts m, GVar ty s.curDim pub { s.spot with tab := T } (.name x :: ts) m s'.spot ∧ Built s s' ts m := by
  have hlen : s.tab.length - 1 = T.length := by rw [ht]; simp
  simp only [getGVar, hlen] at h
  generalize hold : srcGlob s.tab T.length = old at h
  have he : Earlier T x old := by
    rw [ht] at hold
    exact earlier_iff.1 hold
  split at h
  · next r hs =>
    simp only [Option.bind_eq_bind, Option.bind_eq_some_iff] at h
    obtain ⟨⟨d, s1⟩, h1, h⟩ := h
    rw [ht, setScope_app] at h1
    obtain ⟨ts, a1, a2, a3⟩ := getInit_did h1
    have a1 : s.toks.tail = ts ++ s1.toks := a1
    rw [hs, List.tail_cons] at a1
    have t1 : s1.tab = T ++ [⟨x, ScGVAR, ty, s.curDim, s.curCnt, pub⟩] := by rw [a2]
    have t2 : s1.curDim = s.curDim := by rw [a2]; rfl
    have t3 : s1.out = s.out := by rw [a2]; rfl
    have t4 : s1.depth = s.depth := by rw [a2]; rfl
    have t5 : s1.curCnt = s.curCnt := by rw [a2]; rfl
    have t6 : s1.maxCnt = s.maxCnt := by rw [a2]; rfl
    have t7 : s1.lastStat = s.lastStat := by rw [a2]; rfl
    split at h
    · cases h
    · next hb =>
      rw [t2] at hb
      cases old with
      | none =>
        cases h
        refine ⟨Lx.eq :: ts, [Out.thing (.data T.length d s1.tab s1.lab)], ?_, ?_⟩
        rotate_left
        · refine ⟨by rw [hs, a1]; rfl, t4, ?_⟩
          rw [List.map_cons, t3]
          rfl
        · have := GVar.value (p := { s.spot with tab := T }) (pub := pub) hf he a3 hb
          simp only [PS.spot, Out.thing, t1, t2, t5, t6, t7]
          exact this
      | some i =>
        simp only [Option.bind_eq_some_iff] at h
        obtain ⟨e, h2, h⟩ := h
        split at h
        · cases h
        · next hsc =>
          obtain ⟨d0, k1, k2, k3, k4⟩ := id he
          have hi := (List.getElem?_eq_some_iff.1 k1).1
          rw [t1, List.getElem?_append_left hi, k1] at h2
          cases h2
          split at h
          · next hfit =>
            cases h
            rw [t1, setScope, fits_iff k1 ⟨rfl, rfl, rfl⟩, t2] at hfit
            refine ⟨Lx.eq :: ts, [Out.thing (.data T.length d s1.tab s1.lab)], ?_, ?_⟩
            rotate_left
            · refine ⟨by rw [hs, a1]; rfl, t4, ?_⟩
              rw [List.map_cons, t3]
              rfl
            · have := GVar.valueAgain (p := { s.spot with tab := T }) (pub := pub) hf he ⟨e, k1, not_not.1 hsc, hfit⟩ a3 hb
              simp only [PS.spot, Out.thing, t1, t2, t5, t6, t7]
              rw [setScope, modify_app hi, undefName, List.take_left' (by simp)]
              exact this
          · cases h
  · next hs =>
    cases old with
    | none =>
      cases h
      refine ⟨[], [Out.thing (.bss T.length s.tab)], ?_, ⟨rfl, rfl, rfl⟩⟩
      have := GVar.room (ty := ty) (dim := s.curDim) (p := { s.spot with tab := T }) (pub := pub) hf he
      simp only [PS.spot, Out.thing, ht]
      exact this
    | some i =>
      simp only [Option.bind_eq_bind, Option.bind_eq_some_iff] at h
      obtain ⟨e, h2, h⟩ := h
      obtain ⟨d0, k1, k2, k3, k4⟩ := id he
      have hi := (List.getElem?_eq_some_iff.1 k1).1
      rw [ht, List.getElem?_append_left hi, k1] at h2
      cases h2
      split at h
      · next hsc =>
        split at h
        · next hfit =>
          cases h
          have hfit := (fits_iff (T := T) (i := i) (f := id) k1 ⟨rfl, rfl, rfl⟩).1 (by rw [List.modify_id, ← ht]; exact hfit)
          refine ⟨[], [], ?_, ⟨rfl, rfl, rfl⟩⟩
          have := GVar.again (p := { s.spot with tab := T }) (pub := pub) hf he ⟨e, k1, hsc, hfit⟩
          simp only [PS.spot, ht, undefName, List.take_left]
          exact this
        · cases h
      · cases h

theorem GVar.keeps {ty : Int} {dim : Nat} {pub : Bool} {p p' : Spot} {ts : List Tok} {m : List Thing} (h : GVar ty dim pub p ts m p') :
    p'.dim = p.dim ∧ p'.cnt = p.cnt ∧ p'.most = p.most ∧ p'.last = p.last := by
  cases h <;> exact ⟨rfl, rfl, rfl, rfl⟩

theorem getGVars_spot {ty : Int} {pub : Bool} (h : getGVars o ty pub s = some s') {T : Tab} {x : String}
    (ht : s.tab = T ++ [⟨x, ScCOMM, ty, s.curDim, s.curCnt, pub⟩]) (hf : Fresh T ScCOMM x) :
    ∃ ts m, GVars ty s.curDim pub { s.spot with tab := T } (.name x :: ts) m s'.spot ∧ Built s s' (ts ++ [Lx.semi]) m := by
  refine getGVars.partial_correctness o ty pub (fun s s' => ∀ T x, s.tab = T ++ [⟨x, ScCOMM, ty, s.curDim, s.curCnt, pub⟩] → Fresh T ScCOMM x →
    ∃ ts m, GVars ty s.curDim pub { s.spot with tab := T } (.name x :: ts) m s'.spot ∧ Built s s' (ts ++ [Lx.semi]) m) ?_ s s' h T x ht hf
  clear h ht hf
  intro loop ih s s' h T x ht hf
  simp only [Option.bind_eq_bind, Option.bind_eq_some_iff] at h
  obtain ⟨s1, h1, h⟩ := h
  obtain ⟨ts, m, a1, a2⟩ := getGVar_spot h1 ht hf
  have hd : s1.curDim = s.curDim := a1.keeps.1
  split at h
  · next r hs =>
    simp only [Option.bind_eq_some_iff] at h
    obtain ⟨s2, h2, h⟩ := h
    obtain ⟨y, r', b1, b2, -, b3, rfl⟩ := getName_iff.1 h2
    obtain ⟨us, m', c1, c2⟩ := ih _ _ h _ _ rfl b3
    have b1 : r = .name y :: r' := by
      have : s1.toks.tail = _ := b1
      rwa [hs] at this
    refine ⟨ts ++ Lx.comma :: .name y :: us, m ++ m', ?_, ?_⟩
    · have c1 : GVars ty s1.curDim pub s1.spot (.name y :: us) m' s'.spot := c1
      rw [hd] at c1
      exact .more a1 c1
    · have q : Built s1 s' (Lx.comma :: .name y :: (us ++ [Lx.semi])) m' :=
        ⟨by rw [hs, b1, show r' = _ from c2.toks]; rfl, c2.depth, c2.out⟩
      have := a2.trans q
      exact ⟨by rw [this.toks]; simp, this.depth, this.out⟩
  · obtain ⟨c1, c2, c3⟩ := chkTok_spot h
    refine ⟨ts, m, ?_, ?_⟩
    · rw [c2]
      exact .one a1
    · have := a2.trans c1.built
      rwa [List.append_nil] at this

theorem fldLoop_spot {ty : Int} (h : fldLoop o ty s = some s') : ∃ ts, Moved s s' ts ∧ s'.curDim = s.curDim ∧
    ∀ (p : Spot) (x : String), Fresh p.tab ScFLD x → { p.enter ⟨x, ScFLD, ty, s.curDim, p.cnt, false⟩ with cnt := p.cnt + 1 } = s.spot →
      Flds ty s.curDim p (.name x :: ts) s'.spot := by
  refine fldLoop.partial_correctness o ty (fun s s' => ∃ ts, Moved s s' ts ∧ s'.curDim = s.curDim ∧
    ∀ (p : Spot) (x : String), Fresh p.tab ScFLD x → { p.enter ⟨x, ScFLD, ty, s.curDim, p.cnt, false⟩ with cnt := p.cnt + 1 } = s.spot →
      Flds ty s.curDim p (.name x :: ts) s'.spot) ?_ s s' h
  clear h
  intro loop ih s s' h
  split at h
  · next r hs =>
    simp only [Option.bind_eq_bind, Option.bind_eq_some_iff] at h
    obtain ⟨s1, h1, h⟩ := h
    obtain ⟨y, r', b1, b2, -, b3, rfl⟩ := getName_iff.1 h1
    obtain ⟨ts, c1, c2, c3⟩ := ih _ _ h
    have b1 : r = .name y :: r' := by
      have : s.toks.tail = _ := b1
      rwa [hs] at this
    refine ⟨Lx.comma :: .name y :: ts, ⟨by rw [hs, b1, show r' = _ from c1.toks]; rfl, c1.depth, c1.out⟩, c2, ?_⟩
    intro p x hf hp
    refine .more hf ?_
    rw [hp]
    exact c3 s.spot y b3 rfl
  · cases h
    refine ⟨[], ⟨rfl, rfl, rfl⟩, rfl, ?_⟩
    intro p x hf hp
    rw [← hp]
    exact .one hf

theorem getFieldLine_spot (h : getFieldLine o s = some s') : ∃ k ty dim us, TypeTok s.tab k ty ∧ Valued (ty, dim) ∧
    Flds ty dim { s.spot with dim := dim } us s'.spot ∧ Moved s s' (k :: (dimToks dim ++ (us ++ [Lx.semi]))) := by
  simp only [getFieldLine, Option.bind_eq_bind, Option.bind_eq_some_iff] at h
  obtain ⟨⟨ty, s1⟩, h1, s2, h2, s3, h3, h4⟩ := h
  obtain ⟨k, a1, a2, a3⟩ := getTy_iff_some h1
  obtain ⟨x, r', c1, c2, -, c3, rfl⟩ := getName_iff.1 h2
  obtain ⟨ts, d1, d2, d3⟩ := fldLoop_spot h3
  obtain ⟨e1, e2, -⟩ := chkTok_spot h4
  have ht : s1.tab = s.tab := congrArg Spot.tab a3
  refine ⟨k, ty, s1.curDim, .name x :: ts, a1, c2.resolve_left (by decide), ?_, ?_⟩
  · rw [e2, ← a3]
    exact d3 s1.spot x c3 rfl
  · have q : Moved s1 s3 (.name x :: ts) := ⟨by rw [c1, show r' = _ from d1.toks]; rfl, d1.depth, d1.out⟩
    simpa using (a2.trans q).trans e1

theorem fldLines_spot (h : fldLines o s = some s') : ∃ ts, Lines s.spot ts s'.spot ∧ Moved s s' (ts ++ [Lx.rbrc]) := by
  refine fldLines.partial_correctness o (fun s s' => ∃ ts, Lines s.spot ts s'.spot ∧ Moved s s' (ts ++ [Lx.rbrc])) ?_ s s' h
  clear h
  intro loop ih s s' h
  simp only [Option.bind_eq_bind, Option.bind_eq_some_iff] at h
  obtain ⟨s1, h1, h⟩ := h
  obtain ⟨k, ty, dim, us, a1, a2, a3, a4⟩ := getFieldLine_spot h1
  split at h
  · next r hs =>
    cases h
    obtain ⟨n1, n2⟩ := next_spot hs
    exact ⟨_, n2 ▸ .one a1 a2 a3, a4.trans n1⟩
  · obtain ⟨ts, b1, b2⟩ := ih _ _ h
    refine ⟨_, .more a1 a2 a3 b1, ?_⟩
    simpa using a4.trans b2

theorem Flds.app {ty : Int} {dim : Nat} {p p' : Spot} {ts : List Tok} (h : Flds ty dim p ts p') : ∃ l, p'.tab = p.tab ++ l := by
  induction h with
  | one _ => exact ⟨_, rfl⟩
  | more _ _ ih =>
    obtain ⟨l, hl⟩ := ih
    exact ⟨[_] ++ l, by rw [hl, Spot.enter]; simp only [List.append_assoc]; rfl⟩

theorem Lines.app {p p' : Spot} {ts : List Tok} (h : Lines p ts p') : ∃ l, p'.tab = p.tab ++ l := by
  induction h with
  | one _ _ h => exact h.app
  | more _ _ h _ ih =>
    obtain ⟨l, hl⟩ := h.app
    obtain ⟨l', hl'⟩ := ih
    exact ⟨l ++ l', by rw [hl', hl, List.append_assoc]⟩

theorem void_app {T fl : Tab} {e : Ent} : setCnt (setVoid (T ++ e :: fl) (T.length + 1)) T.length fl.length =
    keep none T { e with cnt := fl.length } fl := by
  unfold setVoid keep
  have e1 : (T ++ e :: fl).take (T.length + 1) = T ++ [e] := by
    rw [show T ++ e :: fl = (T ++ [e]) ++ fl by simp, List.take_left' (by simp)]
  have e2 : (T ++ e :: fl).drop (T.length + 1) = fl := by
    rw [show T ++ e :: fl = (T ++ [e]) ++ fl by simp, List.drop_left' (by simp)]
  rw [e1, e2, List.append_assoc, List.singleton_append, setCnt_app]

theorem getStruct_spot (h : getStruct o s = some s') {T : Tab} {e : Ent} (ht : s.tab = T ++ [e]) :
    ∃ fs fl p', Lines { s.spot with cnt := 0 } fs p' ∧ p'.tab = T ++ e :: fl ∧
      s'.spot = { p' with tab := keep none T { e with cnt := fl.length } fl } ∧ Moved s s' (Lx.lbrc :: (fs ++ [Lx.rbrc, Lx.semi])) := by
  simp only [getStruct, Option.bind_eq_bind, Option.bind_eq_some_iff] at h
  obtain ⟨s1, h1, s2, h2, s3, h3, h⟩ := h
  cases h
  obtain ⟨a1, a2, -⟩ := chkTok_spot h1
  obtain ⟨fs, b1, b2⟩ := fldLines_spot h2
  obtain ⟨c1, c2, -⟩ := chkTok_spot h3
  have ht1 : s1.tab = T ++ [e] := (congrArg Spot.tab a2).trans ht
  have b1 : Lines { s.spot with cnt := 0 } fs s2.spot := by
    rw [← a2]
    exact b1
  obtain ⟨fl, d1⟩ := b1.app
  have d1 : s2.spot.tab = T ++ e :: fl := by
    rw [d1, show ({ s.spot with cnt := 0 } : Spot).tab = s.tab from rfl, ht]
    simp
  refine ⟨fs, fl, s2.spot, b1, d1, ?_, ?_⟩
  · have ht3 : s3.tab = T ++ e :: fl := (congrArg Spot.tab c2).trans d1
    rw [show PS.spot { s3 with tab := setCnt (setVoid s3.tab s1.tab.length) (s1.tab.length - 1) ((setVoid s3.tab s1.tab.length).length - s1.tab.length) } =
      { s3.spot with tab := setCnt (setVoid s3.tab s1.tab.length) (s1.tab.length - 1) ((setVoid s3.tab s1.tab.length).length - s1.tab.length) } from rfl, c2]
    have hl : s1.tab.length = T.length + 1 := by rw [ht1]; simp
    have hl2 : (setVoid (T ++ e :: fl) (T.length + 1)).length - (T.length + 1) = fl.length := by
      unfold setVoid
      simp
    rw [hl, ht3, hl2, Nat.add_sub_cancel, void_app]
  · have b2 : Moved s1 s2 (fs ++ [Lx.rbrc]) := ⟨b2.toks, b2.depth, b2.out⟩
    have := (a1.trans b2).trans c1
    exact ⟨by rw [this.toks]; simp, this.depth, this.out⟩

theorem fresh_glob {T : Tab} {x : String} : Fresh T ScPROT x ↔ Fresh T ScCOMM x := by
  simp [Fresh, ScPROT, ScCOMM, ScSTRC, ScLVAR]

theorem getDecl_spot {pub : Bool} (h : getDecl o pub s = some s') (hd : s.depth = 0) :
    ∃ ts m, Decln o s.spot (pubToks pub ++ ts) m s'.spot ∧ Built s s' ts m := by
  simp only [getDecl, Option.bind_eq_bind, Option.bind_eq_some_iff] at h
  obtain ⟨⟨ty, s1⟩, h1, s2, h2, h⟩ := h
  obtain ⟨k, a1, a2, a3⟩ := getTy_iff_some h1
  obtain ⟨x, r', c1, -, c2, c3, rfl⟩ := getName_iff.1 h2
  have ht : s1.tab = s.tab := congrArg Spot.tab a3
  have hc : s1.curCnt = s.curCnt := congrArg Spot.cnt a3
  split at h
  · next r hs =>
    obtain ⟨us, m, d1, d2⟩ := getFunc_spot h rfl ⟨r, hs⟩ (a2.depth.trans hd)
    have d1 : Func o ty s1.curDim pub x s1.spot us m s'.spot := d1
    rw [a3] at d1
    refine ⟨k :: (dimToks s1.curDim ++ .name x :: us), m, .func a1 c2 (by rw [ht] at c3; exact c3) d1, ?_⟩
    have q : Built s1 s' (.name x :: us) m := ⟨by rw [c1, show r' = _ from d2.toks]; rfl, d2.depth, d2.out⟩
    exact a2.built.trans q
  · split at h
    · cases h
    · next n1 =>
      split at h
      · cases h
      · next n2 =>
        have hset : setScope (s1.tab ++ [⟨x, ScPROT, ty, s1.curDim, s1.curCnt, pub⟩])
            ((s1.tab ++ [⟨x, ScPROT, ty, s1.curDim, s1.curCnt, pub⟩] : Tab).length - 1) ScCOMM = s1.tab ++ [⟨x, ScCOMM, ty, s1.curDim, s1.curCnt, pub⟩] := by
          rw [List.length_append, List.length_singleton, Nat.add_sub_cancel, setScope_app]
        rw [hset] at h
        obtain ⟨us, m, d1, d2⟩ := getGVars_spot h rfl (fresh_glob.1 c3)
        have d1 : GVars ty s1.curDim pub s1.spot (.name x :: us) m s'.spot := d1
        rw [a3] at d1
        refine ⟨k :: (dimToks s1.curDim ++ (.name x :: us ++ [Lx.semi])), m, .vars a1 ⟨n2, fun h => n1 (by simpa using h)⟩ d1, ?_⟩
        have q : Built s1 s' (.name x :: us ++ [Lx.semi]) m := ⟨by rw [c1, show r' = _ from d2.toks]; rfl, d2.depth, d2.out⟩
        exact a2.built.trans q

theorem getProg_spot (h : getProg o s = some s') (hd : s.depth = 0) :
    ∃ ts m, Decln o s.spot ts m s'.spot ∧ Built s s' ts m := by
  unfold getProg at h
  by_cases hp : s.toks.head? = some Lx.PUBLIC
  · obtain ⟨r, hs⟩ : ∃ r, s.toks = Lx.PUBLIC :: r := by
      cases ht : s.toks with
      | nil => rw [ht] at hp; cases hp
      | cons a r => rw [ht] at hp; cases hp; exact ⟨r, rfl⟩
    obtain ⟨n1, n2⟩ := next_spot hs
    simp only [hp, beq_self_eq_true, if_true] at h
    split at h
    · cases h
    · cases h
    · obtain ⟨ts, m, a1, a2⟩ := getDecl_spot h hd
      exact ⟨_, m, n2 ▸ a1, n1.built.trans a2⟩
  · have hp' : (s.toks.head? == some Lx.PUBLIC) = false := by simpa using hp
    simp only [hp', Bool.false_eq_true, if_false] at h
    split at h
    · next r hs =>
      simp only [Option.bind_eq_bind, Option.bind_eq_some_iff] at h
      obtain ⟨s1, h1, h⟩ := h
      obtain ⟨n1, n2⟩ := next_spot hs
      obtain ⟨x, r', c1, -, -, c3, rfl⟩ := getName_iff.1 h1
      obtain ⟨fs, fl, p', d1, d2, d3, d4⟩ := getStruct_spot h rfl
      refine ⟨Lx.STRUCT :: .name x :: Lx.lbrc :: (fs ++ [Lx.rbrc, Lx.semi]), [], ?_, ?_⟩
      · rw [d3]
        exact .struct c3 d1 d2
      · have q : Moved s.next s' (.name x :: Lx.lbrc :: (fs ++ [Lx.rbrc, Lx.semi])) :=
          ⟨by rw [c1, show r' = _ from d4.toks]; rfl, d4.depth, d4.out⟩
        exact (n1.trans q).built
    · next r hs =>
      simp only [Option.bind_eq_bind, Option.bind_eq_some_iff] at h
      obtain ⟨s1, h1, h⟩ := h
      obtain ⟨n1, n2⟩ := next_spot hs
      obtain ⟨x, r', c1, -, -, c3, rfl⟩ := getName_iff.1 h1
      obtain ⟨d1, d2, -⟩ := chkTok_spot h
      refine ⟨[Lx.TYPEDEF, .name x, Lx.semi], [], ?_, ?_⟩
      · rw [d2]
        exact .typedef c3
      · have q : Moved s.next s' [.name x, Lx.semi] :=
          ⟨by rw [c1, show r' = _ from d1.toks]; rfl, d1.depth, d1.out⟩
        exact (n1.trans q).built
    · exact getDecl_spot h hd

theorem getSrc_spot (h : getSrc o s = some s') (hd : s.depth = 0) :
    s'.toks = [] ∧ ∃ m, Prog o s.spot s.toks m s'.spot ∧ s'.depth = s.depth ∧ s'.out.map Out.thing = m.reverse ++ s.out.map Out.thing := by
  refine getSrc.partial_correctness o (fun s s' => s.depth = 0 → s'.toks = [] ∧
    ∃ m, Prog o s.spot s.toks m s'.spot ∧ s'.depth = s.depth ∧ s'.out.map Out.thing = m.reverse ++ s.out.map Out.thing) ?_ s s' h hd
  clear h hd
  intro loop ih s s' h hd
  split at h
  · next hs =>
    cases h
    exact ⟨hs, [], hs ▸ .done, rfl, rfl⟩
  · simp only [Option.bind_eq_bind, Option.bind_eq_some_iff] at h
    obtain ⟨s1, h1, h⟩ := h
    obtain ⟨ts, m, a1, a2⟩ := getProg_spot h1 hd
    obtain ⟨b0, m', b1, b2, b3⟩ := ih _ _ h (a2.depth.trans hd)
    refine ⟨b0, m ++ m', ?_, b2.trans a2.depth, ?_⟩
    · rw [a2.toks]
      exact .more a1 b1
    · rw [b3, a2.out]
      simp

/-! ### What is in the grammar is read -/

theorem Comes.trans {s s1 s2 : PS} {r r' : List Tok} {p p' : Spot} (h : Comes s s1 r p) (h' : Comes s1 s2 r' p') : Comes s s2 r' p' :=
  ⟨h'.toks, h'.spot, h'.depth.trans h.depth, h'.out.trans h.out⟩

/-- `rest` is left, the parser is at `p'`, and `m` has been made. -/
structure Makes (s s' : PS) (rest : List Tok) (p' : Spot) (m : List Thing) : Prop where
  toks : s'.toks = rest
  spot : s'.spot = p'
  depth : s'.depth = s.depth
  out : s'.out.map Out.thing = m.reverse ++ s.out.map Out.thing

theorem Comes.makes {rest : List Tok} {p' : Spot} (h : Comes s s' rest p') : Makes s s' rest p' [] :=
  ⟨h.toks, h.spot, h.depth, by rw [h.out]; rfl⟩

theorem Makes.trans {s s1 s2 : PS} {r r' : List Tok} {p p' : Spot} {m m' : List Thing} (h : Makes s s1 r p m) (h' : Makes s1 s2 r' p' m') :
    Makes s s2 r' p' (m ++ m') :=
  ⟨h'.toks, h'.spot, h'.depth.trans h.depth, by rw [h'.out, h.out]; simp⟩

theorem getTy_come {k : Tok} {ty : Int} {dim : Nat} {r : List Tok} (hk : TypeTok s.tab k ty) (hs : s.toks = k :: (dimToks dim ++ r))
    (hr : r.head? ≠ some Lx.lbrk) : getTy s = some (ty, { s with toks := r, curDim := dim }) := by
  rw [getTy, getType_ok hk hs hr]
  rfl

theorem Prms.read {old : Option Nat} {p p' : Spot} {ts : List Tok} (h : Prms old p ts p') : ∀ (s : PS) (rest : List Tok), s.spot = p →
    s.toks = ts ++ Lx.rpar :: rest → ∃ s', (prmLoop o old s).bind (fun r => getDots old r.1 r.2) = some s' ∧ Comes s s' (Lx.rpar :: rest) p' := by
  induction h with
  | none =>
    rintro s rest rfl ht
    refine ⟨s, ?_, ht, rfl, rfl, rfl⟩
    rw [prmLoop, if_neg (isType_not ht nofun), Option.bind_some]
    unfold getDots
    split
    · next h' =>
      rw [ht] at h'
      cases h'
    · rfl
  | dots h1 h2 =>
    rintro s rest rfl ht
    obtain ⟨u, hu⟩ := (chkOld_iff (s := { s.next with curDim := 0 })).2 h1
    have hd := (defName_fresh (t := s.tab) (e := ⟨"", ScPRM, TyDOTDOTDOT, 0, s.curCnt, false⟩)).2 ⟨h2, rfl⟩
    refine ⟨{ s.next with curDim := 0, tab := s.tab ++ [⟨"", ScPRM, TyDOTDOTDOT, 0, s.curCnt, false⟩] }, ?_, ?_, rfl, rfl, rfl⟩
    · rw [prmLoop, if_neg (isType_not ht nofun), Option.bind_some]
      unfold getDots
      split
      · simp only [hu, Option.bind_eq_bind, Option.bind_some]
        rw [show s.next.tab = s.tab from rfl, show s.next.curCnt = s.curCnt from rfl, hd]
        rfl
      · next h' => exact absurd ht (h' _ rfl)
    · simp [PS.next, ht]
  | @last p k ty dim x h1 h2 h3 h4 =>
    rintro s rest rfl ht
    have e1 := getTy_come (s := s) (dim := dim) (r := .name x :: Lx.rpar :: rest) h1 (by rw [ht]; simp) (by simp)
    obtain ⟨u, hu⟩ := (chkOld_iff (s := { s with toks := .name x :: Lx.rpar :: rest, curDim := dim })).2 h3
    have e2 := (getName_iff (o := o) (s := { s with toks := .name x :: Lx.rpar :: rest, curDim := dim }) (sc := ScPRM) (ty := ty) (pub := false)).2
      ⟨x, _, rfl, .inr h2, fun h => absurd h h2.1, h4, rfl⟩
    refine ⟨{ s with toks := Lx.rpar :: rest, curDim := dim, tab := s.tab ++ [⟨x, ScPRM, ty, dim, s.curCnt, false⟩] }, ?_, rfl, rfl, rfl, rfl⟩
    rw [prmLoop, if_pos (isType_of rfl h1 ht), e1]
    simp only [Option.bind_eq_bind, Option.bind_some, hu, e2]
    rfl
  | @more p k ty dim x us p' h1 h2 h3 h4 _ ih =>
    rintro s rest rfl ht
    have e1 := getTy_come (s := s) (dim := dim) (r := .name x :: Lx.comma :: (us ++ Lx.rpar :: rest)) h1 (by rw [ht]; simp) (by simp)
    obtain ⟨u, hu⟩ := (chkOld_iff (s := { s with toks := .name x :: Lx.comma :: (us ++ Lx.rpar :: rest), curDim := dim })).2 h3
    have e2 := (getName_iff (o := o) (s := { s with toks := .name x :: Lx.comma :: (us ++ Lx.rpar :: rest), curDim := dim })
      (sc := ScPRM) (ty := ty) (pub := false)).2 ⟨x, _, rfl, .inr h2, fun h => absurd h h2.1, h4, rfl⟩
    obtain ⟨s', e3, c3⟩ := ih { s with toks := us ++ Lx.rpar :: rest, curDim := dim, curCnt := s.curCnt + 1,
                                       tab := s.tab ++ [⟨x, ScPRM, ty, dim, s.curCnt, false⟩] } rest rfl rfl
    refine ⟨s', ?_, c3.toks, c3.spot, c3.depth, c3.out⟩
    rw [prmLoop, if_pos (isType_of rfl h1 ht), e1]
    simp only [Option.bind_eq_bind, Option.bind_some, hu, e2]
    exact e3

theorem getParams_come {old : Option Nat} {p' : Spot} {ts rest : List Tok} (h : Prms old { s.spot with cnt := 0 } ts p')
    (ht : s.toks = ts ++ Lx.rpar :: rest) : ∃ s', getParams o old s = some s' ∧ Comes s s' rest p' := by
  obtain ⟨s1, e1, c1⟩ := h.read (o := o) { s with curCnt := 0 } rest rfl ht
  obtain ⟨s2, e2, c2⟩ := chkTok_come c1.toks
  rw [c1.spot] at c2
  refine ⟨s2, ?_, c2.toks, c2.spot, c2.depth.trans c1.depth, c2.out.trans c1.out⟩
  rw [Option.bind_eq_some_iff] at e1
  obtain ⟨r, e1, e3⟩ := e1
  simp only [getParams, e1, e3, e2, Option.bind_eq_bind, Option.bind_some]

theorem Func.read {ty : Int} {pub : Bool} {x : String} {T : Tab} {ts : List Tok} {m : List Thing} {p' : Spot}
    (h : Func o ty s.curDim pub x { s.spot with tab := T } ts m p') {rest : List Tok} (ht : s.toks = ts ++ rest)
    (hT : s.tab = T ++ [⟨x, ScPROT, ty, s.curDim, s.curCnt, pub⟩]) (hd : s.depth = 0) :
    ∃ s', getFunc o ty pub s = some s' ∧ Makes s s' rest p' m := by
  have hlen : s.tab.length - 1 = T.length := by rw [hT]; simp
  have hlen1 : s.tab.length = T.length + 1 := by rw [hT]; simp
  -- the parameters
  have prms : ∀ {ps : List Tok} {old : Option Nat} {prm : Tab} {p1 : Spot} {us : List Tok},
      Sig ty s.curDim pub x { s.spot with tab := T } ps old prm p1 → s.toks = Lx.lpar :: (ps ++ Lx.rpar :: us) →
      ∃ s1, Comes s s1 us p1 ∧ getFunc o ty pub s =
        (getBodyOrSemi o T.length ty s.curDim old { s1 with tab := T ++ ⟨x, ScPROT, ty, s.curDim, prm.length, pub⟩ :: prm }).bind fun s2 =>
          some { s2 with tab := endFunc old T.length (T.length + 1) (T ++ ⟨x, ScPROT, ty, s.curDim, prm.length, pub⟩ :: prm).length s2.tab } := by
    intro ps old prm p1 us sig htk
    have hold : srcGlob s.tab T.length = old := by
      rw [hT]
      exact earlier_iff.2 sig.earlier
    have hsp : { PS.spot { s.next with lastStat := none } with cnt := 0 } =
        { Spot.enter { s.spot with tab := T } ⟨x, ScPROT, ty, s.curDim, s.curCnt, pub⟩ with cnt := 0, last := none } := by
      simp only [PS.spot, Spot.enter]
      rw [show s.next.tab = s.tab from rfl, hT]
      rfl
    have hp := sig.prms
    rw [show ({ s.spot with tab := T } : Spot).cnt = s.curCnt from rfl, ← hsp] at hp
    obtain ⟨s1, e1, c1⟩ := getParams_come (o := o) hp (rest := us) (by simp [PS.next, htk])
    refine ⟨s1, ⟨c1.toks, c1.spot, c1.depth, c1.out⟩, ?_⟩
    have b1 : s1.tab = T ++ ⟨x, ScPROT, ty, s.curDim, s.curCnt, pub⟩ :: prm := (congrArg Spot.tab c1.spot).trans sig.tab
    have hc : s1.tab.length - s.tab.length = prm.length := by rw [b1, hlen1]; simp; omega
    have hset : setCnt s1.tab T.length prm.length = T ++ ⟨x, ScPROT, ty, s.curDim, prm.length, pub⟩ :: prm := by
      rw [b1, setCnt_app]
    have f1 : fnFits s.tab old ty s.curDim pub = true := by
      rw [hT]
      refine (fnFits_iff sig.earlier).2 fun i d hi hd => ?_
      obtain ⟨k1, k2, k3, k4, -⟩ := sig.like i d hi hd
      exact ⟨k1, k2, k3, k4⟩
    have f2 : cntFits (T ++ ⟨x, ScPROT, ty, s.curDim, prm.length, pub⟩ :: prm) old prm.length = true :=
      (cntFits_iff sig.earlier).2 fun i d hi hd => (sig.like i d hi hd).2.2.2.2
    unfold getFunc
    simp only [hlen, hold]
    rw [f1, if_neg nofun, if_neg (fun h => h.2 (sig.intr h.1).1)]
    simp only [e1, Option.bind_eq_bind, Option.bind_some]
    rw [hc, if_neg (fun h => h.2 (by rw [(sig.intr h.1).2]; rfl)), hset, f2, if_neg nofun, hlen1]
  cases h with
  | @proto ps old prm p1 sig =>
    obtain ⟨s1, c1, e1⟩ := prms (us := Lx.semi :: rest) sig (by rw [ht]; simp)
    obtain ⟨s2, e2, c2⟩ := chkTok_come (s := { s1 with tab := T ++ ⟨x, ScPROT, ty, s.curDim, prm.length, pub⟩ :: prm }) c1.toks
    have e3 : getBodyOrSemi o T.length ty s.curDim old { s1 with tab := T ++ ⟨x, ScPROT, ty, s.curDim, prm.length, pub⟩ :: prm } = some s2 := by
      unfold getBodyOrSemi
      split
      · next h' =>
        have h' : s1.toks = _ := h'
        rw [c1.toks] at h'
        cases h'
      · exact e2
    rw [e3, Option.bind_some] at e1
    refine ⟨_, e1, c2.toks, ?_, c2.depth.trans c1.depth, ?_⟩
    · have t2 : s2.tab = T ++ ⟨x, ScPROT, ty, s.curDim, prm.length, pub⟩ :: prm := congrArg Spot.tab c2.spot
      have hk := keep_eq (old := old) (T := T) (e := ⟨x, ScPROT, ty, s.curDim, prm.length, pub⟩) (prm := prm) (t := s2.tab)
        (by rw [t2, List.take_length])
      rw [hk, ← c1.spot]
      have hc := c2.spot
      simp only [PS.spot, Spot.mk.injEq] at hc ⊢
      exact ⟨trivial, hc.2⟩
    · show s2.out.map Out.thing = _
      rw [c2.out]
      exact congrArg _ c1.out
  | @body ps old prm p1 p2 us b p3 c n sig ho hp2 hb hv hc hn =>
    subst hp2
    obtain ⟨s1, c1, e1⟩ := prms (us := Lx.lbrc :: (us ++ Lx.rbrc :: rest)) sig (by rw [ht]; simp)
    have h7 := (setOld_iff (T := T) (r := ⟨x, ScPROT, ty, s.curDim, prm.length, pub⟩ :: prm) sig.earlier).2 ⟨ho, rfl⟩
    have h8 : setScope (nowFun old T ++ ⟨x, ScPROT, ty, s.curDim, prm.length, pub⟩ :: prm) T.length ScFUNC =
        nowFun old T ++ ⟨x, ScFUNC, ty, s.curDim, prm.length, pub⟩ :: prm := by
      conv_lhs => rw [← nowFun_length (old := old) (T := T)]
      exact setScope_app _ _ _ _
    obtain ⟨s4, e4, c4⟩ := hb.read o { s1.next with tab := nowFun old T ++ ⟨x, ScFUNC, ty, s.curDim, prm.length, pub⟩ :: prm, maxCnt := 0, curCnt := 0, pts := [] }
      rest (by rw [← c1.spot]; rfl) (by
        show false = decide (s1.depth ≠ 0)
        rw [c1.depth, hd]; rfl) (by simp [PS.next, c1.toks])
    have hk := keep_eq (old := old) (leave_take hb)
    rw [List.length_append, nowFun_length] at hk
    have g1 : s4.tab = p3.tab := congrArg Spot.tab c4.spot
    have g2 : s4.maxCnt = p3.most := congrArg Spot.most c4.spot
    have g3 : s4.lab = p3.lab := congrArg Spot.lab c4.spot
    have g4 : s4.lastStat = p3.last := congrArg Spot.last c4.spot
    have g5 : s4.curDim = p3.dim := congrArg Spot.dim c4.spot
    have e5 : getBodyOrSemi o T.length ty s.curDim old { s1 with tab := T ++ ⟨x, ScPROT, ty, s.curDim, prm.length, pub⟩ :: prm } = 
        getBody o T.length ty s.curDim old { s1.next with tab := T ++ ⟨x, ScPROT, ty, s.curDim, prm.length, pub⟩ :: prm } := by
      unfold getBodyOrSemi
      split
      · rfl
      · next h' => exact absurd c1.toks (h' _)
    have e6 : getBody o T.length ty s.curDim old { s1.next with tab := T ++ ⟨x, ScPROT, ty, s.curDim, prm.length, pub⟩ :: prm } = 
        some { s4.close (nowFun old T ++ ⟨x, ScFUNC, ty, s.curDim, prm.length, pub⟩ :: prm).length 0 with
          lab := n, out := .func T.length p3.most (stOf (blockOf b)) c (s4.close (nowFun old T ++ ⟨x, ScFUNC, ty, s.curDim, prm.length, pub⟩ :: prm).length 0).tab
            s4.pts :: s4.out, pts := [] } := by
      simp only [getBody, h7, h8, getBlock, e4, Option.bind_eq_bind, Option.bind_some, toBlk_eq, orEmpty_eq]
      rw [if_neg, hc, Option.bind_some]
      · simp only [PS.close, g2, g3, g1]
        subst hn
        rfl
      · rintro ⟨a1, a2⟩
        exact a2 (g4.trans (hv (hasVal_valued.1 a1)))
    rw [e5, e6, Option.bind_some] at e1
    refine ⟨_, e1, c4.toks, ?_, c4.depth.trans c1.depth, ?_⟩
    · simp only [PS.spot, PS.close, Spot.mk.injEq, g1, g2, g4, g5]
      refine ⟨Eq.trans ?_ hk, trivial, trivial, trivial, trivial, trivial⟩
      rw [List.length_append]
      rfl
    · simp only [PS.close, List.map_cons, Out.thing, g1]
      rw [show s4.out = s.out from c4.out.trans c1.out]
      rfl

theorem GVar.read {ty : Int} {pub : Bool} {x : String} {T : Tab} {ts : List Tok} {m : List Thing} {p' : Spot}
    (h : GVar ty s.curDim pub { s.spot with tab := T } (.name x :: ts) m p') {rest : List Tok} (ht : s.toks = ts ++ rest) (hr : Sep rest)
    (hT : s.tab = T ++ [⟨x, ScCOMM, ty, s.curDim, s.curCnt, pub⟩]) :
    ∃ s', getGVar ty pub s = some s' ∧ Makes s s' rest p' m := by
  have hlen : s.tab.length - 1 = T.length := by rw [hT]; simp
  have hold : ∀ {old}, Earlier T x old → srcGlob s.tab T.length = old := by
    intro old he
    rw [hT]
    exact earlier_iff.2 he
  have noEq : s.toks = rest → ∀ r, s.toks ≠ Lx.eq :: r := by
    intro h r h'
    rw [h] at h'
    obtain ⟨t, u, rfl, rfl | rfl⟩ := hr <;> cases h'
  have init : ∀ {us d m'}, s.toks = Lx.eq :: (us ++ rest) →
      Says (T ++ [⟨x, ScGVAR, ty, s.curDim, s.curCnt, pub⟩]) (.val ty s.curDim) s.lab us d m' →
      getInit ty s.next.curDim { s.next with tab := setScope s.tab T.length ScGVAR } =
        some (d, { s with toks := rest, tab := T ++ [⟨x, ScGVAR, ty, s.curDim, s.curCnt, pub⟩], lab := m' }) := by
    intro us d m' h1 h2
    have := (h2.read { s.next with tab := T ++ [⟨x, ScGVAR, ty, s.curDim, s.curCnt, pub⟩] } rest rfl rfl (by simp [PS.next, h1]) hr.fol).1
    rw [hT, setScope_app]
    exact this
  unfold getGVar
  simp only [hlen]
  cases h with
  | room h1 h2 =>
    rw [hold h2]
    refine ⟨{ s with out := .bss T.length s.tab :: s.out }, ?_, ht, ?_, rfl, ?_⟩
    · split
      · next h' => exact absurd h' (noEq ht _)
      · rfl
    · simp only [PS.spot, hT, Spot.enter]
    · simp only [List.map_cons, Out.thing, hT]
      rfl
  | @again x i h1 h2 h3 =>
    rw [hold h2]
    obtain ⟨d, k1, k2, k3⟩ := h3
    have hi := (List.getElem?_eq_some_iff.1 k1).1
    have k1 : T[i]? = some d := k1
    refine ⟨{ s with tab := T }, ?_, ht, rfl, rfl, rfl⟩
    split
    · next h' => exact absurd h' (noEq ht _)
    · have e : undefName s.tab T.length = T := by rw [hT, undefName, List.take_left]
      simp only [e]
      rw [hT, List.getElem?_append_left hi, k1]
      simp only [Option.bind_eq_bind, Option.bind_some]
      rw [if_pos k2, if_pos]
      simp only [varFits, k1, k3, beq_self_eq_true, Bool.and_self]
  | @value x us d m' h1 h2 h3 h4 =>
    rw [hold h2]
    refine ⟨{ s with toks := rest, tab := T ++ [⟨x, ScGVAR, ty, s.curDim, s.curCnt, pub⟩], lab := (Gen.genData T.length s.curDim d m').2,
                     out := .data T.length d (T ++ [⟨x, ScGVAR, ty, s.curDim, s.curCnt, pub⟩]) m' :: s.out }, ?_, rfl, rfl, rfl, rfl⟩
    rw [ht]
    simp only [List.cons_append]
    rw [init ht h3]
    simp only [Option.bind_eq_bind, Option.bind_some]
    rw [if_neg h4]
  | @valueAgain x i us d m' h1 h2 h3 h4 h5 =>
    rw [hold h2]
    obtain ⟨d0, k1, k2, k3⟩ := h3
    have hi := (List.getElem?_eq_some_iff.1 k1).1
    have k1 : T[i]? = some d0 := k1
    have hu : undefName (setScope (T ++ [⟨x, ScGVAR, ty, s.curDim, s.curCnt, pub⟩]) i ScGVAR) T.length = T.modify i fun e => { e with scope := ScGVAR } := by
      rw [setScope, modify_app hi, undefName, List.take_left' (by simp)]
    have hf : varFits (undefName (setScope (T ++ [⟨x, ScGVAR, ty, s.curDim, s.curCnt, pub⟩]) i ScGVAR) T.length) i ty s.curDim pub = true :=
      (fits_iff (T := T) (r := [⟨x, ScGVAR, ty, s.curDim, s.curCnt, pub⟩]) (f := fun e => { e with scope := ScGVAR })
      (ty := ty) (dim := s.curDim) (pub := pub) k1 ⟨rfl, rfl, rfl⟩).2 k3
    refine ⟨{ s with toks := rest, tab := T.modify i fun e => { e with scope := ScGVAR }, lab := (Gen.genData T.length s.curDim d m').2,
                     out := .data T.length d (T ++ [⟨x, ScGVAR, ty, s.curDim, s.curCnt, pub⟩]) m' :: s.out }, ?_, rfl, rfl, rfl, rfl⟩
    rw [ht]
    simp only [List.cons_append]
    rw [init ht h4]
    simp only [Option.bind_eq_bind, Option.bind_some]
    rw [if_neg h5, List.getElem?_append_left hi, k1]
    simp only [Option.bind_some]
    rw [if_neg (not_not.2 k2), if_pos hf, hu]

theorem GVar.name {ty : Int} {dim : Nat} {pub : Bool} {p p' : Spot} {ts : List Tok} {m : List Thing} (h : GVar ty dim pub p ts m p') :
    ∃ x us, ts = .name x :: us ∧ Fresh p.tab ScCOMM x ∧ (us = [] ∨ ∃ r, us = Lx.eq :: r) := by
  cases h with
  | room h _ => exact ⟨_, _, rfl, h, .inl rfl⟩
  | again h _ _ => exact ⟨_, _, rfl, h, .inl rfl⟩
  | value h _ _ _ => exact ⟨_, _, rfl, h, .inr ⟨_, rfl⟩⟩
  | valueAgain h _ _ _ _ => exact ⟨_, _, rfl, h, .inr ⟨_, rfl⟩⟩

theorem GVars.read {ty : Int} {dim : Nat} {pub : Bool} {p p' : Spot} {ts : List Tok} {m : List Thing} (h : GVars ty dim pub p ts m p')
    (hv : Valued (ty, dim)) : ∀ (s : PS) (rest : List Tok), s.spot = p → s.curDim = dim → s.toks = ts ++ Lx.semi :: rest →
      ∃ x us s', s.toks = .name x :: us ∧ us.head? ≠ some Lx.lpar ∧ Fresh s.tab ScCOMM x ∧
        getGVars o ty pub { s with toks := us, tab := s.tab ++ [⟨x, ScCOMM, ty, s.curDim, s.curCnt, pub⟩] } = some s' ∧ Makes s s' rest p' m := by
  have hd : ∀ {us rest : List Tok}, (us = [] ∨ ∃ r, us = Lx.eq :: r) → Sep rest → (us ++ rest).head? ≠ some Lx.lpar := by
    rintro us rest (rfl | ⟨r, rfl⟩) ⟨t, u, rfl, rfl | rfl⟩ <;> simp
  induction h with
  | one h =>
    rintro s rest rfl rfl ht
    obtain ⟨x, us, rfl, h1, h2⟩ := h.name
    obtain ⟨s1, e1, c1⟩ := GVar.read (T := s.tab)
      (s := { s with toks := us ++ Lx.semi :: rest, tab := s.tab ++ [⟨x, ScCOMM, ty, s.curDim, s.curCnt, pub⟩] }) h rfl ⟨_, _, rfl, .inr rfl⟩ rfl
    obtain ⟨s2, e2, c2⟩ := chkTok_come c1.toks
    refine ⟨x, us ++ Lx.semi :: rest, s2, ht, hd h2 ⟨_, _, rfl, .inr rfl⟩, h1, ?_, c2.toks, c2.spot.trans c1.spot, c2.depth.trans c1.depth, ?_⟩
    · rw [getGVars, e1]
      simp only [Option.bind_eq_bind, Option.bind_some]
      split
      · next h' =>
        rw [c1.toks] at h'
        cases h'
      · exact e2
    · rw [c2.out, c1.out]
  | @more p ts m p1 vs m' p' h _ ih =>
    rintro s rest rfl rfl ht
    obtain ⟨x, us, rfl, h1, h2⟩ := h.name
    rw [List.append_assoc] at ht
    obtain ⟨s1, e1, c1⟩ := GVar.read (T := s.tab)
      (s := { s with toks := us ++ Lx.comma :: (vs ++ Lx.semi :: rest), tab := s.tab ++ [⟨x, ScCOMM, ty, s.curDim, s.curCnt, pub⟩] })
      h rfl ⟨_, _, rfl, .inl rfl⟩ rfl
    have hd1 : s1.curDim = s.curDim := (congrArg Spot.dim c1.spot).trans h.keeps.1
    have ht1 : s1.next.toks = vs ++ Lx.semi :: rest := by simp [PS.next, c1.toks]
    obtain ⟨y, ws, s2, k1, k2, k3, e2, c2⟩ := ih s1.next rest c1.spot hd1 ht1
    refine ⟨x, us ++ Lx.comma :: (vs ++ Lx.semi :: rest), s2, ht, hd h2 ⟨_, _, rfl, .inl rfl⟩, h1, ?_, ?_⟩
    · have e3 := (getName_iff (o := o) (s := s1.next) (sc := ScCOMM) (ty := ty) (pub := pub)).2
        ⟨y, ws, k1, .inr (by rw [show s1.next.curDim = s.curDim from hd1]; exact hv), fun h => absurd h hv.1, k3, rfl⟩
      rw [getGVars, e1]
      simp only [Option.bind_eq_bind, Option.bind_some]
      split
      · rw [e3]
        exact e2
      · next h' => exact absurd c1.toks (h' _)
    · exact ⟨c2.toks, c2.spot, c2.depth.trans c1.depth, by rw [c2.out, show s1.next.out = s1.out from rfl, c1.out]; simp⟩

theorem Flds.read {ty : Int} {dim : Nat} {p p' : Spot} {ts : List Tok} (h : Flds ty dim p ts p') (hv : Valued (ty, dim)) :
    ∀ (s : PS) (rest : List Tok), s.spot = p → s.curDim = dim → s.toks = ts ++ Lx.semi :: rest →
      ∃ s', (getName o ScFLD ty false s).bind (fun s => fldLoop o ty { s with curCnt := s.curCnt + 1 }) = some s' ∧
        Comes s s' (Lx.semi :: rest) p' := by
  induction h with
  | @one p x h =>
    rintro s rest rfl rfl ht
    have e := (getName_iff (o := o) (s := s) (sc := ScFLD) (ty := ty) (pub := false)).2 ⟨x, _, ht, .inr hv, fun h => absurd h hv.1, h, rfl⟩
    rw [e, Option.bind_some, fldLoop]
    exact ⟨_, rfl, rfl, rfl, rfl, rfl⟩
  | @more p x us p' h _ ih =>
    rintro s rest rfl rfl ht
    have e := (getName_iff (o := o) (s := s) (sc := ScFLD) (ty := ty) (pub := false)).2 ⟨x, _, ht, .inr hv, fun h => absurd h hv.1, h, rfl⟩
    obtain ⟨s', e1, c1⟩ := ih { s with toks := us ++ Lx.semi :: rest, tab := s.tab ++ [⟨x, ScFLD, ty, s.curDim, s.curCnt, false⟩],
                                       curCnt := s.curCnt + 1 } rest rfl rfl rfl
    refine ⟨s', ?_, c1.toks, c1.spot, c1.depth, c1.out⟩
    rw [e, Option.bind_some, fldLoop]
    exact e1

theorem Flds.name {ty : Int} {dim : Nat} {p p' : Spot} {ts : List Tok} (h : Flds ty dim p ts p') : ∃ x us, ts = .name x :: us := by
  cases h <;> exact ⟨_, _, rfl⟩

theorem line_come {k : Tok} {ty : Int} {dim : Nat} {p' : Spot} {us rest : List Tok} (hk : TypeTok s.tab k ty) (hv : Valued (ty, dim))
    (h : Flds ty dim { s.spot with dim := dim } us p') (ht : s.toks = k :: (dimToks dim ++ (us ++ Lx.semi :: rest))) :
    ∃ s', getFieldLine o s = some s' ∧ Comes s s' rest p' := by
  obtain ⟨x, vs, hx⟩ := h.name
  have e1 := getTy_come hk ht (by rw [hx]; simp)
  obtain ⟨s2, e2, c2⟩ := h.read (o := o) hv { s with toks := us ++ Lx.semi :: rest, curDim := dim } rest rfl rfl rfl
  obtain ⟨s3, e3, c3⟩ := chkTok_come c2.toks
  refine ⟨s3, ?_, c3.toks, c3.spot.trans c2.spot, c3.depth.trans c2.depth, c3.out.trans c2.out⟩
  rw [Option.bind_eq_some_iff] at e2
  obtain ⟨s4, e4, e2⟩ := e2
  simp only [getFieldLine, e1, Option.bind_eq_bind, Option.bind_some, e4, e2, e3]

theorem Lines.head {p p' : Spot} {ts : List Tok} (h : Lines p ts p') : ∃ k ty us, TypeTok p.tab k ty ∧ ts = k :: us := by
  cases h with
  | one h => exact ⟨_, _, _, h, rfl⟩
  | more h => exact ⟨_, _, _, h, rfl⟩

theorem Lines.read {p p' : Spot} {ts : List Tok} (h : Lines p ts p') : ∀ (s : PS) (rest : List Tok), s.spot = p →
    s.toks = ts ++ Lx.rbrc :: rest → ∃ s', fldLines o s = some s' ∧ Comes s s' rest p' := by
  induction h with
  | one hk hv h =>
    rintro s rest rfl ht
    obtain ⟨s1, e1, c1⟩ := line_come (o := o) (rest := Lx.rbrc :: rest) hk hv h (by rw [ht]; simp)
    refine ⟨s1.next, ?_, (next_come c1.toks).toks, c1.spot, c1.depth, c1.out⟩
    rw [fldLines, e1]
    simp only [Option.bind_eq_bind, Option.bind_some]
    rw [c1.toks]
    rfl
  | @more p k ty dim us p1 vs p' hk hv h hl ih =>
    rintro s rest rfl ht
    obtain ⟨s1, e1, c1⟩ := line_come (o := o) (rest := vs ++ Lx.rbrc :: rest) hk hv h (by rw [ht]; simp)
    obtain ⟨s2, e2, c2⟩ := ih s1 rest c1.spot c1.toks
    refine ⟨s2, ?_, c1.trans c2⟩
    rw [fldLines, e1]
    simp only [Option.bind_eq_bind, Option.bind_some]
    split
    · next h' =>
      obtain ⟨k', ty', ws, g1, rfl⟩ := hl.head
      rw [c1.toks] at h'
      cases h'
      cases g1
    · exact e2

theorem TypeTok.not {T : Tab} {k : Tok} {ty : Int} (h : TypeTok T k ty) : k ≠ Lx.PUBLIC ∧ k ≠ Lx.STRUCT ∧ k ≠ Lx.TYPEDEF := by
  cases h <;> simp

theorem getProg_decl {pub : Bool} {k : Tok} {ty : Int} {us : List Tok} (hk : TypeTok s.tab k ty) (ht : s.toks = pubToks pub ++ k :: us) :
    getProg o s = getDecl o pub { s with toks := k :: us } := by
  obtain ⟨n1, n2, n3⟩ := hk.not
  unfold getProg
  cases pub with
  | true =>
    have h1 : s.toks.head? = some Lx.PUBLIC := by rw [ht]; rfl
    have h2 : s.next = { s with toks := k :: us } := by simp [PS.next, ht, pubToks]
    simp only [h1, beq_self_eq_true, if_true, h2]
    split
    · next h' => exact absurd (by cases h'; rfl) n2
    · next h' => exact absurd (by cases h'; rfl) n3
    · rfl
  | false =>
    have ht : s.toks = k :: us := ht
    have h1 : (s.toks.head? == some Lx.PUBLIC) = false := by rw [ht]; simpa using n1
    simp only [h1, Bool.false_eq_true, if_false]
    have h2 : { s with toks := k :: us } = s := by rw [← ht]
    rw [h2]
    split
    · next h' => exact absurd (by rw [ht] at h'; cases h'; rfl) n2
    · next h' => exact absurd (by rw [ht] at h'; cases h'; rfl) n3
    · rfl

theorem Decln.read {p p' : Spot} {ts : List Tok} {m : List Thing} (h : Decln o p ts m p') (hs : s.spot = p) (hd : s.depth = 0)
    {rest : List Tok} (ht : s.toks = ts ++ rest) : ∃ s', getProg o s = some s' ∧ Makes s s' rest p' m := by
  subst hs
  cases h with
  | @struct x fs p' fl h1 h2 h3 =>
    have ht : s.toks = Lx.STRUCT :: .name x :: Lx.lbrc :: (fs ++ Lx.rbrc :: Lx.semi :: rest) := by rw [ht]; simp
    have e1 := (getName_iff (o := o) (s := s.next) (sc := ScSTRC) (ty := TySTRUC) (pub := false)).2
      ⟨x, Lx.lbrc :: (fs ++ Lx.rbrc :: Lx.semi :: rest), by simp [PS.next, ht], .inr ⟨show TySTRUC ≠ TyINTR by decide, fun h => absurd (congrArg Prod.fst h) (show TySTRUC ≠ TyVOID by decide)⟩, fun h => absurd h (by decide), h1, rfl⟩
    obtain ⟨s2, e2, c2⟩ := h2.read (o := o)
      { s.next with toks := fs ++ Lx.rbrc :: Lx.semi :: rest, curCnt := 0, tab := s.tab ++ [⟨x, ScSTRC, TySTRUC, s.curDim, s.curCnt, false⟩] }
      (Lx.semi :: rest) rfl rfl
    obtain ⟨s3, e3, c3⟩ := chkTok_come c2.toks
    have ht3 : s3.tab = s.tab ++ ⟨x, ScSTRC, TySTRUC, s.curDim, s.curCnt, false⟩ :: fl := (congrArg Spot.tab (c3.spot.trans c2.spot)).trans h3
    have hl2 : (setVoid (s.tab ++ ⟨x, ScSTRC, TySTRUC, s.curDim, s.curCnt, false⟩ :: fl) (s.tab.length + 1)).length - (s.tab.length + 1) = fl.length := by
      unfold setVoid
      simp
    refine ⟨{ s3 with tab := keep none s.tab ⟨x, ScSTRC, TySTRUC, s.curDim, fl.length, false⟩ fl }, ?_, c3.toks, ?_, c3.depth.trans c2.depth, ?_⟩
    · unfold getProg
      simp only [ht, List.head?_cons]
      simp only [show (some Lx.STRUCT == some Lx.PUBLIC) = false from rfl, Bool.false_eq_true, if_false]
      rw [ht]
      have e0 : chkTok Lx.lbrc { s.next with toks := Lx.lbrc :: (fs ++ Lx.rbrc :: Lx.semi :: rest), tab := s.next.tab ++ [⟨x, ScSTRC, TySTRUC, s.next.curDim, s.next.curCnt, false⟩] } =
          some { s.next with toks := fs ++ Lx.rbrc :: Lx.semi :: rest, tab := s.next.tab ++ [⟨x, ScSTRC, TySTRUC, s.next.curDim, s.next.curCnt, false⟩] } := by
        simp [chkTok, PS.next]
      simp only [e1, Option.bind_eq_bind, Option.bind_some, getStruct, e0]
      have hv := void_app (T := s.tab) (fl := fl) (e := ⟨x, ScSTRC, TySTRUC, s.curDim, s.curCnt, false⟩)
      have hlen : (s.next.tab ++ [(⟨x, ScSTRC, TySTRUC, s.next.curDim, s.next.curCnt, false⟩ : Ent)]).length = s.tab.length + 1 := by
        rw [List.length_append]
        rfl
      have e2 : fldLines o { s.next with toks := fs ++ Lx.rbrc :: Lx.semi :: rest, curCnt := 0, tab := s.next.tab ++ [⟨x, ScSTRC, TySTRUC, s.next.curDim, s.next.curCnt, false⟩] } = some s2 := e2
      simp only [e2, e3, Option.bind_some, hlen, ht3, hl2, Nat.add_sub_cancel, hv]
    · have := c3.spot.trans c2.spot
      rw [← this]
      rfl
    · show s3.out.map Out.thing = _
      rw [c3.out, c2.out]
      rfl
  | @typedef x h1 =>
    have e1 := (getName_iff (o := o) (s := s.next) (sc := ScSTRC) (ty := TyREF) (pub := false)).2
      ⟨x, Lx.semi :: rest, by simp [PS.next, ht], .inr ⟨show TyREF ≠ TyINTR by decide, fun h => absurd (congrArg Prod.fst h) (show TyREF ≠ TyVOID by decide)⟩, fun h => absurd h (by decide), h1, rfl⟩
    obtain ⟨s2, e2, c2⟩ := chkTok_come
      (s := { s.next with toks := Lx.semi :: rest, tab := s.tab ++ [⟨x, ScSTRC, TyREF, s.curDim, s.curCnt, false⟩] }) rfl
    refine ⟨s2, ?_, ⟨c2.toks, c2.spot, c2.depth, by rw [c2.out]; rfl⟩⟩
    have ht : s.toks = Lx.TYPEDEF :: .name x :: Lx.semi :: rest := ht
    unfold getProg
    simp only [ht, List.head?_cons]
    simp only [show (some Lx.TYPEDEF == some Lx.PUBLIC) = false from rfl, Bool.false_eq_true, if_false]
    rw [ht]
    simp only [e1, Option.bind_eq_bind, Option.bind_some]
    exact e2
  | @vars pub k ty dim us m p' hk hv h =>
    rw [List.append_assoc, List.cons_append, List.append_assoc, List.append_assoc] at ht
    obtain ⟨x, vs, s', k1, k2, k3, e1, c1⟩ := h.read (o := o) hv { s with toks := us ++ Lx.semi :: rest, curDim := dim } rest rfl rfl rfl
    have k1 : us ++ Lx.semi :: rest = .name x :: vs := k1
    refine ⟨s', ?_, c1.toks, c1.spot, c1.depth, c1.out⟩
    rw [getProg_decl hk ht]
    have e2 := getTy_come (s := { s with toks := k :: (dimToks dim ++ (us ++ ([Lx.semi] ++ rest))) }) hk rfl (by
      rw [show us ++ ([Lx.semi] ++ rest) = us ++ Lx.semi :: rest from rfl, k1]; simp)
    have e3 := (getName_iff (o := o) (s := { s with toks := us ++ ([Lx.semi] ++ rest), curDim := dim }) (sc := ScPROT) (ty := ty) (pub := pub)).2
      ⟨x, vs, k1, .inl rfl, fun h => absurd h hv.1, fresh_glob.2 k3, rfl⟩
    simp only [getDecl, e2, e3, Option.bind_eq_bind, Option.bind_some]
    split
    · next h' => exact absurd rfl k2
    · rw [if_neg (fun h => hv.2 (by rw [h.1, h.2])), if_neg hv.1]
      rw [List.length_append, List.length_singleton, Nat.add_sub_cancel, setScope_app]
      exact e1
  | @func pub k ty dim x us m p' hk hi hf h =>
    rw [List.append_assoc, List.cons_append, List.append_assoc, List.cons_append] at ht
    obtain ⟨r, hus⟩ : ∃ r, us = Lx.lpar :: r := by cases h <;> exact ⟨_, rfl⟩
    obtain ⟨s', e1, c1⟩ := Func.read (T := s.tab)
      (s := { s with toks := us ++ rest, curDim := dim, tab := s.tab ++ [⟨x, ScPROT, ty, dim, s.curCnt, pub⟩] }) h rfl rfl hd
    refine ⟨s', ?_, c1.toks, c1.spot, c1.depth, c1.out⟩
    rw [getProg_decl hk ht]
    have e2 := getTy_come (s := { s with toks := k :: (dimToks dim ++ .name x :: (us ++ rest)) }) hk rfl (by simp)
    have e3 := (getName_iff (o := o) (s := { s with toks := .name x :: (us ++ rest), curDim := dim }) (sc := ScPROT) (ty := ty) (pub := pub)).2
      ⟨x, us ++ rest, rfl, .inl rfl, hi, hf, rfl⟩
    simp only [getDecl, e2, e3, Option.bind_eq_bind, Option.bind_some]
    subst hus
    exact e1

theorem Decln.head {p p' : Spot} {ts : List Tok} {m : List Thing} (h : Decln o p ts m p') : ts ≠ [] := by
  cases h <;> simp

theorem Prog.read {p p' : Spot} {ts : List Tok} {m : List Thing} (h : Prog o p ts m p') : ∀ s : PS, s.spot = p → s.depth = 0 → s.toks = ts →
    ∃ s', getSrc o s = some s' ∧ Makes s s' [] p' m := by
  induction h with
  | done =>
    rintro s rfl hd ht
    refine ⟨s, ?_, ht, rfl, rfl, rfl⟩
    rw [getSrc, ht]
  | more h _ ih =>
    rintro s rfl hd ht
    obtain ⟨s1, e1, c1⟩ := h.read rfl hd ht
    obtain ⟨s2, e2, c2⟩ := ih s1 c1.spot (c1.depth.trans hd) c1.toks
    refine ⟨s2, ?_, c1.trans c2⟩
    rw [getSrc]
    split
    · next h' =>
      rw [ht] at h'
      exact absurd (List.append_eq_nil_iff.1 h').1 h.head
    · rw [e1]
      exact e2

end Cmm.Parse
