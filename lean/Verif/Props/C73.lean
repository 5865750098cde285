import Verif.Parse.ProgSyn

/-
C73: whole programs. The grammar `Prog` (Verif/Parse/ProgSyn.lean) says which texts are programs, which names are known behind each
declaration and what is made of it: the body of a function, room for a variable, the initial value of a variable. psGetSrc accepts
exactly these texts and hands exactly these things to the code generator, in the order of the text.
-/
namespace Cmm.Parse
open Cmm.Tree

variable {s s' : PS} {o : Opts} {m m1 m2 : List Thing} {p p' p1 p2 : Spot}

/-- The beginning of a program: no names, no labels. -/
def Spot.first : Spot := ⟨[], 0, 0, 0, none, 0⟩

/-- C73: psGetSrc accepts the text iff it is a program of the grammar, and then it knows the names of the grammar at the end and has
handed the things of the grammar to the code generator. -/
theorem C73 {ts : List Tok} : Prog o .first ts m p' ↔
    ∃ s', getSrc o (start ts) = some s' ∧ s'.spot = p' ∧ (s'.out.map Out.thing).reverse = m := by
  constructor
  · intro h
    obtain ⟨s', e, c⟩ := h.read (start ts) rfl rfl rfl
    exact ⟨s', e, c.spot, by rw [c.out]; simp [start]⟩
  · rintro ⟨s', e, rfl, rfl⟩
    obtain ⟨-, m, a1, -, a2⟩ := getSrc_spot e rfl
    rw [a2, show (m.reverse ++ (start ts).out.map Out.thing).reverse = m by simp [start]]
    exact a1

/-- A text that is no program is not accepted. -/
theorem C73_rejected {ts : List Tok} : getSrc o (start ts) = none ↔ ¬∃ m p', Prog o .first ts m p' := by
  constructor
  · rintro h ⟨m, p', h'⟩
    obtain ⟨s', e, -⟩ := C73.1 h'
    rw [h] at e
    cases e
  · intro h
    cases e : getSrc o (start ts) with
    | none => rfl
    | some s' => exact absurd ⟨_, _, C73.2 ⟨s', e, rfl, rfl⟩⟩ h

/-- C73 for a declaration: getProg reads it whatever follows, and only it. -/
theorem C73_declaration {ts r : List Tok} (hs : s.toks = ts ++ r) (hd : s.depth = 0) : Decln o s.spot ts m p' ↔
    ∃ s', getProg o s = some s' ∧ s'.toks = r ∧ s'.spot = p' ∧ s'.out.map Out.thing = m.reverse ++ s.out.map Out.thing := by
  constructor
  · intro h
    obtain ⟨s', e, c⟩ := h.read rfl hd hs
    exact ⟨s', e, c.toks, c.spot, c.out⟩
  · rintro ⟨s', e, rfl, rfl, h⟩
    obtain ⟨us, m', a1, a2⟩ := getProg_spot e hd
    obtain rfl : ts = us := List.append_cancel_right (hs.symm.trans a2.toks)
    obtain rfl : m = m' := List.reverse_injective (List.append_cancel_right (h.symm.trans a2.out))
    exact a1

/-- A parser outside loops at `p`. -/
def Spot.at0 (p : Spot) (ts : List Tok) : PS :=
  { toks := ts, tab := p.tab, lab := p.lab, curCnt := p.cnt, maxCnt := p.most, depth := 0, lastStat := p.last, curDim := p.dim }

/-- Where a declaration ends, what it makes and which names it leaves are determined by the text. -/
theorem C73_split {ts us r r' : List Tok} (h1 : Decln o p ts m1 p1) (h2 : Decln o p us m2 p2) (h : ts ++ r = us ++ r') :
    ts = us ∧ m1 = m2 ∧ p1 = p2 := by
  obtain ⟨s1, e1, c1⟩ := h1.read (s := p.at0 (ts ++ r)) rfl rfl rfl
  obtain ⟨s2, e2, c2⟩ := h2.read (s := p.at0 (ts ++ r)) rfl rfl h
  rw [e1] at e2
  cases e2
  have hr : r = r' := c1.toks.symm.trans c2.toks
  subst hr
  exact ⟨List.append_cancel_right h, List.reverse_injective (List.append_cancel_right (c1.out.symm.trans c2.out)), c1.spot.symm.trans c2.spot⟩

/-- The grammar is unambiguous: the text determines what is made, and the names. -/
theorem C73_unambiguous {ts : List Tok} (h1 : Prog o p ts m1 p1) (h2 : Prog o p ts m2 p2) : m1 = m2 ∧ p1 = p2 := by
  obtain ⟨s1, e1, c1⟩ := h1.read (p.at0 ts) rfl rfl rfl
  obtain ⟨s2, e2, c2⟩ := h2.read (p.at0 ts) rfl rfl rfl
  rw [e1] at e2
  cases e2
  exact ⟨List.reverse_injective (List.append_cancel_right (c1.out.symm.trans c2.out)), c1.spot.symm.trans c2.spot⟩

/-! ### Examples -/

theorem fresh_nil {sc : Int} {x : String} : Fresh [] sc x := ⟨by decide, nofun⟩

theorem earlier_nil {x : String} : Earlier [] x none := by
  intro d hd
  cases hd

/-- `int v; void f(int a,);`: a comma may stand at the end of the parameters. -/
example : Prog o .first [Lx.INT, .name "v", Lx.semi, Lx.VOID, .name "f", Lx.lpar, Lx.INT, .name "a", Lx.comma, Lx.rpar, Lx.semi]
    [.room 0 [⟨"v", ScCOMM, TyINT, 0, 0, false⟩]]
    ⟨[⟨"v", ScCOMM, TyINT, 0, 0, false⟩, ⟨"f", ScPROT, TyVOID, 0, 1, false⟩, ⟨"a", ScVOID, TyINT, 0, 0, false⟩], 0, 1, 0, none, 0⟩ :=
  .more (.vars (pub := false) (dim := 0) (us := [.name "v"]) .int ⟨by decide, by decide⟩ (.one (.room fresh_nil earlier_nil)))
    (.more (us := []) (m' := [])
      (.func (pub := false) (dim := 0) (x := "f") .void (fun h => absurd h (by decide)) ⟨by decide, by simp [Spot.enter, Spot.first, ScPROT, ScCOMM, ScSTRC, ScLVAR]⟩
        (.proto (ps := [Lx.INT, .name "a", Lx.comma]) (old := none) (prm := [⟨"a", ScPRM, TyINT, 0, 0, false⟩])
          ⟨by simp [Earlier, Spot.enter, Spot.first], nofun, fun h => absurd h (by decide),
            .more (dim := 0) .int ⟨by decide, by decide⟩ nofun ⟨by decide, by simp [Spot.enter, Spot.first]⟩ .none, rfl⟩))
      .done)

/-- `void f() { }` with the optimiser off: the body of a function, without slots. -/
example : Prog ⟨false, false⟩ .first [Lx.VOID, .name "f", Lx.lpar, Lx.rpar, Lx.lbrc, Lx.rbrc]
    [.code 0 0 .empty .empty [⟨"f", ScFUNC, TyVOID, 0, 0, false⟩]]
    ⟨[⟨"f", ScFUNC, TyVOID, 0, 0, false⟩], 0, 0, 0, none, 0⟩ :=
  .more (us := []) (m' := [])
    (.func (pub := false) (dim := 0) (x := "f") .void (by decide) fresh_nil
      (.body (ps := []) (old := none) (prm := []) (ts := []) (b := none) ⟨earlier_nil, nofun, fun h => absurd h (by decide), .none, rfl⟩ nofun rfl .done
        (fun h => absurd rfl h.2) rfl rfl))
    .done

end Cmm.Parse
