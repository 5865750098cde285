import Verif.CText.Scope
import Verif.Parse.ProgSyn
import Verif.Parse.Glob

/-
Functions, for Verif/Props/C76.lean: parameters, and the braces of the body.
-/
namespace Cmm.CText
open Cmm.Parse (Tab Ent Spot Prms Sig Fresh AllGlob nowFun TyDOTDOTDOT ScLVAR ScPRM ScVOID ScFUNC)

/-! ### Specification: C (C11 6.2.1, 6.9.1)

The parameters belong to the block that is the body of the function. -/

/-- The parameters with numbers from `n` on; `...` has a number and no name. -/
def parScope : List CPar → List (Text × Nat) → Nat → Option (List (Text × Nat) × Nat)
  | [], sc, n => some (sc, n)
  | p :: ps, sc, n =>
    let x := match p with
      | some (_, _, x) => x
      | none => []
    if (sc.lookup x).isSome then none else parScope ps ((x, n) :: sc) (n + 1)

/-- The names used in a function with their declarations; declarations have the numbers from `n` on. -/
def resolveFn (f : CHead × CS) (n : Nat) : Option (List (Text × Option Nat)) := do
  let (sc, n) ← parScope f.1.pars [] n
  let (_, _, us) ← resolve f.2 [sc] n
  some us

/-! ### The function that is printed -/

/-- cCode.c:379-384: the parameter with the entry `e`. -/
def toPar (N : Nat → Text) (e : Ent) : Par :=
  if e.type = TyDOTDOTDOT then .dots else .p (toTy N e.type) e.dim e.name.toList

/-- cCode.c:374-405: the function with the entry `x ty dim pub`, the parameters `prm` and the tree `b`. -/
def toFn (N : Nat → Text) (ty : Int) (dim : Nat) (pub : Bool) (x : String) (prm : Tab) (b : Option VS) : Fn :=
  ⟨pub, toTy N ty, dim, x.toList, prm.map (toPar N), toS N (stOfV (blockOfV b))⟩

variable {N : Nat → Text}

/-! ### Parameters -/

/-- Parameters are entered with ScPRM, with different names; `...` without a name. -/
theorem prms_tab {old : Option Nat} {p p' : Spot} {ts : List Parse.Tok} (h : Prms old p ts p') : ∃ l, p'.tab = p.tab ++ l ∧
    (∀ e ∈ l, e.scope = ScPRM ∧ (e.type = TyDOTDOTDOT → e.name = "")) ∧
    l.Pairwise (fun a b => a.name ≠ b.name) ∧ ∀ e ∈ l, ∀ d ∈ p.tab, d.scope = ScPRM → d.name ≠ e.name := by
  have fr : ∀ {T : Tab} {x : String}, Fresh T ScPRM x → ∀ d ∈ T, d.scope = ScPRM → d.name ≠ x := by
    intro T x hf d hd hs hn
    exact (hf.2 d hd hn (by rw [hs]; decide)).2.2.1 (by decide) hs
  have nd : ∀ {T : Tab} {k : Parse.Tok} {ty : Int}, Parse.TypeTok T k ty → ty ≠ TyDOTDOTDOT := by
    intro T k ty h
    cases h with
    | name => simp only [TyDOTDOTDOT]; omega
    | _ => decide
  induction h with
  | none => exact ⟨[], by simp, nofun, .nil, nofun⟩
  | @dots p _ h =>
    refine ⟨[_], rfl, ?_, by simp, ?_⟩
    · intro e he; cases List.mem_singleton.1 he; exact ⟨rfl, fun _ => rfl⟩
    · intro e he; cases List.mem_singleton.1 he; exact fr h
  | last ht _ _ h =>
    refine ⟨[_], rfl, ?_, by simp, ?_⟩
    · intro e he; cases List.mem_singleton.1 he; exact ⟨rfl, fun hc => absurd hc (nd ht)⟩
    · intro e he; cases List.mem_singleton.1 he; exact fr h
  | @more p k ty dim x us p' ht _ _ h _ ih =>
    obtain ⟨l, h1, h2, h3, h4⟩ := ih
    simp only [Spot.enter] at h1 h4
    refine ⟨⟨x, ScPRM, ty, dim, p.cnt, false⟩ :: l, by rw [h1]; simp, ?_, ?_, ?_⟩
    · intro e he
      rcases List.mem_cons.1 he with rfl | he
      · exact ⟨rfl, fun hc => absurd hc (nd ht)⟩
      · exact h2 e he
    · refine List.pairwise_cons.2 ⟨fun e he => ?_, h3⟩
      exact h4 e he ⟨x, ScPRM, ty, dim, p.cnt, false⟩ (by simp) rfl
    · intro e he d hd hs
      rcases List.mem_cons.1 he with rfl | he
      · exact fr h d hd hs
      · exact h4 e he d (by simp [hd]) hs

theorem parScope_ok {l : Tab} (h2 : ∀ e ∈ l, e.scope = ScPRM ∧ (e.type = TyDOTDOTDOT → e.name = ""))
    (h3 : l.Pairwise (fun a b => a.name ≠ b.name)) :
    ∀ {T : Tab} {sc : List (Text × Nat)}, EnvOk [sc] T → (∀ e ∈ l, ∀ d ∈ T, d.name = e.name → ¬ Loc d) →
      ∃ sc', parScope ((l.map (toPar N)).map trPar) sc T.length = some (sc', (T ++ l).length) ∧ EnvOk [sc'] (T ++ l) := by
  induction l with
  | nil => intro T sc he _; exact ⟨sc, by simp [parScope], by simpa using he⟩
  | cons a l ih =>
    intro T sc he hT
    obtain ⟨ha, hd⟩ := h2 a (by simp)
    obtain ⟨h31, h32⟩ := List.pairwise_cons.1 h3
    obtain ⟨sc0, env0, e1, e2, e3⟩ := he.add (a := a) (.inr ha) (by rw [ha]; decide) (hT a (by simp))
    cases e1
    obtain ⟨sc', r1, r2⟩ := ih (fun e he => h2 e (by simp [he])) h32 e3 (by
      intro e hel d hdm hn
      rcases List.mem_append.1 hdm with hdm | hdm
      · exact hT e (by simp [hel]) d hdm hn
      · rw [List.mem_singleton.1 hdm] at hn
        exact absurd hn (h31 e hel))
    refine ⟨sc', ?_, by simpa using r2⟩
    have hx : (match trPar (toPar N a) with
      | some (_, _, x) => x
      | none => []) = a.name.toList := by
      by_cases h : a.type = TyDOTDOTDOT
      · rw [toPar, if_pos h, hd h]; rfl
      · rw [toPar, if_neg h]; rfl
    simp only [List.map_cons, parScope, hx, e2, Bool.false_eq_true, if_false]
    simpa using r1

/-! ### The body -/

/-- The braces of a block may be left out if nothing follows. -/
def Opens (N : Nat → Text) (p : Spot) (v : Option VS) (p' : Spot) : Prop :=
  ∀ x y, v = some (.seq true x y) → ∀ env, EnvOk env p.tab → Names N p'.tab →
    ∃ env', resolve (CS.ofList (trS (toS N x) ++ trS (toS N y))) env p.tab.length = some (env', p'.tab.length, (occV v).map (Occ.use N))

def OpensN (N : Nat → Text) (p : Spot) (v : Option VS) (p' : Spot) : NTV → Prop
  | .stat _ => Opens N p v p'
  | .items a => ∀ x y, v = some (.seq true x y) → a = v ∨ a = none ∧ Opens N p v p'

theorem opens {F : Int × Nat} {nt : NTV} {l : Bool} {p p' : Spot} {ts : List Parse.Tok} {v : Option VS}
    (h : SynV true F nt l p ts v p') : OpensN N p v p' nt := by
  induction h with
  | @«for» l q p t1 i p1 t2 c p2 t3 r p3 ts a p4 h1 h2 h3 hs _ =>
    intro x y hv env he hN
    cases hv
    obtain ⟨i1, i2, i3⟩ := runs (N := N) hs
    obtain ⟨a1, a2⟩ := ForIniV.run (N := N) h1
    obtain ⟨b1, b2⟩ := ForCond.run (N := N) h2
    obtain ⟨c1, c2⟩ := ForRini.run (N := N) h3
    have hp : p.tab <+: p4.tab := by rw [c1, b1] at i3; exact a2.trans i3
    have hN4 := leave_names hp hN
    have hN1 : Names N p1.tab := by rw [← b1, ← c1]; exact hN4.mono i3
    obtain ⟨env1, r1, r2, r3⟩ := a1 _ he hN1
    have r3' : EnvOk env1 p3.tab := by rw [c1, b1]; exact r3
    have hb := i2.body i1 r3'.push.push hN4
    have hu1 := b2 env1 r3 hN1
    have hu2 := c2 env1 (by rw [b1]; exact r3) (by rw [b1]; exact hN1)
    rw [c1, b1] at hb
    have hl : (p.leave p4).tab.length = p4.tab.length := leave_length hp
    have hn : uses env1 .nil = [] := rfl
    have ho : (stOfV i).occ = occV i := by cases i <;> rfl
    refine ⟨env1, ?_⟩
    simp [-List.headD_eq_head?_getD, toS, trS, resolve_one, resolve, resolve_append, r1, hb, hu1, hu2, hl, hn, ho, occV, VS.occ]
  | @block l p ts a p' hs _ ih =>
    intro x y hv env he hN
    obtain ⟨cs, os, e1, e2, d, hp⟩ := runs (N := N) hs
    simp only [items, List.nil_append] at e1
    simp only [occV, List.nil_append] at e2
    subst e1 e2
    have hN' := leave_names hp hN
    have hl : (p.leave p').tab.length = p'.tab.length := leave_length hp
    cases a with
    | none => cases hv
    | some v =>
      cases v with
      | seq k s t =>
        cases k with
        | false =>
          cases hv
          obtain ⟨env1, r1, -⟩ := d _ he hN'
          simp only [toS, trS, VS.occ] at r1
          exact ⟨env1, by rw [r1]; simp only [hl, blockOfV, occV, VS.occ]⟩
        | true =>
          cases hv
          rcases ih _ _ rfl with h | ⟨-, h⟩
          · cases h
          · obtain ⟨env1, r1⟩ := h _ _ rfl env he hN'
            exact ⟨env1, by rw [r1]; simp only [hl, blockOfV, occV, VS.occ]⟩
      | _ => cases hv
  | done => intro x y _; exact .inl rfl
  | @decl l a p ts d p1 us b p2 h1 _ ih =>
    intro x y hv
    have hd : ∀ x y, d ≠ .seq true x y := by
      intro x y hd
      subst hd
      cases h1 with
      | mk _ _ _ h4 =>
        cases h4 with
        | one h => cases h
    rcases ih x y hv with h | ⟨h, -⟩
    · rw [hv] at h
      cases a with
      | none => cases h; exact absurd rfl (hd x y)
      | some a => cases h
    · cases a <;> cases h
  | @stat l a q p ts d p1 us b p2 hs _ hi ih1 ih2 =>
    intro x y hv
    obtain ⟨-, i2, i3⟩ := runs (N := N) hs
    obtain ⟨cs, os, e1, e2, dn, hp⟩ := runs (N := N) hi
    rcases ih2 x y hv with h | ⟨h, ho⟩
    · cases a with
      | some a =>
        cases d with
        | none => exact .inl h
        | some d => rw [hv] at h; cases h
      | none =>
        have h : d = b := by cases d <;> exact h
        subst h
        refine .inr ⟨rfl, fun x' y' hv' env he hN => ?_⟩
        obtain ⟨env1, r1⟩ := ih1 x' y' hv' env he (hN.mono hp)
        obtain ⟨-, e3⟩ := i2 env he (hN.mono hp)
        have hcs : cs = [] := by
          have : items N d = items N d ++ cs := by simpa [joinV] using e1
          simpa using this
        have hos : os = [] := by
          have : occV d = occV d ++ os := by simpa [joinV] using e2
          simpa using this
        subst hcs hos
        obtain ⟨env2, r2, -⟩ := dn env e3 hN
        have r3 : some (env, p1.tab.length, []) = some (env2, p2.tab.length, []) := r2
        simp only [Option.some.injEq, Prod.mk.injEq] at r3
        rw [← r3.2.1]
        exact ⟨env1, r1⟩
    · cases a with
      | some a => cases d <;> cases h
      | none =>
        cases d with
        | some d => cases h
        | none =>
          refine .inr ⟨rfl, fun x' y' hv' env he hN => ?_⟩
          obtain ⟨r1, e3⟩ := i2 env he (hN.mono hp)
          obtain ⟨env1, r2⟩ := ho x' y' hv' env e3 hN
          have r3 : some (env, p.tab.length, []) = some (env, p1.tab.length, []) := r1
          simp only [Option.some.injEq, Prod.mk.injEq, true_and, and_true] at r3
          rw [r3]
          exact ⟨env1, r2⟩
  | _ => exact nofun

/-- The body of a function. -/
theorem body_run {F : Int × Nat} {l : Bool} {p p' : Spot} {ts : List Parse.Tok} {b : Option VS} (h : SynV true F (.items none) l p ts b p')
    {env : Env} (he : EnvOk env p.tab) (hN : Names N p'.tab) :
    ∃ env', resolve (CS.ofList (trS (unblk (toS N (stOfV (blockOfV b)))))) env p.tab.length =
      some (env', p'.tab.length, (occV b).map (Occ.use N)) := by
  obtain ⟨cs, os, e1, e2, d, hp⟩ := runs (N := N) h
  simp only [items, List.nil_append] at e1
  simp only [occV, List.nil_append] at e2
  subst e1 e2
  obtain ⟨env1, r1, -⟩ := d env he hN
  cases b with
  | none =>
    have r2 : some (env, p.tab.length, []) = some (env1, p'.tab.length, []) := r1
    refine ⟨env1, ?_⟩
    rw [show occV none = [] from rfl, List.map_nil, ← r2]
    rfl
  | some v =>
    cases v with
    | seq k s t =>
      cases k with
      | false => exact ⟨env1, r1⟩
      | true =>
        rcases opens (N := N) h s t rfl with h | ⟨-, h⟩
        · cases h
        · exact h s t rfl env he hN
    | _ => exact ⟨env1, r1⟩

theorem allGlob_not {T : Tab} (h : AllGlob T) : ∀ d ∈ T, ¬ Loc d := by
  intro d hd hl
  have := h d hd
  rcases hl with hl | hl <;> rw [hl] at this <;> exact absurd this (by decide)

theorem EnvOk.first {T : Tab} (h : ∀ d ∈ T, ¬ Loc d) : EnvOk [[]] T :=
  ⟨nofun, fun x n e hs => by rw [if_neg (h e (List.mem_of_getElem? hs.1))]; rfl, nofun⟩

/-- Before and behind every declaration of a program only global names are visible. -/
theorem prog_glob {o : Parse.Opts} {p p' : Spot} {ts : List Parse.Tok} {m : List Parse.Thing} (h : Parse.Prog o p ts m p') :
    AllGlob p.tab → AllGlob p'.tab := by
  have one : ∀ {e : Ent} {T : Tab}, e.scope < ScLVAR → AllGlob T → AllGlob (T ++ [e]) := fun h1 h2 =>
    AllGlob.app.2 ⟨h2, AllGlob.cons.2 ⟨h1, AllGlob.nil⟩⟩
  have gv : ∀ {ty dim pub p p'} {ts : List Parse.Tok} {m : List Parse.Thing}, Parse.GVar ty dim pub p ts m p' → AllGlob p.tab → AllGlob p'.tab := by
    intro ty dim pub p p' ts m h hp
    cases h with
    | room => exact one (by show Parse.ScCOMM < ScLVAR; decide) hp
    | again => exact hp
    | value => exact one (by show Parse.ScGVAR < ScLVAR; decide) hp
    | valueAgain => exact hp.modify fun _ _ => (by decide : Parse.ScGVAR < ScLVAR)
  have gvs : ∀ {ty dim pub p p'} {ts : List Parse.Tok} {m : List Parse.Thing}, Parse.GVars ty dim pub p ts m p' → AllGlob p.tab → AllGlob p'.tab := by
    intro ty dim pub p p' ts m h
    induction h with
    | one h => exact gv h
    | more h _ ih => exact fun hp => ih (gv h hp)
  have nf : ∀ {old : Option Nat} {T : Tab}, AllGlob T → AllGlob (nowFun old T) := by
    intro old T h
    cases old with
    | none => exact h
    | some i => exact h.modify fun _ _ => (by decide : ScFUNC < ScLVAR)
  have kp : ∀ {old : Option Nat} {T prm : Tab} {e : Ent}, e.scope < ScLVAR → AllGlob T → AllGlob (Parse.keep old T e prm) := by
    intro old T prm e he h
    cases old with
    | none => exact AllGlob.app.2 ⟨h, AllGlob.cons.2 ⟨he, AllGlob.void _⟩⟩
    | some i => exact h
  induction h with
  | done => exact id
  | more h _ ih =>
    refine fun hp => ih ?_
    cases h with
    | struct => exact kp (old := none) (by show Parse.ScSTRC < ScLVAR; decide) hp
    | typedef => exact one (by show Parse.ScSTRC < ScLVAR; decide) hp
    | vars _ _ h => exact gvs h hp
    | func _ _ _ h =>
      cases h with
      | proto => exact kp (by show Parse.ScPROT < ScLVAR; decide) hp
      | body => exact kp (by show ScFUNC < ScLVAR; decide) (nf hp)

theorem nowFun_glob {old : Option Nat} {T : Tab} (h : AllGlob T) : AllGlob (nowFun old T) := by
  cases old with
  | none => exact h
  | some i => exact h.modify fun _ _ => (by decide : ScFUNC < ScLVAR)

end Cmm.CText
