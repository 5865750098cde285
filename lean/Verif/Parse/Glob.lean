import Verif.Parse.Top

/- Between global declarations no local name is visible (tools for C34, C35 and C39). -/
namespace Cmm.Parse
open Cmm.Tree

/-- No parameter, local variable or field is visible. -/
def AllGlob (t : Tab) : Prop := ∀ e ∈ t, e.scope < ScLVAR

theorem AllGlob.app {a b : Tab} : AllGlob (a ++ b) ↔ AllGlob a ∧ AllGlob b := by
  simp only [AllGlob, List.mem_append]
  exact ⟨fun h => ⟨fun e he => h e (.inl he), fun e he => h e (.inr he)⟩,
    fun h e he => he.elim (h.1 e) (h.2 e)⟩

theorem AllGlob.cons {e : Ent} {a : Tab} : AllGlob (e :: a) ↔ e.scope < ScLVAR ∧ AllGlob a := by
  simp [AllGlob]

theorem AllGlob.nil : AllGlob [] := by simp [AllGlob]

theorem AllGlob.void (x : Tab) : AllGlob (x.map fun e => { e with scope := ScVOID }) := by
  intro e he
  rw [List.mem_map] at he
  obtain ⟨e', -, rfl⟩ := he
  exact (by decide : ScVOID < ScLVAR)

theorem AllGlob.modify {t : Tab} {i : Nat} {f : Ent → Ent} (h : AllGlob t)
    (hf : ∀ e, e.scope < ScLVAR → (f e).scope < ScLVAR) : AllGlob (t.modify i f) := by
  intro e he
  obtain ⟨j, hj⟩ := List.mem_iff_getElem?.1 he
  rw [List.getElem?_modify] at hj
  split at hj
  · cases hk : t[j]? with
    | none => rw [hk] at hj; cases hj
    | some d =>
      rw [hk] at hj
      cases hj
      exact hf d (h d (List.mem_of_getElem? hk))
  · rw [show (fun a => a) <$> t[j]? = t[j]? by cases t[j]? <;> rfl] at hj
    exact h e (List.mem_of_getElem? hj)

theorem AllGlob.setScope {t : Tab} (h : AllGlob t) {i : Nat} {c : Int} (hc : c < ScLVAR) :
    AllGlob (setScope t i c) := h.modify fun _ _ => hc

theorem AllGlob.setCnt {t : Tab} (h : AllGlob t) {i c : Nat} : AllGlob (setCnt t i c) :=
  h.modify fun _ h => h

theorem AllGlob.markOld {t : Tab} (h : AllGlob t) (old : Option Nat) : AllGlob (markOld old t) := by
  cases old with
  | none => exact h
  | some i => exact h.setScope (by decide)

/-- The table of a structure after its fields have been read. -/
theorem struct_tab {t t2 : Tab} {e : Ent} (h : Defs IsFld (t ++ [e]) t2) :
    ∃ x, t2 = t ++ e :: x ∧ (∀ d ∈ x, IsFld d) ∧
      setCnt (setVoid t2 (t.length + 1)) t.length (t2.length - (t.length + 1)) =
        t ++ { e with cnt := x.length } :: x.map fun e => { e with scope := ScVOID } := by
  obtain ⟨x, hx, hx'⟩ := h.app
  refine ⟨x, by rw [hx]; simp, hx', ?_⟩
  have : t.length + 1 = (t ++ [e]).length := by simp
  rw [hx, this, setVoid_app, List.append_assoc, List.singleton_append, setCnt_app]
  congr 2
  simp
  omega

theorem var_tab {t t' : Tab} {e : Ent} (h : VarTab t e t') :
    t' = t ∨ (∃ (i : Nat) (d : Ent), t[i]? = some d ∧ d.scope = ScCOMM ∧ IsGlob d ∧ d.name = e.name ∧ t' = setScope t i ScGVAR) ∨
      (srcGlob (t ++ [e]) t.length = none ∧
        (t' = t ++ [e] ∨ t' = t ++ [{ e with scope := ScGVAR }])) := by
  unfold VarTab at h
  cases hs : srcGlob (t ++ [e]) t.length with
  | none =>
    rw [hs] at h
    exact .inr (.inr ⟨rfl, h⟩)
  | some i =>
    rw [hs] at h
    obtain ⟨d, h1, h2 | ⟨h2, h3⟩⟩ := h
    · exact .inl h2
    · obtain ⟨e', g1, g2, g3, -⟩ := srcGlob_iff.1 hs
      rw [h1] at g1
      cases g1
      exact .inr (.inl ⟨i, d, h1, h2, g2, g3, h3⟩)

theorem glob_inv (o : Opts) : TopInv o fun t _ _ => AllGlob t where
  start := .nil
  struct := by
    intro t d out e t2 h _ he _ hd
    obtain ⟨x, -, -, hx⟩ := struct_tab hd
    rw [hx, AllGlob.app, AllGlob.cons]
    exact ⟨h, by show e.scope < _; rw [he]; decide, .void x⟩
  typedef := by
    intro t d out e h _ he _
    exact AllGlob.app.2 ⟨h, AllGlob.cons.2 ⟨by rw [he]; decide, .nil⟩⟩
  func := by
    intro t s s' e ty h _ _ he _ _ hr
    obtain ⟨x, old, -, -, hc⟩ := hr.run
    rcases hc with ⟨-, ht⟩ | ⟨s2, s3, b, body, -, -, -, -, -, -, -, -, -, -, -, -, -, -, ht⟩
    · rw [ht]
      cases old with
      | some i => exact h
      | none => exact AllGlob.app.2 ⟨h, AllGlob.cons.2 ⟨by show e.scope < _; rw [he]; decide, .void x⟩⟩
    · rw [ht]
      cases old with
      | some i => exact h.setScope (by decide)
      | none => exact AllGlob.app.2 ⟨h, AllGlob.cons.2 ⟨(by decide : ScFUNC < ScLVAR), .void x⟩⟩
  var := by
    intro t d out e t' out' h _ he _ hv _
    rcases var_tab hv with rfl | ⟨i, d, -, -, -, -, rfl⟩ | ⟨-, rfl | rfl⟩
    · exact h
    · exact h.setScope (by decide)
    · exact AllGlob.app.2 ⟨h, AllGlob.cons.2 ⟨by rw [he]; decide, .nil⟩⟩
    · exact AllGlob.app.2 ⟨h, AllGlob.cons.2 ⟨(by decide : ScGVAR < ScLVAR), .nil⟩⟩

/-- An invariant of the functions handed to the code generator. -/
theorem out_inv {o : Opts} {P : Out → Prop} {I : Tab → Nat → List Out → Prop} (hI : TopInv o I)
    (hdata : ∀ {t : Tab} {dp : Nat} {out : List Out} {e : Ent} {d : Gen.DT} {k : Nat}, I t dp out →
      defName t e = some (t ++ [e]) → e.scope = ScCOMM → Init (t ++ [{ e with scope := ScGVAR }]) e.type e.dim d →
      Gen.Dir.bug ∉ (Gen.genData t.length e.dim d k).1 → P (.data t.length d (t ++ [{ e with scope := ScGVAR }]) k))
    (hbss : ∀ {t : Tab} {dp : Nat} {out : List Out} {e : Ent}, I t dp out →
      defName t e = some (t ++ [e]) → e.scope = ScCOMM → P (.bss t.length (t ++ [e])))
    (hf : ∀ {t : Tab} {s s' : PS} {e : Ent} {ty : Int} {x : Tab} {old : Option Nat} {s2 s3 : PS}
      {b : Option Stmt} {body : Stmt}, I t s.depth s.out →
      defName t e = some (t ++ [e]) → e.scope = ScPROT → e.type = ty → e.dim = s.curDim →
      (Defs IsPrm (t ++ [e]) (t ++ e :: x) ∧ Numb 0 x ∧ FitsOld t ty s.curDim x.length e.pub old) →
      s2.tab = markOld old t ++ { e with cnt := x.length, scope := ScFUNC } :: x →
      (∀ i, old = some i → ∃ d : Ent, t[i]? = some d ∧ d.scope = ScPROT ∧ d.name = e.name) →
      s2.depth = s.depth → s2.curCnt = 0 → s2.maxCnt = 0 → s2.pts = [] → s2.lastStat = none →
      getBlock o ty s.curDim s2 = some (b, s3) →
      (hasVal ty s.curDim → s3.lastStat = some Lx.RETURN) → optS o (orEmpty b) = some body →
      I s'.tab s'.depth s'.out →
      P (.func t.length s3.maxCnt (orEmpty b) body s3.tab s3.pts)) :
    TopInv o fun t d out => I t d out ∧ ∀ x ∈ out, P x where
  start := ⟨hI.start, by simp⟩
  struct h h1 h2 h3 h4 := ⟨hI.struct h.1 h1 h2 h3 h4, h.2⟩
  typedef h h1 h2 h3 := ⟨hI.typedef h.1 h1 h2 h3, h.2⟩
  var := by
    intro t d out e t' out' h h1 h2 hnv h3 hv
    refine ⟨hI.var h.1 h1 h2 hnv h3 hv, ?_⟩
    rcases hv with ⟨-, hv⟩ | ⟨x, k, hx, hb, -, -, hv⟩ | ⟨-, hv⟩ <;> subst hv
    · exact h.2
    · exact List.forall_mem_cons.2 ⟨hdata h.1 h1 h2 hx hb, h.2⟩
    · exact List.forall_mem_cons.2 ⟨hbss h.1 h1 h2, h.2⟩
  func := by
    intro t s s' e ty h h1 h2 h3 hty hdim hr
    have hi := hI.func h.1 h1 h2 h3 hty hdim hr
    refine ⟨hi, ?_⟩
    obtain ⟨x, old, ho, hd, hc⟩ := hr.run
    rcases hc with ⟨f, -⟩ | ⟨s2, s3, b, body, g1, g2, g3, g4, g5, g6, g7, g8, g9, g10, g11, g12, g13, -⟩
    · rw [show s'.out = s.out from f.out]; exact h.2
    · rw [g12, (getBlock_back g9).out, g7]
      have g8' : ∀ i, old = some i → ∃ d : Ent, t[i]? = some d ∧ d.scope = ScPROT ∧ d.name = e.name := by
        intro i hi
        obtain ⟨d, k1, k2⟩ := g8 i hi
        rw [ho] at hi
        obtain ⟨d', k3, -, k4, -⟩ := srcGlob_iff.1 hi
        rw [k1] at k3
        cases k3
        exact ⟨d, k1, k2, k4⟩
      exact List.forall_mem_cons.2 ⟨hf h.1 h2 h3 hty hdim hd g1 g8' g2 g3 g4 g5 g6 g9 g10 g11 hi, h.2⟩

end Cmm.Parse
