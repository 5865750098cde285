import Verif.Parse.Ready3

/-
The names of the functions of a program: no function is defined twice, and what the table of a function says about a
function or global variable is also said by the table at the end. For Verif/Props/C64.lean.
-/
namespace Cmm.Parse
open Cmm.Tree

/-- A function or a global variable. -/
def IsNam (c : Int) : Prop := IsFun c ∨ IsVar c

/-- The table has an entry that says the same. -/
def Carried (t : Tab) (d : Ent) : Prop := ∃ d' ∈ t, d'.name = d.name ∧ d'.pub = d.pub ∧ d'.type = d.type ∧ d'.dim = d.dim ∧
  (IsFun d.scope → IsFun d'.scope ∧ d'.cnt = d.cnt) ∧ (IsVar d.scope → IsVar d'.scope) ∧ (d.scope = ScFUNC → d'.scope = ScFUNC)

/-- The table says at least as much. -/
def Upto (t t' : Tab) : Prop := ∀ d ∈ t, IsNam d.scope → Carried t' d

theorem Carried.here {t : Tab} {d : Ent} (h : d ∈ t) : Carried t d := ⟨d, h, rfl, rfl, rfl, rfl, fun h => ⟨h, rfl⟩, id, id⟩

theorem Carried.up {t t' : Tab} {d : Ent} (h : Carried t d) (hd : IsNam d.scope) (hu : Upto t t') : Carried t' d := by
  obtain ⟨a, ha, a1, a0, a2, a3, a4, a5, a6⟩ := h
  have : IsNam a.scope := hd.imp (fun h => (a4 h).1) a5
  obtain ⟨b, hb, b1, b0, b2, b3, b4, b5, b6⟩ := hu a ha this
  exact ⟨b, hb, b1.trans a1, b0.trans a0, b2.trans a2, b3.trans a3, fun h => ⟨(b4 (a4 h).1).1, (b4 (a4 h).1).2.trans (a4 h).2⟩, b5 ∘ a5, b6 ∘ a6⟩

theorem Upto.app {t x : Tab} : Upto t (t ++ x) := fun _ h _ => .here (List.mem_append_left _ h)

theorem Upto.refl {t : Tab} : Upto t t := fun _ h _ => .here h

theorem Upto.scope {t : Tab} {i : Nat} {c : Int}
    (h : ∀ d : Ent, t[i]? = some d → (IsFun d.scope → IsFun c) ∧ (IsVar d.scope → IsVar c) ∧ (d.scope = ScFUNC → c = ScFUNC)) :
    Upto t (setScope t i c) := by
  intro d hd hs
  obtain ⟨n, hn⟩ := List.mem_iff_getElem?.1 hd
  have hg : (setScope t i c)[n]? = some { d with scope := if i = n then c else d.scope } := by
    simp only [setScope, List.getElem?_modify, hn, Option.map_some]
    split <;> rfl
  refine ⟨_, List.mem_of_getElem? hg, rfl, rfl, rfl, rfl, ?_⟩
  by_cases hi : i = n
  · subst hi
    simp only [if_pos]
    exact ⟨fun h' => ⟨(h d hn).1 h', trivial⟩, (h d hn).2⟩
  · simp only [if_neg hi]
    exact ⟨fun h => ⟨h, trivial⟩, id, id⟩

/-- The name of a function that has been handed to the code generator. -/
def fnName : Out → Option String
  | .func f _ _ _ tab _ => tab[f]?.map (·.name)
  | _ => none

/-- The name table kept with what is handed to the code generator. -/
def Out.tab : Out → Tab
  | .func _ _ _ _ tab _ | .data _ _ tab _ | .bss _ tab => tab

/-- The functions and global variables in the table of a function or of a variable are in the table `t`. -/
def Named (t : Tab) (x : Out) : Prop := ∀ d ∈ x.tab, IsNam d.scope → Carried t d

theorem Named.up {t t' : Tab} {x : Out} (h : Named t x) (hu : Upto t t') : Named t' x :=
  fun d hd hs => (h d hd hs).up hs hu

structure Nam (t : Tab) (out : List Out) : Prop where
  named : ∀ x ∈ out, Named t x
  nodup : (out.filterMap fnName).Nodup
  defd : ∀ x ∈ out.filterMap fnName, ∃ d ∈ t, d.name = x ∧ d.scope = ScFUNC

theorem Nam.up {t t' : Tab} {out : List Out} (h : Nam t out) (hu : Upto t t') : Nam t' out := by
  refine ⟨fun x hx => (h.named x hx).up hu, h.nodup, fun x hx => ?_⟩
  obtain ⟨d, hd, h1, h2⟩ := h.defd x hx
  obtain ⟨d', k1, k2, -, -, -, -, -, k3⟩ := hu d hd (.inl (by rw [h2]; unfold IsFun; decide))
  exact ⟨d', k1, k2.trans h1, k3 h2⟩

theorem Nam.skip {t : Tab} {out : List Out} {x : Out} (h : Nam t out) (hx : fnName x = none) (hn : Named t x) :
    Nam t (x :: out) := by
  refine ⟨List.forall_mem_cons.2 ⟨hn, h.named⟩, ?_, ?_⟩
  · rw [List.filterMap_cons_none hx]; exact h.nodup
  · rw [List.filterMap_cons_none hx]; exact h.defd

theorem Nam.cons {t : Tab} {out : List Out} {x : Out} {a : String} (h : Nam t out) (hx : fnName x = some a) (hn : Named t x)
    (ha : a ∉ out.filterMap fnName) (hd : ∃ d ∈ t, d.name = a ∧ d.scope = ScFUNC) : Nam t (x :: out) := by
  refine ⟨List.forall_mem_cons.2 ⟨hn, h.named⟩, ?_, ?_⟩
  · rw [List.filterMap_cons_some hx]; exact List.nodup_cons.2 ⟨ha, h.nodup⟩
  · rw [List.filterMap_cons_some hx]; exact List.forall_mem_cons.2 ⟨hd, h.defd⟩

theorem nam_inv (o : Opts) : TopInv o fun t _ out => Top35 t ∧ Nam t out where
  start := ⟨(top35_inv o).start, by simp, by simp, by simp⟩
  struct := by
    intro t d out e t2 h h1 he h2 hd
    refine ⟨(top35_inv o).struct (d := d) (out := out) h.1 h1 he h2 hd, h.2.up ?_⟩
    obtain ⟨x, -, -, hx⟩ := struct_tab hd
    rw [hx]
    exact .app
  typedef := by
    intro t d out e h h1 he h2
    exact ⟨(top35_inv o).typedef (d := d) (out := out) h.1 h1 he h2, h.2.up .app⟩
  var := by
    intro t d out e t' out' h h1 he hnv hv ho
    refine ⟨(top35_inv o).var (d := d) h.1 h1 he hnv hv ho, ?_⟩
    have hu : Upto t t' := by
      rcases var_tab hv with rfl | ⟨i, d, k1, k2, -, -, rfl⟩ | ⟨-, rfl | rfl⟩
      · exact .refl
      · refine .scope fun d' hd' => ?_
        rw [k1] at hd'
        cases hd'
        rw [k2]
        unfold IsVar IsFun
        decide
      · exact .app
      · exact .app
    have h' := h.2.up hu
    rcases ho with ⟨-, rfl⟩ | ⟨_, _, -, -, ⟨a, ha, a1, a2, a3, a4, a5⟩, -, rfl⟩ | ⟨rfl, rfl⟩
    · exact h'
    · refine h'.skip rfl fun d hd hs => ?_
      rcases List.mem_append.1 hd with hd | hd
      · exact hu d hd hs
      · cases List.mem_singleton.1 hd
        refine ⟨a, ha, a1, a2, a3, a4, fun h => absurd (show ScGVAR = ScPROT ∨ ScGVAR = ScFUNC from h) (by decide), fun _ => ?_,
          fun h => absurd (show ScGVAR = ScFUNC from h) (by decide)⟩
        rw [a5]
        unfold IsVar
        decide
    · exact h'.skip rfl fun d hd _ => .here hd
  func := by
    intro t s s' e ty h h1 h2 he h3 h4 hr
    refine ⟨(top35_inv o).func h.1 h1 h2 he h3 h4 hr, ?_⟩
    obtain ⟨x, old, ho, ⟨hd, hn, hfit⟩, hc⟩ := hr.run
    rcases hc with ⟨f, ht⟩ | ⟨s2, s3, b, body, g1, -, -, -, -, -, g7, g8, g9, -, -, g12, -, -, ht⟩
    · have hout : s'.out = s.out := f.out
      rw [ht, hout]
      cases old with
      | some i => exact h.2
      | none => exact h.2.up .app
    · have hb := getBlock_back g9
      obtain ⟨y, hy, hyv⟩ := hb.void
      have hout : s3.out = s.out := hb.out.trans g7
      have hx : ∀ e ∈ x, e.scope = ScPRM := by
        obtain ⟨y, hy, hy'⟩ := hd.app
        rw [List.append_assoc, List.append_cancel_left_eq, List.singleton_append, List.cons.injEq] at hy
        rw [hy.2]
        exact hy'
      have hup : Upto t s'.tab := by
        rw [ht]
        cases old with
        | none => exact .app
        | some i =>
          refine .scope fun d' hd' => ?_
          obtain ⟨d, k1, k2⟩ := g8 i rfl
          rw [k1] at hd'
          cases hd'
          rw [k2]
          unfold IsVar IsFun
          decide
      have hnew : ∃ d ∈ s'.tab, d.name = e.name ∧ d.pub = e.pub ∧ d.type = e.type ∧ d.dim = e.dim ∧ d.cnt = x.length ∧ d.scope = ScFUNC := by
        rw [ht]
        cases old with
        | none => exact ⟨_, List.mem_append_right _ (List.mem_cons_self ..), rfl, rfl, rfl, rfl, rfl, rfl⟩
        | some i =>
          obtain ⟨d, k1, k2⟩ := g8 i rfl
          obtain ⟨q1, q2, q4, q3⟩ := hfit i d rfl k1
          obtain ⟨d', p1, -, p2, -⟩ := srcGlob_iff.1 ho.symm
          rw [k1] at p1
          cases p1
          have : (setScope t i ScFUNC)[i]? = some { d with scope := ScFUNC } := by
            simp [setScope, k1]
          exact ⟨_, List.mem_of_getElem? this, p2, q3, q1.trans h3.symm, q2.trans h4.symm, q4, rfl⟩
      rw [g12, hout]
      have hget : s3.tab[t.length]? = some { e with cnt := x.length, scope := ScFUNC } := by
        rw [hy, g1, List.append_assoc, ← markOld_len old t, List.getElem?_append_right (Nat.le_refl _), Nat.sub_self]
        rfl
      refine (h.2.up hup).cons (a := e.name) (by simp [fnName, hget]) ?_ ?_ ?_
      · intro d hd hs
        rw [hy, g1] at hd
        rcases List.mem_append.1 hd with hd | hd
        · rcases List.mem_append.1 hd with hd | hd
          · rw [ht]
            cases old with
            | none => exact .here (List.mem_append_left _ hd)
            | some i => exact .here hd
          · rcases List.mem_cons.1 hd with rfl | hd
            · obtain ⟨d, k1, k2, k0, k3, k4, k6, k5⟩ := hnew
              refine ⟨d, k1, k2, k0, k3, k4, fun _ => ⟨by rw [k5]; unfold IsFun; decide, k6⟩, fun hv => ?_, fun _ => k5⟩
              exact absurd hv (by decide : ¬IsVar ScFUNC)
            · rw [hx d hd] at hs
              exact absurd hs (by unfold IsNam; decide)
        · rw [hyv d hd] at hs
          exact absurd hs (by unfold IsNam; decide)
      · intro hm
        obtain ⟨d, hd, hd1, hd2⟩ := h.2.defd _ hm
        have hvis : ScVOID < d.scope := by rw [hd2]; decide
        cases old with
        | none => exact free_of_glob h.1.glob h2 ho.symm d hd hvis hd1
        | some i =>
          obtain ⟨d', p1, -, p2, -⟩ := srcGlob_iff.1 ho.symm
          obtain ⟨d'', k1, k2⟩ := g8 i rfl
          rw [p1] at k1
          cases k1
          obtain ⟨j, hj⟩ := List.mem_iff_getElem?.1 hd
          have hdist := h.1.dist
          unfold Distinct at hdist
          rw [List.pairwise_iff_getElem] at hdist
          obtain ⟨hi', hi⟩ := List.getElem?_eq_some_iff.1 p1
          obtain ⟨hj', hj⟩ := List.getElem?_eq_some_iff.1 hj
          have hv' : ScVOID < d'.scope := by rw [k2]; decide
          rcases Nat.lt_trichotomy i j with hij | hij | hij
          · exact hdist i j hi' hj' hij (by rw [hi]; exact hv') (by rw [hj]; exact hvis) (by rw [hi, hj, p2, hd1])
          · subst hij
            rw [hi] at hj
            subst hj
            rw [k2] at hd2
            exact absurd hd2 (by decide)
          · exact hdist j i hj' hi' hij (by rw [hj]; exact hvis) (by rw [hi]; exact hv') (by rw [hi, hj, p2, hd1])
      · obtain ⟨d, k1, k2, -, -, -, -, k5⟩ := hnew
        exact ⟨d, k1, k2, k5⟩

end Cmm.Parse
