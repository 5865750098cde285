import Verif.Parse.Ready4
import Verif.Parse.Eval
import Mathlib.Tactic.ByContra

/-
C71: the definitions a program is made of. For every list of tokens the parser accepts, the functions and variables it hands to
the code generator are exactly those the name table at the end says are defined, in the right kind and number: a function once,
a variable without an initial value once, a variable with an initial value once or room first and the value later; a function
that is only declared never.
-/
namespace Cmm.Parse
open Cmm.Tree

/-- The kinds of definitions. -/
inductive DefKind
  /-- the body of a function -/
  | code
  /-- room without a value -/
  | room
  /-- an initial value -/
  | value
deriving DecidableEq

/-- What is defined by something that is handed to the code generator. -/
def Out.defd : Out → Option (String × DefKind)
  | .func i _ _ _ tab _ => tab[i]?.map fun e => (e.name, .code)
  | .bss i tab => tab[i]?.map fun e => (e.name, .room)
  | .data i _ tab _ => tab[i]?.map fun e => (e.name, .value)

/-- The definitions of the name `n`, in the order of the list. -/
def defsOf (n : String) (out : List Out) : List DefKind :=
  (out.filterMap Out.defd).filterMap fun p => if p.1 = n then some p.2 else none

/-- The definitions a program must have, in the order of the source text, for a name of scope `c`. -/
def Wanted (c : Int) (l : List DefKind) : Prop :=
  (c = ScPROT ∧ l = []) ∨ (c = ScFUNC ∧ l = [.code]) ∨ (c = ScCOMM ∧ l = [.room]) ∨
    (c = ScGVAR ∧ (l = [.value] ∨ l = [.room, .value]))

/-- Everything that has been handed over defines a name, and the names are defined as the table says. -/
structure Sto (t : Tab) (out : List Out) : Prop where
  named : ∀ x ∈ out, x.defd.isSome
  known : ∀ d ∈ t, IsGlob d → Wanted d.scope (defsOf d.name out).reverse
  only : ∀ n, (∀ d ∈ t, IsGlob d → d.name ≠ n) → defsOf n out = []

theorem defsOf_cons {n : String} {x : Out} {out : List Out} {p : String × DefKind} (h : x.defd = some p) :
    defsOf n (x :: out) = if p.1 = n then p.2 :: defsOf n out else defsOf n out := by
  unfold defsOf
  rw [List.filterMap_cons_some h, List.filterMap_cons]
  split <;> split <;> simp_all

theorem Distinct.same {t : Tab} (h : Distinct t) {i : Nat} {d d' : Ent} (h1 : t[i]? = some d) (h2 : d' ∈ t)
    (h3 : ScVOID < d.scope) (h4 : ScVOID < d'.scope) (h5 : d'.name = d.name) : t[i]? = some d' ∧ d' = d := by
  obtain ⟨j, hj⟩ := List.mem_iff_getElem?.1 h2
  unfold Distinct at h
  rw [List.pairwise_iff_getElem] at h
  obtain ⟨a', a⟩ := List.getElem?_eq_some_iff.1 h1
  obtain ⟨b', b⟩ := List.getElem?_eq_some_iff.1 hj
  rcases Nat.lt_trichotomy i j with hij | hij | hij
  · exact absurd (by rw [a, b, h5]) (h i j a' b' hij (by rw [a]; exact h3) (by rw [b]; exact h4))
  · subst hij
    rw [h1] at hj
    cases hj
    exact ⟨h1, rfl⟩
  · exact absurd (by rw [a, b, h5]) (h j i b' a' hij (by rw [b]; exact h4) (by rw [a]; exact h3))

/-- One name of the table changes, and something may be handed over under that name. -/
theorem Sto.step {t t' : Tab} {out out' : List Out} {a : String} (h : Sto t out)
    (ho : out' = out ∨ ∃ x k, x.defd = some (a, k) ∧ out' = x :: out)
    (ht : ∀ d, IsGlob d → d.name ≠ a → (d ∈ t ↔ d ∈ t'))
    (ha : ∃ d ∈ t', IsGlob d ∧ d.name = a)
    (hw : ∀ d ∈ t', IsGlob d → d.name = a → Wanted d.scope (defsOf a out').reverse) : Sto t' out' := by
  have hn : ∀ n, n ≠ a → defsOf n out' = defsOf n out := by
    intro n hn
    rcases ho with rfl | ⟨x, k, hx, rfl⟩
    · rfl
    · rw [defsOf_cons hx, if_neg (fun h => hn h.symm)]
  refine ⟨?_, ?_, ?_⟩
  · rcases ho with rfl | ⟨x, k, hx, rfl⟩
    · exact h.named
    · exact List.forall_mem_cons.2 ⟨by rw [hx]; rfl, h.named⟩
  · intro d hd hg
    by_cases hda : d.name = a
    · rw [hda]; exact hw d hd hg hda
    · rw [hn _ hda]; exact h.known d ((ht d hg hda).2 hd) hg
  · intro n hall
    by_cases hna : n = a
    · obtain ⟨d, hd, hg, hda⟩ := ha
      exact absurd (hda.trans hna.symm) (hall d hd hg)
    · rw [hn _ hna]
      exact h.only n fun d hd hg hdn => hall d ((ht d hg (by rw [hdn]; exact hna)).1 hd) hg hdn

/-- The table changes, but not in its global names. -/
theorem Sto.keep {t t' : Tab} {out : List Out} (h : Sto t out) (ht : ∀ d, IsGlob d → (d ∈ t ↔ d ∈ t')) : Sto t' out :=
  ⟨h.named, fun d hd hg => h.known d ((ht d hg).2 hd) hg,
    fun n hall => h.only n fun d hd hg => hall d ((ht d hg).1 hd) hg⟩

/-- A new name. -/
theorem Sto.add {t x : Tab} {out out' : List Out} {e : Ent} (h : Sto t out) (hx : ∀ d ∈ x, ¬IsGlob d) (he : IsGlob e)
    (hf : ∀ d ∈ t, ScVOID < d.scope → d.name ≠ e.name)
    (ho : (out' = out ∧ e.scope = ScPROT) ∨ ∃ y k, y.defd = some (e.name, k) ∧ out' = y :: out ∧ Wanted e.scope [k]) :
    Sto (t ++ e :: x) out' := by
  refine h.step (a := e.name) (ho.imp And.left fun ⟨y, k, h1, h2, _⟩ => ⟨y, k, h1, h2⟩) ?_ ⟨e, by simp, he, rfl⟩ ?_
  · intro d hg hn
    constructor
    · exact fun hd => List.mem_append_left _ hd
    · intro hd
      rcases List.mem_append.1 hd with hd | hd
      · exact hd
      · rcases List.mem_cons.1 hd with rfl | hd
        · exact absurd rfl hn
        · exact absurd hg (hx d hd)
  · intro d hd hg hn
    have h0 : defsOf e.name out = [] := h.only _ fun d hd hg => hf d hd hg.vis
    have hde : d = e := by
      rcases List.mem_append.1 hd with hd | hd
      · exact absurd hn (hf d hd hg.vis)
      · rcases List.mem_cons.1 hd with rfl | hd
        · rfl
        · exact absurd hg (hx d hd)
    subst hde
    rcases ho with ⟨rfl, h1⟩ | ⟨y, k, h1, rfl, h2⟩
    · rw [h0]; exact .inl ⟨h1, rfl⟩
    · rw [defsOf_cons h1, if_pos rfl, h0]; exact h2

/-- The scope of a name changes. -/
theorem Sto.turn {t : Tab} {out : List Out} {i : Nat} {d : Ent} {c : Int} {x : Out} {k : DefKind} (h : Sto t out)
    (hdist : Distinct t) (hd : t[i]? = some d) (hg : IsGlob d) (hg' : IsGlob { d with scope := c })
    (hx : x.defd = some (d.name, k)) (hw : ∀ l, Wanted d.scope l → Wanted c (l ++ [k])) :
    Sto (setScope t i c) (x :: out) := by
  have hmem : ∀ a : Ent, a ∈ setScope t i c ↔ (a = { d with scope := c } ∨ ∃ j, j ≠ i ∧ t[j]? = some a) := by
    intro a
    rw [List.mem_iff_getElem?]
    constructor
    · rintro ⟨j, hj⟩
      rw [setScope, List.getElem?_modify] at hj
      by_cases hij : i = j
      · subst hij
        rw [hd] at hj
        simp at hj
        exact .inl hj.symm
      · exact .inr ⟨j, fun h => hij h.symm, by simpa [hij] using hj⟩
    · rintro (rfl | ⟨j, h1, h2⟩)
      · exact ⟨i, by simp [setScope, hd]⟩
      · refine ⟨j, ?_⟩
        have h1' : ¬i = j := fun h => h1 h.symm
        rw [setScope, List.getElem?_modify, h2]
        simp [h1']
  have huniq : ∀ j a, j ≠ i → t[j]? = some a → IsGlob a → a.name ≠ d.name := by
    intro j a hji ha hga hn
    have := hdist.same ha (List.mem_of_getElem? hd) hga.vis hg.vis hn.symm
    have hlt : ∀ {p q : Nat}, p < q → t[p]? = some d → t[q]? = some d → False := by
      intro p q hpq hp hq
      obtain ⟨p1, p2⟩ := List.getElem?_eq_some_iff.1 hp
      obtain ⟨q1, q2⟩ := List.getElem?_eq_some_iff.1 hq
      have := hdist
      unfold Distinct at this
      rw [List.pairwise_iff_getElem] at this
      exact this p q p1 q1 hpq (by rw [p2]; exact hg.vis) (by rw [q2]; exact hg.vis) (by rw [p2, q2])
    rcases Nat.lt_or_gt_of_ne hji with hlt' | hlt'
    · exact hlt hlt' this.1 hd
    · exact hlt hlt' hd this.1
  refine h.step (a := d.name) (.inr ⟨x, k, hx, rfl⟩) ?_ ⟨{ d with scope := c }, (hmem _).2 (.inl rfl), hg', rfl⟩ ?_
  · intro a _ hn
    rw [hmem]
    constructor
    · intro ha
      obtain ⟨j, hj⟩ := List.mem_iff_getElem?.1 ha
      refine .inr ⟨j, ?_, hj⟩
      rintro rfl
      rw [hd] at hj
      cases hj
      exact hn rfl
    · rintro (rfl | ⟨j, -, h2⟩)
      · exact absurd rfl hn
      · exact List.mem_of_getElem? h2
  · intro a ha hga hn
    rcases (hmem a).1 ha with rfl | ⟨j, h1, h2⟩
    · rw [defsOf_cons hx, if_pos rfl, List.reverse_cons]
      exact hw _ (h.known d (List.mem_of_getElem? hd) hg)
    · exact absurd hn (huniq j a h1 h2 hga)

theorem not_glob_void (x : Tab) : ∀ d ∈ x.map fun e => { e with scope := ScVOID }, ¬IsGlob d := by
  intro d hd hg
  rw [List.mem_map] at hd
  obtain ⟨d', -, rfl⟩ := hd
  exact absurd hg.vis (Int.lt_irrefl _)

theorem not_glob_strc {e : Ent} (h : e.scope = ScSTRC) : ¬IsGlob e := by
  unfold IsGlob
  rw [h]
  decide

theorem sto_inv (o : Opts) : TopInv o fun t _ out => Top35 t ∧ Sto t out where
  start := ⟨(top35_inv o).start, by simp, by simp, by intro n _; rfl⟩
  struct := by
    intro t d out e t2 h h1 he h2 hd
    refine ⟨(top35_inv o).struct (d := d) (out := out) h.1 h1 he h2 hd, h.2.keep ?_⟩
    obtain ⟨x, -, -, hx⟩ := struct_tab hd
    rw [hx]
    intro a ha
    rw [List.mem_append, List.mem_cons]
    refine ⟨.inl, ?_⟩
    rintro (h | rfl | h)
    · exact h
    · exact absurd ha (not_glob_strc he)
    · exact absurd ha (not_glob_void x _ h)
  typedef := by
    intro t d out e h h1 he h2
    refine ⟨(top35_inv o).typedef (d := d) (out := out) h.1 h1 he h2, h.2.keep ?_⟩
    intro a ha
    rw [List.mem_append, List.mem_singleton]
    refine ⟨.inl, ?_⟩
    rintro (h | rfl)
    · exact h
    · exact absurd ha (not_glob_strc he)
  var := by
    intro t d out e t' out' h h1 he hnv hv ho
    refine ⟨(top35_inv o).var (d := d) h.1 h1 he hnv hv ho, ?_⟩
    have hnew : t.length < t'.length → srcGlob (t ++ [e]) t.length = none := by
      intro hl
      rcases var_tab hv with rfl | ⟨i, d, -, -, -, -, rfl⟩ | ⟨h, -⟩
      · omega
      · rw [setScope_len] at hl; omega
      · exact h
    rcases ho with ⟨rfl, rfl⟩ | ⟨v, k, -, -, -, ht, rfl⟩ | ⟨rfl, rfl⟩
    · exact h.2
    · have hx : (Out.data t.length v (t ++ [{ e with scope := ScGVAR }]) k).defd = some (e.name, .value) := by
        simp [Out.defd]
      rcases ht with rfl | ⟨i, d, k1, k2, k3, rfl⟩
      · refine h.2.add (x := []) (e := { e with scope := ScGVAR }) (by simp) (.inr (.inr (.inr rfl)))
          (fun d => free_of_glob (e := e) h.1.glob h1 (hnew (by simp)) d) (.inr ⟨_, .value, hx, rfl, .inr (.inr (.inr ⟨rfl, .inl rfl⟩))⟩)
      · refine h.2.turn h.1.dist k1 (.inr (.inr (.inl k2))) (.inr (.inr (.inr rfl))) (by rw [k3]; exact hx) ?_
        intro l hl
        rw [k2] at hl
        rcases hl with ⟨h, -⟩ | ⟨h, -⟩ | ⟨-, rfl⟩ | ⟨h, -⟩
        · exact absurd h (by decide)
        · exact absurd h (by decide)
        · exact .inr (.inr (.inr ⟨rfl, .inr rfl⟩))
        · exact absurd h (by decide)
    · exact h.2.add (x := []) (e := e) (by simp) (.inr (.inr (.inl he))) (free_of_glob h.1.glob h1 (hnew (by simp)))
        (.inr ⟨_, .room, by simp [Out.defd], rfl, .inr (.inr (.inl ⟨he, rfl⟩))⟩)
  func := by
    intro t s s' e ty h h1 h2 he h3 h4 hr
    refine ⟨(top35_inv o).func h.1 h1 h2 he h3 h4 hr, ?_⟩
    obtain ⟨x, old, ho, ⟨hd, hn, hfit⟩, hc⟩ := hr.run
    rcases hc with ⟨f, ht⟩ | ⟨s2, s3, b, body, g1, -, -, -, -, -, g7, g8, g9, -, -, g12, -, -, ht⟩
    · have hout : s'.out = s.out := f.out
      rw [ht, hout]
      cases old with
      | some i => exact h.2
      | none =>
        exact h.2.add (e := { e with cnt := x.length }) (not_glob_void x) (.inl he)
          (fun d => free_of_glob (e := e) h.1.glob h2 ho.symm d) (.inl ⟨rfl, he⟩)
    · have hb := getBlock_back g9
      obtain ⟨y, hy, hyv⟩ := hb.void
      have hout : s3.out = s.out := hb.out.trans g7
      have hget : s3.tab[t.length]? = some { e with cnt := x.length, scope := ScFUNC } := by
        rw [hy, g1, List.append_assoc, ← markOld_len old t, List.getElem?_append_right (Nat.le_refl _), Nat.sub_self]
        rfl
      have hx : (Out.func t.length s3.maxCnt (orEmpty b) body s3.tab s3.pts).defd = some (e.name, .code) := by
        simp [Out.defd, hget]
      rw [g12, hout, ht]
      cases old with
      | none =>
        exact h.2.add (e := { e with cnt := x.length, scope := ScFUNC }) (not_glob_void x) (.inr (.inl rfl))
          (fun d => free_of_glob (e := e) h.1.glob h2 ho.symm d) (.inr ⟨_, .code, hx, rfl, .inr (.inl ⟨rfl, rfl⟩)⟩)
      | some i =>
        obtain ⟨d, k1, k2⟩ := g8 i rfl
        obtain ⟨d', p1, -, p2, -⟩ := srcGlob_iff.1 ho.symm
        rw [k1] at p1
        cases p1
        refine h.2.turn h.1.dist k1 (.inl k2) (.inr (.inl rfl)) (by rw [p2]; exact hx) ?_
        intro l hl
        rw [k2] at hl
        rcases hl with ⟨-, rfl⟩ | ⟨h, -⟩ | ⟨h, -⟩ | ⟨h, -⟩
        · exact .inr (.inl ⟨rfl, rfl⟩)
        all_goals exact absurd h (by decide)

theorem defsOf_reverse {n : String} {out : List Out} : (defsOf n out).reverse = defsOf n out.reverse := by
  unfold defsOf
  rw [List.filterMap_reverse, List.filterMap_reverse]

variable {o : Opts} {toks : List Tok} {s : PS}

/-- C71. What is handed to the code generator, in the order of the source text, for every list of tokens the parser accepts:
every function and variable of the table at the end is defined as its scope says, and nothing else is defined. -/
theorem C71 (h : getSrc o (start toks) = some s) :
    (∀ d ∈ s.tab, IsGlob d → Wanted d.scope (defsOf d.name s.out.reverse)) ∧
    (∀ x ∈ s.out, ∃ n k, x.defd = some (n, k) ∧ ∃ d ∈ s.tab, IsGlob d ∧ d.name = n) := by
  have hs := ((sto_inv o).final h).2
  refine ⟨fun d hd hg => ?_, fun x hx => ?_⟩
  · rw [← defsOf_reverse]
    exact hs.known d hd hg
  · obtain ⟨⟨n, k⟩, hp⟩ := Option.isSome_iff_exists.1 (hs.named x hx)
    refine ⟨n, k, hp, ?_⟩
    by_contra hc
    have h0 := hs.only n fun d hd hg hn => hc ⟨d, hd, hg, hn⟩
    have : k ∈ defsOf n s.out := by
      unfold defsOf
      exact List.mem_filterMap.2 ⟨(n, k), List.mem_filterMap.2 ⟨x, hx, hp⟩, if_pos rfl⟩
    rw [h0] at this
    cases this

/-- No name is defined twice, but for the room of a variable before its initial value. -/
theorem C71_twice_partial (h : getSrc o (start toks) = some s) :
    s.out.reverse.Pairwise fun x y => ∀ n k l, x.defd = some (n, k) → y.defd = some (n, l) → k = .room ∧ l = .value := by
  have key : ∀ n, (defsOf n s.out.reverse).Pairwise fun k l => k = .room ∧ l = .value := by
    intro n
    have hs := ((sto_inv o).final h).2
    rw [← defsOf_reverse]
    by_cases hc : ∃ d ∈ s.tab, IsGlob d ∧ d.name = n
    · obtain ⟨d, hd, hg, rfl⟩ := hc
      rcases hs.known d hd hg with ⟨-, h⟩ | ⟨-, h⟩ | ⟨-, h⟩ | ⟨-, h | h⟩ <;> rw [h] <;> simp
    · rw [hs.only n fun d hd hg hn => hc ⟨d, hd, hg, hn⟩]
      simp
  rw [List.pairwise_iff_getElem]
  intro i j hi hj hij n k l h1 h2
  have := key n
  unfold defsOf at this
  rw [List.filterMap_filterMap, List.pairwise_filterMap, List.pairwise_iff_getElem] at this
  exact this i j hi hj hij k (by rw [h1]; simp) l (by rw [h2]; simp)

/-- A function is defined at most once, and not as a variable. -/
theorem C71_function (h : getSrc o (start toks) = some s) {n : String} (hn : DefKind.code ∈ defsOf n s.out.reverse) :
    defsOf n s.out.reverse = [.code] := by
  have hs := ((sto_inv o).final h).2
  rw [← defsOf_reverse] at hn ⊢
  by_cases hc : ∃ d ∈ s.tab, IsGlob d ∧ d.name = n
  · obtain ⟨d, hd, hg, rfl⟩ := hc
    rcases hs.known d hd hg with ⟨-, h⟩ | ⟨-, h⟩ | ⟨-, h⟩ | ⟨-, h | h⟩ <;> rw [h] at hn ⊢ <;> simp at hn
  · rw [hs.only n fun d hd hg hn => hc ⟨d, hd, hg, hn⟩] at hn
    cases hn

/-! ### Examples -/

/-- `int v; int w; int g(); int f() { return 1; } int v = 3; int u = 4; int w;` -/
def toks71 : List Tok := [Lx.INT, .name "v", Lx.semi, Lx.INT, .name "w", Lx.semi, Lx.INT, .name "g", Lx.lpar, Lx.rpar, Lx.semi,
  Lx.INT, .name "f", Lx.lpar, Lx.rpar, Lx.lbrc, Lx.RETURN, .int 1, Lx.semi, Lx.rbrc,
  Lx.INT, .name "v", Lx.eq, .int 3, Lx.semi, Lx.INT, .name "u", Lx.eq, .int 4, Lx.semi, Lx.INT, .name "w", Lx.semi]

/-- The text is accepted, with a name of every kind. -/
example : ∃ s, getSrc ⟨false, false⟩ (start toks71) = some s ∧
    s.tab.map (fun d => (d.name, d.scope)) = [("v", ScGVAR), ("w", ScCOMM), ("g", ScPROT), ("f", ScFUNC), ("u", ScGVAR)] ∧
    (["v", "w", "g", "f", "u", "x"].map fun n => defsOf n s.out.reverse) =
      [[.room, .value], [.room], [], [.code], [.value], []] := by
  obtain ⟨s, h, hs⟩ := run_ok (o := ⟨false, false⟩) (toks := toks71) 60 (fun s => (s.tab.map (fun d => (d.name, d.scope)),
    ["v", "w", "g", "f", "u", "x"].map fun n => defsOf n s.out.reverse))
    (v := ([("v", ScGVAR), ("w", ScCOMM), ("g", ScPROT), ("f", ScFUNC), ("u", ScGVAR)],
      [[.room, .value], [.room], [], [.code], [.value], []])) (by decide +kernel)
  exact ⟨s, h, (Prod.mk.inj hs).1, (Prod.mk.inj hs).2⟩

/-- That no name is defined twice is false: `int v; int v = 3;` gives both room for `v` and its value. -/
theorem C71_twice_false : ∃ (toks : List Tok) (s : PS), getSrc ⟨false, false⟩ (start toks) = some s ∧
    ¬((s.out.reverse.filterMap Out.defd).map Prod.fst).Nodup := by
  obtain ⟨s, h, hs⟩ := run_ok (o := ⟨false, false⟩) (toks := [Lx.INT, .name "v", Lx.semi, Lx.INT, .name "v", Lx.eq, .int 3, Lx.semi]) 60
    (fun s => (s.out.reverse.filterMap Out.defd).map Prod.fst) (v := ["v", "v"]) (by decide +kernel)
  exact ⟨_, s, h, by rw [hs]; decide⟩

/-- Two functions, two values or two rooms of the same name are not accepted by the bounded parser. -/
example : (getSrcN 60 ⟨false, false⟩ (start [Lx.INT, .name "v", Lx.eq, .int 1, Lx.semi, Lx.INT, .name "v", Lx.eq, .int 3, Lx.semi])).isNone := by
  decide +kernel

end Cmm.Parse
