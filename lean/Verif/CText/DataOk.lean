import Verif.CText.Data

/-
The definitions printed for initialised variables, for Verif/Props/C75.lean.
-/
namespace Cmm.CText
open Cmm.Gen (DT dimTree)
open Cmm.Parse (Tab Ent Kind Says Basic TyVOID TyINT TyCHAR TyBOOL ScVOID)

variable {T : Tab} {os os' a b : List Obj} {ty dim : Int} {t : Nat} {c : Cell}

/-! ### More definitions -/

theorem CellOk.mono {k : Int × Nat} (h : CellOk os k c) (hs : ∀ o ∈ os, o ∈ os') : CellOk os' k c := by
  cases h with
  | num h => exact .num h
  | null => exact .null
  | str => exact .str
  | arr h hb => exact .arr (hs _ h) hb
  | room h hb => exact .room (hs _ h) hb
  | adr h hb => exact .adr (hs _ h) hb

theorem ObjOk.mono {o : Obj} (h : ObjOk T os o) (hs : ∀ o ∈ os, o ∈ os') : ObjOk T os' o := by
  unfold ObjOk at h ⊢
  split at h
  · exact h
  · exact ⟨h.1, h.2.1, fun c hc => (h.2.2 c hc).mono hs⟩
  · exact ⟨h.1, h.2.1, h.2.2.imp fun _ _ hc => hc.mono hs⟩

theorem correct_nil : Correct T [] := by
  intro a o b h
  cases a <;> cases h

theorem Correct.append (ha : Correct T a) (hb : ∀ x o y, b = x ++ o :: y → ObjOk T (a ++ x) o) : Correct T (a ++ b) := by
  intro x o y h
  rcases List.append_eq_append_iff.1 h with ⟨z, hx, hb'⟩ | ⟨z, hx, hb'⟩
  · subst hx
    exact hb z o y hb'
  · cases z with
    | nil =>
      obtain rfl : a = x := by simpa using hx
      exact (hb [] o y (by simpa using hb'.symm)).mono (by simp)
    | cons w z =>
      obtain ⟨rfl, rfl⟩ : o = w ∧ y = z ++ b := by simpa using hb'
      exact ha x o z hx

theorem Correct.two (ha : Correct T a) (hb : Correct T b) : Correct T (a ++ b) :=
  ha.append fun x o y h => (hb x o y h).mono fun o ho => List.mem_append_right a ho

theorem Correct.all (ha : Correct T a) (hb : ∀ o ∈ b, ObjOk T a o) : Correct T (a ++ b) :=
  ha.append fun x o y h => (hb o (by simp [h])).mono fun o ho => List.mem_append_left x ho

theorem At.mono {l : Nat} {y : Body} (h : At os l y) (hs : ∀ o ∈ os, o ∈ os') : At os' l y :=
  let ⟨o, h1, h2⟩ := h
  ⟨o, hs o h1, h2⟩

theorem Arrays.mono (hs : ∀ o ∈ os, o ∈ os') : ∀ {ns ls : List Nat}, Arrays os ns ls → Arrays os' ns ls
  | [], _, h => h
  | [_], _, h => fun l hl => (h l hl).mono hs
  | _ :: _ :: _, _, ⟨lss, h1, h2⟩ => ⟨lss, h1.imp fun _ _ h => ⟨h.1.mono hs, h.2⟩, Arrays.mono hs h2⟩

theorem Means.mono (hs : ∀ o ∈ os, o ∈ os') : ∀ {d : DT} {cs : List Cell}, Means os d cs → Means os' d cs := by
  intro d
  induction d with
  | cnst v => exact id
  | str l => exact id
  | semi l r ihl ihr => exact fun ⟨a, b, h, h1, h2⟩ => ⟨a, b, h, ihl h1, ihr h2⟩
  | list b r ih => exact fun ⟨l, as, h, h1⟩ => ⟨l, as, h.imp (fun h => ⟨h.1, h.2.mono hs⟩) (fun h => ⟨h.1, h.2.mono hs⟩), ih h1⟩
  | arry d r => exact fun ⟨l, ns, h, h1, h2⟩ => ⟨l, ns, h, h1, h2.mono hs⟩
  | _ => exact fun h => h.elim

/-! ### array(n1, n2, ...) -/

theorem range'_mul (ln n : Nat) : ∀ k, List.range' ln n ++ List.range' (ln + n) (k * n) = List.range' ln ((k + 1) * n) := by
  intro k
  rw [List.range'_append_1, Nat.add_mul, Nat.one_mul, Nat.add_comm]

theorem ptrArrays_spec {s : Nat} (hs : 0 < s) : ∀ (n ln t : Nat),
    (ptrArrays ty dim s n ln t).map Obj.lab = List.range' t n ∧
    (ptrArrays ty dim s n ln t).flatMap Obj.refs = List.range' ln (n * s) ∧
    (∀ o ∈ ptrArrays ty dim s n ln t, o.ty = ty ∧ o.stars = starsOf ty dim true ∧
      ∃ ls, o.body = .arr (ls.map .tmp) ∧ ls ≠ [] ∧ ∀ l ∈ ls, l ∈ List.range' ln (n * s)) ∧
    ∃ lss, List.Forall₂ (fun l sub => At (ptrArrays ty dim s n ln t) l (.arr (sub.map .tmp)) ∧ sub.length = s) (List.range' t n) lss ∧
      lss.flatten = List.range' ln (n * s) := by
  intro n
  induction n with
  | zero => intro ln t; exact ⟨rfl, by simp [ptrArrays], by simp [ptrArrays], [], .nil, by simp⟩
  | succ n ih =>
    intro ln t
    obtain ⟨h1, h2, h3, lss, h4, h5⟩ := ih (ln + s) (t + 1)
    have hs1 : 1 + (s - 1) = s := by omega
    have hr : ∀ ls : List Nat, (ls.map Cell.tmp).flatMap Cell.ref = ls := by
      intro ls; induction ls with
      | nil => rfl
      | cons x ls ih => simp [Cell.ref, ih]
    refine ⟨?_, ?_, ?_, List.range' ln s :: lss, ?_, ?_⟩
    · simp [ptrArrays, h1, List.range'_succ]
    · rw [ptrArrays, List.flatMap_cons, h2, ← range'_mul]
      simp only [Obj.refs, hs1, hr]
    · intro o ho
      rw [ptrArrays, List.mem_cons] at ho
      rcases ho with rfl | ho
      · refine ⟨rfl, rfl, _, rfl, ?_, ?_⟩
        · rw [hs1]; simp; omega
        · intro l hl
          rw [hs1] at hl
          rw [← range'_mul]
          exact List.mem_append_left _ hl
      · obtain ⟨g1, g2, ls, g3, g4, g5⟩ := h3 o ho
        refine ⟨g1, g2, ls, g3, g4, fun l hl => ?_⟩
        rw [← range'_mul]
        exact List.mem_append_right _ (g5 l hl)
    · rw [List.range'_succ]
      refine .cons ⟨⟨_, List.mem_cons_self, rfl, by rw [hs1]⟩, by simp⟩ (h4.imp fun _ _ h => ⟨h.1.mono fun o ho => List.mem_cons_of_mem _ ho, h.2⟩)
    · rw [List.flatten_cons, h5, range'_mul]

theorem rooms_spec {v : Int} : ∀ (n t : Nat), (rooms ty dim v n t).map Obj.lab = List.range' t n ∧
    (rooms ty dim v n t).flatMap Obj.refs = [] ∧
    (∀ o ∈ rooms ty dim v n t, o.ty = ty ∧ o.stars = starsOf ty dim true ∧ o.body = .room v) ∧
    ∀ l ∈ List.range' t n, At (rooms ty dim v n t) l (.room v) := by
  intro n
  induction n with
  | zero => intro t; simp [rooms]
  | succ n ih =>
    intro t
    obtain ⟨h1, h2, h3, h4⟩ := ih (t + 1)
    refine ⟨by simp [rooms, h1, List.range'_succ], by simp [rooms, h2, Obj.refs], ?_, ?_⟩
    · intro o ho
      rw [rooms, List.mem_cons] at ho
      rcases ho with rfl | ho
      · exact ⟨rfl, rfl, rfl⟩
      · exact h3 o ho
    · intro l hl
      rw [List.range'_succ, List.mem_cons] at hl
      rcases hl with rfl | hl
      · exact ⟨_, List.mem_cons_self, rfl, rfl⟩
      · exact (h4 l hl).mono fun o ho => List.mem_cons_of_mem _ ho

/-- What is true of the definitions for an array. -/
structure ArrSpec (T : Tab) (ty dim : Int) (ns : List Nat) (cnt t : Nat) (os : List Obj) (ln : Nat) : Prop where
  next : t + os.length = ln + cnt
  labs : os.map Obj.lab = List.range' t os.length
  ok : Correct T os
  ptr : ∀ l ∈ List.range' ln cnt, CellOk os (ty, starsOf ty dim true + 1) (.tmp l)
  arrs : Arrays os ns (List.range' ln cnt)
  once : (os.flatMap Obj.refs ++ List.range' ln cnt).Perm (List.range' t os.length)

theorem length_of_labs {l : Nat} {os : List Obj} {n : Nat} (h : os.map Obj.lab = List.range' l n) : os.length = n := by
  simpa using congrArg List.length h

theorem printArray0_spec (hty : ty ≠ TyVOID) : ∀ (ns : List Nat), ns ≠ [] → (∀ n ∈ ns, 0 < n) → ∀ (dim : Int), (ns.length : Int) ≤ dim →
    ∀ cnt t, ∃ os ln, printArray0 ty dim (dimTree ns) cnt t = some (os, ln, ln + cnt) ∧ ArrSpec T ty dim ns cnt t os ln
  | [], h, _, _, _, _, _ => absurd rfl h
  | [n], _, hp, dim, hd, cnt, t => by
    obtain ⟨h1, h2, h3, h4⟩ := rooms_spec (ty := ty) (dim := dim) (v := (n : Int)) cnt t
    have hl := length_of_labs h1
    refine ⟨_, t, rfl, by omega, by rw [h1, hl], ?_, ?_, ?_, ?_⟩
    · have := Correct.all (T := T) (a := []) (b := rooms ty dim n cnt t) correct_nil (by
        intro o ho
        obtain ⟨g1, g2, g3⟩ := h3 o ho
        unfold ObjOk
        rw [g3]
        refine ⟨by have := hp n (by simp); omega, ?_⟩
        rw [g1]
        exact fun h => hty (Prod.mk.inj h).1)
      simpa using this
    · intro l hl
      obtain ⟨o, ho, rfl, hb⟩ := h4 l hl
      obtain ⟨g1, g2, g3⟩ := h3 o ho
      rw [show (ty, starsOf ty dim true + 1) = (o.ty, o.stars + 1) by rw [g1, g2]]
      exact .room ho hb
    · exact h4
    · rw [h2, hl]; simp
  | n :: m :: ns, _, hp, dim, hd, cnt, t => by
    have hn : 0 < n := hp n (by simp)
    obtain ⟨os, ln, h1, h2⟩ := printArray0_spec hty (m :: ns) (by simp) (fun k hk => hp k (by simp at hk ⊢; tauto)) (dim - 1)
      (by simp at hd ⊢; omega) (cnt * n) t
    obtain ⟨g1, g2, g3, lss, g4, g5⟩ := ptrArrays_spec (ty := ty) (dim := dim) hn cnt ln (ln + cnt * n)
    have hl := length_of_labs g1
    have hnx := h2.next
    have hst : starsOf ty dim true = starsOf ty (dim - 1) true + 1 := by
      simp at hd
      unfold starsOf
      split <;> simp <;> omega
    refine ⟨os ++ ptrArrays ty dim n cnt ln (ln + cnt * n), ln + cnt * n, ?_, ?_, ?_, ?_, ?_, ?_, ?_⟩
    · simp only [dimTree, printArray0, Int.toNat_natCast, h1, Option.bind_eq_bind, Option.bind_some]
    · rw [List.length_append]; omega
    · rw [List.map_append, List.length_append, h2.labs, g1, hl, ← List.range'_append_1, h2.next]
    · refine h2.ok.all fun o ho => ?_
      obtain ⟨e1, e2, ls, e3, e4, e5⟩ := g3 o ho
      unfold ObjOk
      rw [e3]
      refine ⟨by simpa using e4, by rw [e1]; exact fun h => hty (Prod.mk.inj h).1, fun c hc => ?_⟩
      obtain ⟨l, hl, rfl⟩ := List.mem_map.1 hc
      rw [e1, e2, hst]
      exact h2.ptr l (e5 l hl)
    · intro l hl
      rw [← g1] at hl
      obtain ⟨o, ho, rfl⟩ := List.mem_map.1 hl
      obtain ⟨e1, e2, ls, e3, -⟩ := g3 o ho
      rw [show (ty, starsOf ty dim true + 1) = (o.ty, o.stars + 1) by rw [e1, e2]]
      exact .arr (List.mem_append_right _ ho) e3
    · refine ⟨lss, g4.imp fun _ _ h => ⟨h.1.mono fun o ho => List.mem_append_right _ ho, h.2⟩, ?_⟩
      rw [g5]
      exact h2.arrs.mono fun o ho => List.mem_append_left _ ho
    · rw [List.flatMap_append, g2, List.length_append, hl, ← List.range'_append_1, h2.next]
      exact h2.once.append_right _

/-! ### Lists -/

/-- What is true of the definitions for values and of the elements that stand for them. -/
structure Spec (T : Tab) (t : Nat) (d : DT) (os : List Obj) (cs : List Cell) : Prop where
  labs : os.map Obj.lab = List.range' t os.length
  ok : Correct T os
  means : Means os d cs
  once : (os.flatMap Obj.refs ++ cs.flatMap Cell.ref).Perm (List.range' t os.length)

/-- What is shown of the trees of every kind. -/
def Holds (T : Tab) : Kind → DT → Prop
  | .val ty k, d => ty ≠ TyVOID → ∀ t, ∃ os d' c, printList1 ty k d t = some (os, d', t + os.length) ∧
      printList2 ty (k + 1) d' = some [c] ∧ Spec T t d os [c] ∧ CellOk os (cty ty k) c
  | .vals ty k, d => ty ≠ TyVOID → ∀ t, ∃ os d' cs, printList1 ty k d t = some (os, d', t + os.length) ∧
      printList2 ty (k + 1) d' = some cs ∧ Spec T t d os cs ∧ cs ≠ [] ∧ ∀ c ∈ cs, CellOk os (cty ty k) c
  | .fields i j, d => ∃ cs es, (∀ ty dim t, printList1 ty dim d t = some ([], d, t)) ∧ (∀ ty dim, printList2 ty dim d = some cs) ∧
      cs.flatMap Cell.ref = [] ∧ (∀ os, Means os d cs) ∧ (∀ e ∈ es, e.scope = ScVOID) ∧ T.drop i = es ++ T.drop j ∧
      ∀ os, List.Forall₂ (CellOk os) (es.map fun e : Ent => cty e.type e.dim) cs
  | .field fty fdim, d => ∃ c, (∀ ty dim t, printList1 ty dim d t = some ([], d, t)) ∧ (∀ ty dim, printList2 ty dim d = some [c]) ∧
      c.ref = [] ∧ (∀ os, Means os d [c]) ∧ ∀ os, CellOk os (cty fty fdim) c
  | .sizes n, d => ∃ ns, d = dimTree ns ∧ ns ≠ [] ∧ ns.length ≤ n ∧ ∀ k ∈ ns, 0 < k

theorem Spec.leaf {d : DT} (hm : Means [] d [c]) (hc : c.ref = []) : Spec T t d [] [c] :=
  ⟨rfl, correct_nil, hm, by simp [hc]⟩

theorem Spec.list {d : DT} {cs : List Cell} {r : Int} {s : Nat} {y : Body} (h : Spec T t d os cs)
    (hy : y = .arr cs ∧ c = .tmp (t + os.length) ∨ y = .inst cs ∧ c = .adr (t + os.length))
    (ho : ObjOk T os ⟨t + os.length, ty, s, y⟩) :
    Spec T t (.list d r) (os ++ [⟨t + os.length, ty, s, y⟩]) [c] ∧ CellOk (os ++ [⟨t + os.length, ty, s, y⟩]) (ty, s + 1) c := by
  have hm : ∀ o ∈ os, o ∈ os ++ [(⟨t + os.length, ty, s, y⟩ : Obj)] := fun o ho => List.mem_append_left _ ho
  have hx : (⟨t + os.length, ty, s, y⟩ : Obj) ∈ os ++ [(⟨t + os.length, ty, s, y⟩ : Obj)] := by simp
  have hr : Obj.refs ⟨t + os.length, ty, s, y⟩ = cs.flatMap Cell.ref := by
    rcases hy with ⟨rfl, -⟩ | ⟨rfl, -⟩ <;> rfl
  have hcr : c.ref = [t + os.length] := by
    rcases hy with ⟨-, rfl⟩ | ⟨-, rfl⟩ <;> rfl
  refine ⟨⟨?_, ?_, ⟨t + os.length, cs, ?_, h.means.mono hm⟩, ?_⟩, ?_⟩
  · rw [List.map_append, h.labs, List.length_append, ← List.range'_append_1]
    rfl
  · exact h.ok.all (by simpa using ho)
  · rcases hy with ⟨rfl, rfl⟩ | ⟨rfl, rfl⟩
    · exact .inl ⟨rfl, _, hx, rfl, rfl⟩
    · exact .inr ⟨rfl, _, hx, rfl, rfl⟩
  · rw [List.flatMap_append, List.length_append, ← List.range'_append_1]
    simp only [List.flatMap_cons, List.flatMap_nil, List.append_nil, hr, hcr]
    exact h.once.append_right _
  · rcases hy with ⟨rfl, rfl⟩ | ⟨rfl, rfl⟩
    · exact .arr hx rfl
    · exact .adr hx rfl

theorem cty_succ (ty : Int) (k : Nat) : cty ty (k + 1) = (ty, starsOf ty ((k : Int) + 1) true + 1) := by
  unfold cty starsOf
  split <;> simp <;> omega

theorem cty_stars (ty : Int) (k : Nat) : cty ty k = (ty, starsOf ty ((k : Int) + 1) true) := by
  unfold cty starsOf
  split <;> simp <;> omega

theorem Init.holds {k : Kind} {d : DT} (h : Init T k d) : Holds T k d := by
  induction h with
  | cst hb =>
    rename_i ty v
    refine fun hv t => ⟨[], _, .num v, rfl, rfl, .leaf rfl rfl, ?_⟩
    rw [show cty ty 0 = (ty, 0) by rcases hb with rfl | rfl | rfl <;> rfl]
    exact .num hb
  | nulS h =>
    refine fun hv t => ⟨[], _, .num 0, rfl, rfl, .leaf rfl rfl, ?_⟩
    rw [cty, if_pos h]
    exact .null
  | nulA =>
    refine fun hv t => ⟨[], _, .num 0, rfl, rfl, .leaf rfl rfl, ?_⟩
    rw [cty_succ]
    exact .null
  | str => exact fun hv t => ⟨[], _, .str _, rfl, rfl, .leaf rfl rfl, .str⟩
  | arr hd ih =>
    rename_i ty k d r
    obtain ⟨ns, rfl, h1, h2, h3⟩ := ih
    intro hv t
    obtain ⟨os, ln, e1, e2⟩ := printArray0_spec (T := T) hv ns h1 h3 ((k : Int) + 1) (by omega) 1 t
    have hnx := e2.next
    refine ⟨os, .arry (dimTree ns) ln, .tmp ln, ?_, ?_, ⟨e2.labs, e2.ok, ⟨ln, ns, rfl, rfl, e2.arrs⟩, e2.once⟩, ?_⟩
    · simp only [printList1, Nat.cast_add, Nat.cast_one, e1, Option.bind_eq_bind, Option.bind_some, hnx]
    · simp only [printList2, Int.toNat_natCast]
      rw [if_neg (by push_cast; omega)]
    · rw [cty_succ]
      exact e2.ptr ln (by simp)
  | list hd ih =>
    rename_i ty k d r
    intro hv t
    obtain ⟨os, d', cs, e1, e2, e3, e4, e5⟩ := ih hv t
    have hl := Spec.list (ty := ty) (r := r) (s := starsOf ty ((k : Int) + 1) true) e3 (.inl ⟨rfl, rfl⟩)
      ⟨e4, fun h => hv (Prod.mk.inj h).1, fun c hc => cty_stars ty k ▸ e5 c hc⟩
    refine ⟨_, .list d' (t + os.length : Nat), _, ?_, ?_, hl.1, cty_succ ty k ▸ hl.2⟩
    · simp only [printList1, Nat.cast_add, Nat.cast_one, Int.add_sub_cancel, e1, e2, Option.bind_eq_bind, Option.bind_some]
      rw [if_pos (by omega)]
      simp [Nat.add_assoc]
    · simp only [printList2, Int.toNat_natCast]
      rw [if_neg (by push_cast; omega)]
  | struct hty hd hj ih =>
    rename_i ty j d r
    obtain ⟨cs, es, h1, h2, h3, h4, h5, h6, h7⟩ := ih
    intro hv t
    have hs : Spec T t d [] cs := ⟨rfl, correct_nil, h4 _, by simp [h3]⟩
    have hmem : members T (-ty).toNat = es.map fun e => cty e.type e.dim := by
      unfold members
      rw [h6, List.takeWhile_append_of_pos (by simpa using h5)]
      cases hj' : T.drop j with
      | nil => simp
      | cons e l =>
        have hg : T[j]? = some e := by
          have := congrArg List.head? hj'
          simpa [List.head?_drop] using this
        rw [List.takeWhile_cons_of_neg (by simpa using hj e hg)]
        simp
    have hst : starsOf ty 0 true = 0 := by unfold starsOf; rw [if_pos hty]; rfl
    have hl := Spec.list (ty := ty) (r := r) (s := 0) hs (.inr ⟨rfl, rfl⟩)
      ⟨hty, rfl, hmem ▸ h7 []⟩
    refine ⟨_, .list d (t : Nat), _, ?_, ?_, hl.1, ?_⟩
    · simp [printList1, h1, h2, hst]
    · simp [printList2, hty]
    · rw [cty, if_pos hty]
      exact hl.2
  | one _ ih =>
    intro hv t
    obtain ⟨os, d', c, e1, e2, e3, e4⟩ := ih hv t
    exact ⟨os, d', [c], e1, e2, e3, by simp, by simpa using e4⟩
  | more _ _ ih1 ih2 =>
    intro hv t
    obtain ⟨os, d1, cs, e1, e2, e3, e4, e5⟩ := ih1 hv t
    obtain ⟨os', d2, c, g1, g2, g3, g4⟩ := ih2 hv (t + os.length)
    refine ⟨os ++ os', .semi d1 d2, cs ++ [c], ?_, ?_, ⟨?_, e3.ok.two g3.ok, ?_, ?_⟩, by simp, ?_⟩
    · simp only [printList1, e1, g1, Option.bind_eq_bind, Option.bind_some, List.length_append, Nat.add_assoc]
    · simp only [printList2, e2, g2, Option.bind_eq_bind, Option.bind_some]
    · rw [List.map_append, e3.labs, g3.labs, List.length_append, ← List.range'_append_1]
    · exact ⟨cs, [c], rfl, e3.means.mono fun o ho => List.mem_append_left _ ho, g3.means.mono fun o ho => List.mem_append_right _ ho⟩
    · rw [List.length_append, ← List.range'_append_1]
      refine .trans ?_ (e3.once.append g3.once)
      rw [List.perm_iff_count]
      intro x
      simp only [List.flatMap_append, List.count_append]
      omega
    · intro c' hc
      rcases List.mem_append.1 hc with hc | hc
      · exact (e5 c' hc).mono fun o ho => List.mem_append_left _ ho
      · obtain rfl : c' = c := by simpa using hc
        exact g4.mono fun o ho => List.mem_append_right _ ho
  | first hi hs _ ih =>
    rename_i i e d _
    obtain ⟨c, h1, h2, h3, h4, h5⟩ := ih
    refine ⟨[c], [e], h1, h2, by simp [h3], h4, by simpa using hs, ?_, fun os => .cons (h5 os) .nil⟩
    obtain ⟨hlt, rfl⟩ := List.getElem?_eq_some_iff.1 hi
    exact List.drop_eq_getElem_cons hlt
  | next _ hi hs _ ih1 ih2 =>
    rename_i i j e d f _ _
    obtain ⟨cs, es, g1, g2, g3, g4, g5, g6, g7⟩ := ih1
    obtain ⟨c, h1, h2, h3, h4, h5⟩ := ih2
    refine ⟨cs ++ [c], es ++ [e], ?_, ?_, by simp [g3, h3], fun os => ⟨cs, [c], rfl, g4 os, h4 os⟩, ?_, ?_, fun os => ?_⟩
    · intro ty dim t; simp [printList1, g1, h1]
    · intro ty dim; simp [printList2, g2, h2]
    · intro e' he
      rcases List.mem_append.1 he with he | he
      · exact g5 e' he
      · obtain rfl : e' = e := by simpa using he
        exact hs
    · obtain ⟨hlt, rfl⟩ := List.getElem?_eq_some_iff.1 hi
      rw [g6, List.drop_eq_getElem_cons hlt]
      simp
    · rw [List.map_append]
      exact List.rel_append (g7 os) (.cons (h5 os) .nil)
  | fldC hb =>
    rename_i ty v
    refine ⟨.num v, fun _ _ _ => rfl, fun _ _ => rfl, rfl, fun _ => rfl, fun os => ?_⟩
    rw [show cty ty 0 = (ty, 0) by rcases hb with rfl | rfl | rfl <;> rfl]
    exact .num hb
  | fldN h =>
    rename_i ty k
    refine ⟨.num 0, fun _ _ _ => rfl, fun _ _ => rfl, rfl, fun _ => rfl, fun os => ?_⟩
    rcases h with h | h
    · rw [cty, if_pos h]; exact .null
    · obtain ⟨k, rfl⟩ := Nat.exists_eq_succ_of_ne_zero (by omega : k ≠ 0)
      rw [Nat.succ_eq_add_one, cty_succ]; exact .null
  | fldS => exact ⟨.str _, fun _ _ _ => rfl, fun _ _ => rfl, rfl, fun _ => rfl, fun os => .str⟩
  | size hv =>
    rename_i n v
    exact ⟨[v.toNat], by simp [dimTree]; omega, by simp, by simp, by simp; omega⟩
  | sizes hv _ ih =>
    rename_i n v l _
    obtain ⟨ns, rfl, h1, h2, h3⟩ := ih
    refine ⟨v.toNat :: ns, ?_, by simp, by simp; omega, ?_⟩
    · cases ns with
      | nil => exact absurd rfl h1
      | cons m ns => simp only [dimTree]; congr 2; omega
    · intro k hk
      rcases List.mem_cons.1 hk with rfl | hk
      · omega
      · exact h3 k hk

end Cmm.CText
