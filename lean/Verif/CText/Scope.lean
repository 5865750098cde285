import Verif.CText.Tree

/-
Scopes of C and of the source, for Verif/Props/C76.lean.
-/
namespace Cmm.CText
open Cmm.Tree (Expr Stmt)
open Cmm.Parse (Tab Ent Spot ExpAt LocalDecl Declr Declrs ForIni ForCond ForRini Cond NoType TypeTok Valued Assignable Unused Syn Sees
  TyVOID TyINT TyCHAR TyBOOL TyINTR ScLVAR ScPRM ScVOID ScSTRC)

/-! ### Specification: C (C11 6.2.1)

A name declared in a block is known from its declaration to the end of the block and hides the same name outside. A block is a compound
statement, a selection or iteration statement, or a substatement of one (6.8.4, 6.8.5). A name is declared at most once in a block (6.7). -/

/-- The names of an expression that are looked up, in the order of the text. -/
def CE.ids : CE → List Text
  | .num _ => []
  | .id x => [x]
  | .un _ e | .post _ e | .mem _ e _ | .cast _ _ e | .szE e => e.ids
  | .bin _ a b | .idx a b | .call a b | .cons a b => a.ids ++ b.ids
  | .cond c a b => c.ids ++ a.ids ++ b.ids
  | .nil | .szT _ _ => []

/-- Blocks, innermost first, with the names declared so far and the numbers of their declarations. -/
abbrev Env := List (List (Text × Nat))

/-- The declaration that a name refers to; none: a name of the file. -/
def look (env : Env) (x : Text) : Option Nat := env.flatten.lookup x

/-- The names of an expression with their declarations. -/
def uses (env : Env) (e : CE) : List (Text × Option Nat) := e.ids.map fun x => (x, look env x)

/-- The names used in a statement with their declarations, in the order of the text; declarations get the numbers from `n` on. No result: a
name is declared twice in a block. -/
def resolve : CS → Env → Nat → Option (Env × Nat × List (Text × Option Nat))
  | .ex e, env, n => some (env, n, uses env e)
  | .ret e, env, n => some (env, n, uses env e)
  | .decl _ _ x, env, n =>
    match env with
    | [] => none
    | sc :: env => if (sc.lookup x).isSome then none else some (((x, n) :: sc) :: env, n + 1, [])
  | .block is, env, n => do
    let (_, n, us) ← resolve is ([] :: env) n
    some (env, n, us)
  | .ifs c s, env, n => do
    let (_, n, us) ← resolve s ([] :: [] :: env) n
    some (env, n, uses env c ++ us)
  | .els c s t, env, n => do
    let (_, n, us) ← resolve s ([] :: [] :: env) n
    let (_, n, vs) ← resolve t ([] :: [] :: env) n
    some (env, n, uses env c ++ us ++ vs)
  | .whl c s, env, n => do
    let (_, n, us) ← resolve s ([] :: [] :: env) n
    some (env, n, uses env c ++ us)
  | .fors a b c s, env, n => do
    let (_, n, us) ← resolve s ([] :: [] :: env) n
    some (env, n, uses env a ++ uses env b ++ uses env c ++ us)
  | .dos s c, env, n => do
    let (_, n, us) ← resolve s ([] :: [] :: env) n
    some (env, n, us ++ uses env c)
  | .cons s is, env, n => do
    let (env, n, us) ← resolve s env n
    let (env, n, vs) ← resolve is env n
    some (env, n, us ++ vs)
  | _, env, n => some (env, n, [])

/-! ### Specification: the names of the source, which the parser has replaced by indices -/

/-- What a name of the source refers to: an entry of the name table (a local variable or parameter, or not), or a string. -/
inductive Occ
  | obj (loc : Bool) (n : Nat) | lit (l : Nat)

/-- The name in the C text and the declaration it should refer to. -/
def Occ.use (N : Nat → Text) : Occ → Text × Option Nat
  | .obj loc n => (N n, if loc then some n else none)
  | .lit l => (strLab l, none)

/-- In the order of the text. -/
def occ : Expr → List Occ
  | .cnst _ => []
  | .leaf .str n => [.lit n.toNat]
  | .leaf k n => [.obj (k = .loc ∨ k = .prm) n.toNat]
  | .func0 f => [.obj false f.toNat]
  | .func f a => .obj false f.toNat :: occ a
  | .un _ e => occ e
  | .bin op l r => if op = .dot then occ l else occ l ++ occ r
  | .assV k n r => .obj (k = .loc ∨ k = .prm) n.toNat :: occ r
  | .assM op a i r => occ a ++ (if op = .dot then [] else occ i) ++ occ r

def occO : Option Expr → List Occ
  | none => []
  | some e => occ e

def VS.occ : VS → List Occ
  | .null | .brk | .cnt | .var _ _ _ => []
  | .exp e => CText.occ e
  | .ifs c s => CText.occ c ++ s.occ
  | .els c s t => CText.occ c ++ s.occ ++ t.occ
  | .whl c b re => occO c ++ occO re ++ b.occ
  | .dos b c => b.occ ++ CText.occ c
  | .ret e => occO e
  | .seq _ s t => s.occ ++ t.occ

/-! ### Expressions -/

variable {N : Nat → Text}

theorem ids_ofList (as : List CE) : (CE.ofList as).ids = as.flatMap CE.ids := by
  induction as with
  | nil => rfl
  | cons a as ih => simp [CE.ofList, CE.ids, ih]

theorem ids_toEA : ∀ e : Expr, (tr (toEA N e).1).ids = (occ e).map (fun o => (o.use N).1) ∧
    (trA (toEA N e).2).flatMap CE.ids = (occ e).map (fun o => (o.use N).1) := by
  intro e
  induction e with
  | cnst v =>
    have : (tr (.cnst v)).ids = [] := by unfold tr; split <;> rfl
    simp [toEA, trA, occ, this]
  | leaf k n => cases k <;> simp [toEA, tr, trA, occ, CE.ids, Occ.use]
  | func0 f => simp [toEA, tr, trA, occ, CE.ids, CE.ofList, Occ.use]
  | func f a ih => simp [toEA, tr, trA, occ, CE.ids, ids_ofList, Occ.use, ih.2]
  | un op e ih => cases op <;> simp [toEA, tr, trA, occ, CE.ids, ih.1]
  | bin op l r ih1 ih2 => cases op <;> simp [toEA, toMem, toBi, tr, trA, occ, CE.ids, ih1.1, ih2.1, ih1.2, ih2.2]
  | assV k n r ih => simp [toEA, tr, trA, occ, CE.ids, Occ.use, ih.1]
  | assM op a i r ih1 ih2 ih3 => cases op <;> simp [toEA, toMem, tr, trA, occ, CE.ids, ih1.1, ih2.1, ih3.1]

/-- A local variable or a parameter. -/
def Loc (e : Ent) : Prop := e.scope = ScLVAR ∨ e.scope = ScPRM

/-- What the indices of the tree mean: the visible entry with that name. -/
def OccOk (T : Tab) : Occ → Prop
  | .obj loc n => ∃ e, Sees T e.name n e ∧ (loc = true ↔ Loc e)
  | .lit _ => True

theorem not_lv {T : Tab} {m : Nat} {x : Parse.SX} {ts : List (Int × Nat)} {e : Expr} (h : Parse.Ty Parse.actual T m x ts e) {n : Int}
    (he : e = .leaf .str n) : ¬ x.lv = true := by
  induction h with
  | var _ h2 => cases he; generalize Ent.scope _ = s at h2; cases h2
  | par _ ih => exact ih he
  | idx => cases he
  | fld => cases he
  | _ => exact nofun

theorem ty_occ {T : Tab} {m : Nat} {x : Parse.SX} {ts : List (Int × Nat)} {e : Expr} (h : Parse.Ty Parse.actual T m x ts e) :
    ∀ o ∈ occ e, OccOk T o := by
  have hs : ∀ {x n e}, Sees T x n e → Sees T e.name n e := fun h => by rw [h.2.1]; exact h
  have hf : ∀ {e : Ent}, Parse.IsFun e.scope → ¬ Loc e := by
    rintro e (h | h) (h' | h') <;> rw [h] at h' <;> exact absurd h' (by decide)
  have hk : ∀ {e : Ent} {k}, Parse.VarKind e.scope k → k ≠ .str ∧ (decide (k = .loc ∨ k = .prm) = true ↔ Loc e) := by
    intro e k h
    unfold Loc
    generalize e.scope = s at h
    cases h <;> exact ⟨nofun, by decide⟩
  induction h with
  | int => simp [occ]
  | chr => simp [occ]
  | log => simp [occ]
  | nul => simp [occ]
  | sizeof => simp [occ]
  | str => simp [occ, OccOk]
  | addrof h1 h2 =>
    simp only [occ, List.mem_singleton, forall_eq, Int.toNat_natCast]
    refine ⟨_, hs h1, ?_⟩
    rcases h2 with h2 | h2
    · simpa using hf h2
    · simpa using (hk h2).2
  | var h1 h2 =>
    obtain ⟨h3, h4⟩ := hk h2
    have : ∀ {k : Tree.Kind} {n : Nat}, k ≠ .str → occ (.leaf k n) = [.obj (k = .loc ∨ k = .prm) n] := by
      intro k n h; cases k <;> first | rfl | exact absurd rfl h
    rw [this h3]
    simp only [List.mem_singleton, forall_eq]
    exact ⟨_, hs h1, h4⟩
  | call0 h1 h2 =>
    simp only [occ, List.mem_singleton, forall_eq, Int.toNat_natCast]
    exact ⟨_, hs h1, by simpa using hf h2⟩
  | call h1 h2 _ _ _ ih =>
    simp only [occ, List.mem_cons, forall_eq_or_imp, Int.toNat_natCast]
    exact ⟨⟨_, hs h1, by simpa using hf h2⟩, ih⟩
  | args _ _ ih1 ih2 =>
    intro o ho
    simp only [occ, reduceCtorEq, if_false, List.mem_append] at ho
    exact ho.elim (ih1 o) (ih2 o)
  | par _ ih => exact ih
  | conv hc _ ih => cases hc <;> exact ih
  | idx _ _ he ih1 ih2 =>
    intro o ho
    have hd : ∀ {t op}, Parse.Elem t op → op ≠ .dot := by intro t op h; cases h <;> nofun
    simp only [occ, if_neg (hd he), List.mem_append] at ho
    exact ho.elim (ih1 o) (ih2 o)
  | fld _ _ _ _ ih => simpa only [occ, if_true] using ih
  | pre hp _ ih => cases hp <;> exact ih
  | bin hb _ _ _ ih1 ih2 =>
    intro o ho
    simp only [occ] at ho
    split at ho
    · exact ih1 o ho
    · exact (List.mem_append.1 ho).elim (ih1 o) (ih2 o)
  | @ass m l a el r b er e hty hlv _ _ hst ih1 ih2 =>
    intro o ho
    cases hst with
    | @var k n =>
      simp only [occ, List.mem_cons] at ho
      rcases ho with rfl | ho
      · by_cases hk' : k = .str
        · subst hk'
          exact absurd hlv (not_lv hty rfl)
        · refine ih1 _ ?_
          cases k <;> first | exact absurd rfl hk' | simp [occ]
      · exact ih2 o ho
    | mem =>
      simp only [occ, List.mem_append] at ho
      rcases ho with (ho | ho) | ho
      · exact ih1 o (by simp only [occ]; split; exacts [ho, List.mem_append_left _ ho])
      · split at ho
        · cases ho
        · next hd => exact ih1 o (by simp only [occ, if_neg hd]; exact List.mem_append_right _ ho)
      · exact ih2 o ho
  | com _ _ ih1 ih2 =>
    intro o ho
    simp only [occ, reduceCtorEq, if_false, List.mem_append] at ho
    exact ho.elim (ih1 o) (ih2 o)

/-! ### Tables and blocks -/

/-- `N` gives the names of the table, and none is a name of a string. -/
def Names (N : Nat → Text) (T : Tab) : Prop := ∀ n e, T[n]? = some e → N n = e.name.toList ∧ ∀ l, N n ≠ strLab l

/-- The blocks around a place with the table `T`. -/
structure EnvOk (env : Env) (T : Tab) : Prop where
  ne : env ≠ []
  sees : ∀ x n e, Sees T x n e → look env x.toList = open Classical in if Loc e then some n else none
  own : ∀ x n, (x, n) ∈ env.flatten → ∃ e, T[n]? = some e ∧ e.name.toList = x ∧ Loc e

theorem mem_of_lookup {xs : List (Text × Nat)} {x : Text} {n : Nat} (h : xs.lookup x = some n) : (x, n) ∈ xs := by
  induction xs with
  | nil => cases h
  | cons y ys ih =>
    obtain ⟨a, b⟩ := y
    simp only [List.lookup_cons] at h
    split at h
    · next he => cases h; simp at he; subst he; exact List.mem_cons_self
    · exact List.mem_cons_of_mem _ (ih h)

theorem EnvOk.lit {env : Env} {T : Tab} (h : EnvOk env T) (hN : Names N T) (l : Nat) : look env (strLab l) = none := by
  cases hx : look env (strLab l) with
  | none => rfl
  | some n =>
    obtain ⟨e, h1, h2, -⟩ := h.own _ _ (mem_of_lookup hx)
    obtain ⟨h3, h4⟩ := hN n e h1
    exact absurd (h3.trans h2) (h4 l)

theorem EnvOk.use {env : Env} {T : Tab} (h : EnvOk env T) (hN : Names N T) {o : Occ} (ho : OccOk T o) :
    ((o.use N).1, look env (o.use N).1) = o.use N := by
  cases o with
  | lit l => simp only [Occ.use, h.lit hN]
  | obj loc n =>
    obtain ⟨e, h1, h2⟩ := ho
    have h3 := h.sees _ _ _ h1
    simp only [Occ.use, (hN n e h1.1).1, h3]
    by_cases hl : Loc e
    · rw [if_pos hl, if_pos (h2.2 hl)]
    · rw [if_neg hl, if_neg (fun h => hl (h2.1 h))]

theorem EnvOk.uses {env : Env} {p : Spot} (h : EnvOk env p.tab) (hN : Names N p.tab) {k : Nat} {x : Parse.SX} {t : Int × Nat} {e : Expr}
    (he : ExpAt p k x t e) : uses env (tr (toE N e)) = (occ e).map (Occ.use N) := by
  simp only [CText.uses, toE, (ids_toEA e).1, List.map_map]
  refine List.map_congr_left fun o ho => ?_
  exact h.use hN (ty_occ he.ty o ho)

theorem EnvOk.push {env : Env} {T : Tab} (h : EnvOk env T) : EnvOk ([] :: env) T :=
  ⟨nofun, h.sees, h.own⟩

theorem getElem?_prefix {T T' : Tab} (h : T <+: T') {n : Nat} {e : Ent} (hn : T[n]? = some e) : T'[n]? = some e := by
  obtain ⟨U, rfl⟩ := h
  rw [List.getElem?_append_left (List.getElem?_eq_some_iff.1 hn).1]; exact hn

theorem Names.mono {T T' : Tab} (h : T <+: T') (hN : Names N T') : Names N T :=
  fun n e he => hN n e (getElem?_prefix h he)

theorem leave_tab {p p' : Spot} (h : p.tab <+: p'.tab) : ∃ U, p'.tab = p.tab ++ U ∧
    (p.leave p').tab = p.tab ++ U.map (fun e => { e with scope := ScVOID }) := by
  obtain ⟨U, h⟩ := h
  exact ⟨U, h.symm, by simp [Spot.leave, ← h]⟩

theorem leave_prefix {p p' : Spot} (h : p.tab <+: p'.tab) : p.tab <+: (p.leave p').tab := by
  obtain ⟨U, -, h⟩ := leave_tab h
  exact ⟨_, h.symm⟩

theorem leave_length {p p' : Spot} (h : p.tab <+: p'.tab) : (p.leave p').tab.length = p'.tab.length := by
  obtain ⟨U, h1, h2⟩ := leave_tab h
  rw [h1, h2]; simp

theorem leave_names {p p' : Spot} (h : p.tab <+: p'.tab) (hN : Names N (p.leave p').tab) : Names N p'.tab := by
  obtain ⟨U, h1, h2⟩ := leave_tab h
  intro n e he
  rw [h2] at hN
  rw [h1] at he
  by_cases hn : n < p.tab.length
  · rw [List.getElem?_append_left hn] at he
    exact hN n e (by rw [List.getElem?_append_left hn]; exact he)
  · rw [List.getElem?_append_right (by omega)] at he
    have := hN n { e with scope := ScVOID } (by rw [List.getElem?_append_right (by omega)]; simp [he])
    exact this

theorem EnvOk.leave {env : Env} {p p' : Spot} (h : EnvOk env p.tab) (hp : p.tab <+: p'.tab) : EnvOk env (p.leave p').tab := by
  obtain ⟨U, -, h2⟩ := leave_tab hp
  rw [h2]
  refine ⟨h.ne, fun x n e hs => h.sees x n e ?_, fun x n hm => ?_⟩
  · obtain ⟨s1, s2, s3, s4⟩ := hs
    have hn : n < p.tab.length := by
      by_contra hc
      rw [List.getElem?_append_right (by omega)] at s1
      simp only [List.getElem?_map, Option.map_eq_some_iff] at s1
      obtain ⟨e', -, rfl⟩ := s1
      exact absurd s3 (by show ¬ 0 ≤ ScVOID; decide)
    refine ⟨by rw [List.getElem?_append_left hn] at s1; exact s1, s2, s3, fun m e' hm he' => s4 m e' hm ?_⟩
    rw [List.getElem?_append_left (List.getElem?_eq_some_iff.1 he').1]; exact he'
  · obtain ⟨e, h3, h4⟩ := h.own x n hm
    exact ⟨e, getElem?_prefix ⟨_, rfl⟩ h3, h4⟩

theorem toList_inj {a b : String} (h : a.toList = b.toList) : a = b := String.toList_inj.1 h

/-- A further local variable or parameter. -/
theorem EnvOk.add {env : Env} {T : Tab} (h : EnvOk env T) {a : Ent} (ha : Loc a) (h0 : 0 ≤ a.scope)
    (hx : ∀ d ∈ T, d.name = a.name → ¬ Loc d) :
    ∃ sc env0, env = sc :: env0 ∧ (sc.lookup a.name.toList).isSome = false ∧
      EnvOk (((a.name.toList, T.length) :: sc) :: env0) (T ++ [a]) := by
  cases henv : env with
  | nil => exact absurd henv h.ne
  | cons sc env0 =>
    subst henv
    refine ⟨sc, env0, rfl, ?_, nofun, ?_, ?_⟩
    · cases hl : sc.lookup a.name.toList with
      | none => rfl
      | some n =>
        obtain ⟨e, h1, h2, h3⟩ := h.own a.name.toList n (by simp [mem_of_lookup hl])
        exact absurd h3 (hx e (List.mem_of_getElem? h1) (toList_inj h2))
    · intro y n e hs
      obtain ⟨s1, s2, s3, s4⟩ := hs
      by_cases hn : n < T.length
      · rw [List.getElem?_append_left hn] at s1
        have hy : y ≠ a.name := by
          rintro rfl
          have := s4 T.length a hn (by simp) rfl
          omega
        have hb : (y.toList == a.name.toList) = false := by
          rw [beq_eq_false_iff_ne]; exact fun he => hy (toList_inj he)
        have := h.sees y n e ⟨s1, s2, s3, fun m e' hm he' => s4 m e' hm (by
          rw [List.getElem?_append_left (List.getElem?_eq_some_iff.1 he').1]; exact he')⟩
        rw [← this]
        simp only [look, List.flatten_cons, List.cons_append, List.lookup_cons, hb]
      · rw [List.getElem?_append_right (by omega)] at s1
        obtain ⟨k, hk⟩ : ∃ k, n - T.length = k := ⟨_, rfl⟩
        rw [hk] at s1
        cases k with
        | succ k => cases s1
        | zero =>
          cases s1
          have hn' : n = T.length := by omega
          subst hn'
          subst s2
          simp only [look, List.flatten_cons, List.cons_append, List.lookup_cons, beq_self_eq_true, if_pos ha]
    · intro y n hm
      simp only [List.flatten_cons, List.cons_append, List.mem_cons] at hm
      rcases hm with hm | hm
      · cases hm
        exact ⟨a, by simp, rfl, ha⟩
      · obtain ⟨e, h1, h2⟩ := h.own y n (by simpa using hm)
        exact ⟨e, getElem?_prefix ⟨_, rfl⟩ h1, h2⟩

theorem EnvOk.local {env : Env} {p : Spot} (h : EnvOk env p.tab) {x : String} (hx : Unused p.tab x) (ty : Int) (dim : Nat) :
    ∃ sc env0, env = sc :: env0 ∧ (sc.lookup x.toList).isSome = false ∧
      EnvOk (((x.toList, p.tab.length) :: sc) :: env0) (p.local x ty dim).tab :=
  h.add (a := ⟨x, ScLVAR, ty, dim, p.cnt + 1, false⟩) (.inl rfl) (by show 0 ≤ ScLVAR; decide) fun d hd hn hl =>
    hl.elim (hx.2 d hd hn).1 (hx.2 d hd hn).2.1

/-! ### Statements -/

theorem resolve_append {as bs : List CS} {env : Env} {n : Nat} : resolve (CS.ofList (as ++ bs)) env n =
    (resolve (CS.ofList as) env n).bind fun r => (resolve (CS.ofList bs) r.1 r.2.1).map fun q => (q.1, q.2.1, r.2.2 ++ q.2.2) := by
  induction as generalizing env n with
  | nil => simp [CS.ofList, resolve]
  | cons a as ih =>
    simp only [List.cons_append, CS.ofList, resolve, Option.bind_eq_bind, ih]
    cases resolve a env n with
    | none => rfl
    | some r =>
      simp only [Option.bind_some]
      cases resolve (CS.ofList as) r.1 r.2.1 with
      | none => rfl
      | some q =>
        simp only [Option.bind_some]
        cases resolve (CS.ofList bs) q.1 q.2.1 with
        | none => rfl
        | some t => simp [List.append_assoc]

theorem resolve_one {c : CS} {env : Env} {n : Nat} : resolve (CS.ofList [c]) env n = resolve c env n := by
  simp only [CS.ofList, resolve, Option.bind_eq_bind]
  cases resolve c env n with
  | none => rfl
  | some r => simp

theorem resolve_exp {e : Exp} {env : Env} {n : Nat} : resolve (CS.ofList (trS (.exp e))) env n = some (env, n, uses env (tr e)) := by
  have : ∀ {c}, trS (.exp e) = [c] → resolve c env n = some (env, n, uses env (tr e)) →
      resolve (CS.ofList (trS (.exp e))) env n = some (env, n, uses env (tr e)) := by
    intro c h1 h2; rw [h1, resolve_one, h2]
  cases e with
  | cnst v =>
    refine this (c := .empty) rfl ?_
    simp only [resolve, uses]
    unfold tr; split <;> rfl
  | _ => exact this rfl rfl

/-- The statements that the tree becomes. -/
def items (N : Nat → Text) : Option VS → List CS
  | none => []
  | some v => trS (toS N v)

def occV : Option VS → List Occ
  | none => []
  | some v => v.occ

theorem items_join (a b : Option VS) : items N (joinV a b) = items N a ++ items N b := by
  cases a <;> cases b <;> simp [joinV, items, toS, trS]

theorem occV_join (a b : Option VS) : occV (joinV a b) = occV a ++ occV b := by
  cases a <;> cases b <;> simp [joinV, occV, VS.occ]

/-- `cs` between `p` and `p'` names the variables `os`. -/
def Done (N : Nat → Text) (cs : List CS) (p : Spot) (os : List Occ) (p' : Spot) : Prop :=
  ∀ env, EnvOk env p.tab → Names N p'.tab →
    ∃ env', resolve (CS.ofList cs) env p.tab.length = some (env', p'.tab.length, os.map (Occ.use N)) ∧ env'.tail = env.tail ∧ EnvOk env' p'.tab

/-- And declares nothing for what follows. -/
def Closed (N : Nat → Text) (cs : List CS) (p : Spot) (os : List Occ) (p' : Spot) : Prop :=
  ∀ env, EnvOk env p.tab → Names N p'.tab →
    resolve (CS.ofList cs) env p.tab.length = some (env, p'.tab.length, os.map (Occ.use N)) ∧ EnvOk env p'.tab

theorem Closed.done {cs : List CS} {p p' : Spot} {os : List Occ} (h : Closed N cs p os p') : Done N cs p os p' :=
  fun env h1 h2 => ⟨env, (h env h1 h2).1, rfl, (h env h1 h2).2⟩

theorem Done.append {cs ds : List CS} {p p1 p2 : Spot} {os us : List Occ} (h1 : Done N cs p os p1) (h2 : Done N ds p1 us p2)
    (hp : p1.tab <+: p2.tab) : Done N (cs ++ ds) p (os ++ us) p2 := by
  intro env he hN
  obtain ⟨env1, r1, t1, e1⟩ := h1 env he (hN.mono hp)
  obtain ⟨env2, r2, t2, e2⟩ := h2 env1 e1 hN
  exact ⟨env2, by simp [resolve_append, r1, r2], t2.trans t1, e2⟩

theorem DeclrV.run {ty : Int} {dim : Nat} {p p' : Spot} {ts : List Parse.Tok} {v : VS} (h : DeclrV ty dim p ts v p') :
    Done N (trS (toS N v)) p v.occ p' ∧ p.tab <+: p'.tab := by
  have dcl : ∀ {x}, Unused p.tab x → Done N (trS (toS N (.var p.tab.length ty dim))) p [] (p.local x ty dim) := by
    intro x hx env he hN
    obtain ⟨sc, env0, rfl, h1, h2⟩ := he.local hx ty dim
    have hn := (hN p.tab.length ⟨x, ScLVAR, ty, dim, p.cnt + 1, false⟩ (by simp [Spot.local])).1
    refine ⟨_, ?_, ?_, h2⟩
    · simp only [toS, trS, resolve_one, resolve, hn, h1, Bool.false_eq_true, if_false, List.map_nil]
      simp [Spot.local]
    · rfl
  cases h with
  | plain h => exact ⟨dcl h, ⟨_, rfl⟩⟩
  | @init x y t e h1 h2 h3 =>
    refine ⟨?_, ⟨_, rfl⟩⟩
    refine (dcl h1).append (us := .obj true p.tab.length :: occ e) ?_ ⟨[], by simp [Spot.lit]⟩
    refine Closed.done fun env he hN => ⟨?_, he⟩
    simp only [toS, resolve_exp]
    have h4 : uses env (tr (toE N (.assV .loc p.tab.length e))) =
        (Occ.use N (.obj true p.tab.length) :: (occ e).map (Occ.use N)) := by
      have h5 := he.uses (N := N) hN h2
      have h6 : OccOk (p.local x ty dim).tab (.obj true p.tab.length) := by
        refine ⟨⟨x, ScLVAR, ty, dim, p.cnt + 1, false⟩, ⟨by simp [Spot.local], rfl, by show 0 ≤ ScLVAR; decide, ?_⟩, by simp [Loc]⟩
        intro m e' hm he'
        simp only [Spot.local] at he'
        rw [List.getElem?_eq_none (by simp; omega)] at he'
        cases he'
      have h7 := he.use (N := N) hN h6
      simp only [CText.uses, toE] at h5 ⊢
      simp only [toEA, tr, CE.ids, List.singleton_append, List.map_cons, h5]
      simpa only [Occ.use, Int.toNat_natCast, List.cons.injEq, and_true] using h7
    rw [h4]
    rfl

theorem DeclrsV.run {ty : Int} {dim : Nat} {p p' : Spot} {ts : List Parse.Tok} {v : VS} (h : DeclrsV ty dim p ts v p') :
    Done N (trS (toS N v)) p v.occ p' ∧ p.tab <+: p'.tab := by
  induction h with
  | one h => exact h.run
  | more _ h ih => exact ⟨ih.1.append h.run.1 (h.run (N := N)).2, ih.2.trans (h.run (N := N)).2⟩

theorem LocalDeclV.run {p p' : Spot} {ts : List Parse.Tok} {v : VS} (h : LocalDeclV p ts v p') :
    Done N (trS (toS N v)) p v.occ p' ∧ p.tab <+: p'.tab := by
  cases h with
  | mk h1 h2 h3 h4 => exact h4.run

theorem Closed.empty {p p' : Spot} (h : p'.tab = p.tab) : Closed N [] p [] p' := by
  intro env he hN
  exact ⟨by simp [CS.ofList, resolve, h], by rw [h]; exact he⟩

theorem ForIniV.run {p p' : Spot} {ts : List Parse.Tok} {v : Option VS} (h : ForIniV p ts v p') :
    Done N (trS (toS N (stOfV v))) p (occV v) p' ∧ p.tab <+: p'.tab := by
  cases h with
  | none => exact ⟨Closed.done fun env he hN => ⟨rfl, he⟩, ⟨[], by simp⟩⟩
  | decl h => exact h.run
  | exp h1 h2 => exact ⟨Closed.done fun env he hN => ⟨by simp only [stOfV, toS, resolve_exp, he.uses hN h1]; rfl, he⟩, ⟨[], by simp [Spot.lit]⟩⟩

theorem Cond.run {p p' : Spot} {ts : List Parse.Tok} {c : Expr} (h : Cond p ts c p') : p'.tab = p.tab ∧
    ∀ env, EnvOk env p.tab → Names N p.tab → uses env (tr (toE N c)) = (occ c).map (Occ.use N) := by
  cases h with
  | mk h => exact ⟨rfl, fun env he hN => he.uses hN h⟩

theorem ForCond.run {p p' : Spot} {ts : List Parse.Tok} {c : Option Expr} (h : ForCond p ts c p') : p'.tab = p.tab ∧
    ∀ env, EnvOk env p.tab → Names N p.tab → uses env (trO (c.map (toE N))) = (occO c).map (Occ.use N) := by
  cases h with
  | none => exact ⟨rfl, fun env he hN => rfl⟩
  | exp h => exact ⟨rfl, fun env he hN => he.uses hN h⟩

theorem ForRini.run {p p' : Spot} {ts : List Parse.Tok} {c : Option Expr} (h : ForRini p ts c p') : p'.tab = p.tab ∧
    ∀ env, EnvOk env p.tab → Names N p.tab → uses env (trO (c.map (toE N))) = (occO c).map (Occ.use N) := by
  cases h with
  | none => exact ⟨rfl, fun env he hN => rfl⟩
  | exp h => exact ⟨rfl, fun env he hN => he.uses hN h⟩

/-- The statement is one statement of C. -/
def One (N : Nat → Text) (v : Option VS) : Prop := ∃ c, trS (toS N (stOfV v)) = [c]

theorem Closed.body {v : Option VS} {p p' : Spot} (h : Closed N (items N v) p (occV v) p') (h1 : One N v) {env : Env} (he : EnvOk env p.tab)
    (hN : Names N p'.tab) :
    resolve ((trS (toS N (stOfV v))).headD .empty) env p.tab.length = some (env, p'.tab.length, (stOfV v).occ.map (Occ.use N)) := by
  obtain ⟨c, hc⟩ := h1
  rw [hc]
  have h2 := (h env he hN).1
  cases v with
  | none =>
    cases hc
    exact h2
  | some v =>
    simp only [items] at h2
    simp only [stOfV] at hc
    rw [hc, resolve_one] at h2
    exact h2

/-- What holds of the parts of the text. -/
def Runs (N : Nat → Text) (p : Spot) (v : Option VS) (p' : Spot) : NTV → Prop
  | .stat _ => One N v ∧ Closed N (items N v) p (occV v) p' ∧ p.tab <+: p'.tab
  | .items a => ∃ cs os, items N v = items N a ++ cs ∧ occV v = occV a ++ os ∧ Done N cs p os p' ∧ p.tab <+: p'.tab

/-- Statements other than declarations and lists of statements declare nothing for what follows. -/
theorem resolve_closed {c : CS} {env env' : Env} {n n' : Nat} {us : List (Text × Option Nat)}
    (h : resolve c env n = some (env', n', us)) (h1 : ∀ t n x, c ≠ .decl t n x) (h2 : ∀ a b, c ≠ .cons a b) : env' = env := by
  cases c with
  | decl t n x => exact absurd rfl (h1 t n x)
  | cons a b => exact absurd rfl (h2 a b)
  | block | ifs | whl | fors | dos =>
    simp only [resolve, Option.bind_eq_bind, Option.bind_eq_some_iff] at h
    obtain ⟨r, -, h⟩ := h
    cases h; rfl
  | els =>
    simp only [resolve, Option.bind_eq_bind, Option.bind_eq_some_iff] at h
    obtain ⟨r, -, r', -, h⟩ := h
    cases h; rfl
  | _ => cases h; rfl

theorem trS_one : ∀ v : VS, v.isVar = false → (∀ a b, v ≠ .seq false a b) →
    ∃ c, trS (toS N v) = [c] ∧ (∀ t n x, c ≠ .decl t n x) ∧ ∀ a b, c ≠ .cons a b := by
  intro v h1 h2
  cases v with
  | var => cases h1
  | seq k a b =>
    cases k with
    | false => exact absurd rfl (h2 a b)
    | true => exact ⟨_, rfl, nofun, nofun⟩
  | exp e =>
    cases hx : toE N e with
    | cnst => simp only [toS, hx, trS]; exact ⟨_, rfl, nofun, nofun⟩
    | _ => simp only [toS, hx, trS]; exact ⟨_, rfl, nofun, nofun⟩
  | _ => exact ⟨_, rfl, nofun, nofun⟩

theorem runs {F : Int × Nat} {nt : NTV} {l : Bool} {p p' : Spot} {ts : List Parse.Tok} {v : Option VS}
    (h : SynV true F nt l p ts v p') : Runs N p v p' nt := by
  induction h with
  | null => exact ⟨⟨_, rfl⟩, Closed.empty rfl, ⟨[], by simp⟩⟩
  | @exp l p x t e h =>
    refine ⟨?_, fun env he hN => ⟨by simp only [items, toS, resolve_exp, he.uses hN h]; rfl, he⟩, ⟨[], by simp [Spot.lit]⟩⟩
    obtain ⟨c, h1, -⟩ := trS_one (N := N) (.exp e) rfl nofun
    exact ⟨c, h1⟩
  | ret h => exact ⟨⟨_, rfl⟩, fun env he hN => ⟨rfl, he⟩, ⟨[], by simp⟩⟩
  | retV h1 h2 h3 =>
    refine ⟨⟨_, rfl⟩, fun env he hN => ⟨?_, he⟩, ⟨[], by simp [Spot.lit]⟩⟩
    simp only [items, toS, trS, Option.map_some, trO, resolve_one, resolve, he.uses hN h2]
    rfl
  | brk => exact ⟨⟨_, rfl⟩, fun env he hN => ⟨rfl, he⟩, ⟨[], by simp⟩⟩
  | cnt => exact ⟨⟨_, rfl⟩, fun env he hN => ⟨rfl, he⟩, ⟨[], by simp⟩⟩
  | ifs h1 _ ih =>
    obtain ⟨i1, i2, i3⟩ := ih
    obtain ⟨c1, c2⟩ := Cond.run (N := N) h1
    rw [c1] at i3
    refine ⟨⟨_, rfl⟩, fun env he hN => ?_, i3⟩
    have he' := he
    rw [← c1] at he'
    refine ⟨?_, (i2 env he' hN).2⟩
    have hb := i2.body i1 he'.push.push.push hN
    rw [c1] at hb
    simp [-List.headD_eq_head?_getD, items, toS, trS, resolve_one, resolve, hb, occV, VS.occ, c2 _ he.push (hN.mono i3)]
  | els h1 _ _ ih1 ih2 =>
    obtain ⟨i1, i2, i3⟩ := ih1
    obtain ⟨j1, j2, j3⟩ := ih2
    obtain ⟨c1, c2⟩ := Cond.run (N := N) h1
    rw [c1] at i3
    refine ⟨⟨_, rfl⟩, fun env he hN => ?_, i3.trans j3⟩
    have he' := he
    rw [← c1] at he'
    have hN' := hN.mono j3
    have hb := i2.body i1 he'.push.push hN'
    rw [c1] at hb
    have he2 := (i2 env he' hN').2
    refine ⟨?_, (j2 env he2 hN).2⟩
    have hc := j2.body j1 he2.push.push hN
    simp [-List.headD_eq_head?_getD, items, toS, trS, resolve_one, resolve, hb, hc, occV, VS.occ, c2 _ he (hN'.mono i3)]
  | whl h1 _ ih =>
    obtain ⟨i1, i2, i3⟩ := ih
    obtain ⟨c1, c2⟩ := Cond.run (N := N) h1
    rw [c1] at i3
    refine ⟨⟨_, rfl⟩, fun env he hN => ?_, i3⟩
    have he' := he
    rw [← c1] at he'
    refine ⟨?_, (i2 env he' hN).2⟩
    have hb := i2.body i1 he'.push.push hN
    rw [c1] at hb
    have hc := c2 _ he (hN.mono i3)
    have hn : uses env .nil = [] := rfl
    simp [-List.headD_eq_head?_getD, items, toS, trS, trO, hn, resolve_one, resolve, hb, hc, occV, occO, VS.occ]
  | dos _ h1 ih =>
    obtain ⟨i1, i2, i3⟩ := ih
    obtain ⟨c1, c2⟩ := Cond.run (N := N) h1
    refine ⟨⟨_, rfl⟩, fun env he hN => ?_, by rw [c1]; exact i3⟩
    simp only [c1] at hN ⊢
    have he2 := (i2 env he hN).2
    refine ⟨?_, he2⟩
    have hb := i2.body i1 he.push.push hN
    simp [-List.headD_eq_head?_getD, items, toS, trS, resolve_one, resolve, hb, occV, VS.occ, c2 _ he2 hN]
  | @«for» l q p t1 i p1 t2 c p2 t3 r p3 ts a p4 h1 h2 h3 _ ih =>
    obtain ⟨i1, i2, i3⟩ := ih
    obtain ⟨a1, a2⟩ := ForIniV.run (N := N) h1
    obtain ⟨b1, b2⟩ := ForCond.run (N := N) h2
    obtain ⟨c1, c2⟩ := ForRini.run (N := N) h3
    have hp : p.tab <+: p4.tab := by rw [c1, b1] at i3; exact a2.trans i3
    refine ⟨⟨_, rfl⟩, fun env he hN => ?_, leave_prefix hp⟩
    have hN4 := leave_names hp hN
    have hN3 := hN4.mono i3
    have hN1 : Names N p1.tab := by rw [← b1, ← c1]; exact hN3
    refine ⟨?_, he.leave hp⟩
    obtain ⟨env1, r1, r2, r3⟩ := a1 _ he.push hN1
    have r3' : EnvOk env1 p3.tab := by rw [c1, b1]; exact r3
    have hb := i2.body i1 r3'.push.push hN4
    have hu1 := b2 env1 r3 hN1
    have hu2 := c2 env1 (by rw [b1]; exact r3) (by rw [b1]; exact hN1)
    rw [c1, b1] at hb
    have hl : (p.leave p4).tab.length = p4.tab.length := leave_length hp
    have hn : uses env1 .nil = [] := rfl
    have ho : (stOfV i).occ = occV i := by cases i <;> rfl
    simp [-List.headD_eq_head?_getD, items, toS, trS, resolve_one, resolve, resolve_append, r1, hb, hu1, hu2, hl, hn, ho, occV, VS.occ]
  | @block l p ts a p' _ hs ih =>
    obtain ⟨cs, os, e1, e2, d, hp⟩ := ih
    simp only [items, List.nil_append] at e1
    simp only [occV, List.nil_append] at e2
    subst e1 e2
    refine ⟨?_, fun env he hN => ?_, leave_prefix hp⟩
    · cases a with
      | none => exact ⟨_, rfl⟩
      | some v =>
        by_cases hq : ∃ x y, v = .seq false x y
        · obtain ⟨x, y, rfl⟩ := hq; exact ⟨_, rfl⟩
        · have h1 : blockOfV (some v) = some v := by
            cases v with
            | seq k x y => cases k with
              | false => exact absurd ⟨x, y, rfl⟩ hq
              | true => rfl
            | _ => rfl
          obtain ⟨c, h2, -⟩ := trS_one (N := N) v (by simpa using hs rfl) (fun x y he => hq ⟨x, y, he⟩)
          rw [h1]; exact ⟨c, h2⟩
    · have hN' := leave_names hp hN
      refine ⟨?_, he.leave hp⟩
      have hl : (p.leave p').tab.length = p'.tab.length := leave_length hp
      cases a with
      | none =>
        obtain ⟨env1, r1, -⟩ := d env he hN'
        have r2 : some (env, p.tab.length, []) = some (env1, p'.tab.length, []) := r1
        simp only [Option.some.injEq, Prod.mk.injEq] at r2
        simp only [blockOfV, items, occV, CS.ofList, resolve, List.map_nil, hl, r2.2.1]
      | some v =>
        by_cases hq : ∃ x y, v = .seq false x y
        · obtain ⟨x, y, rfl⟩ := hq
          obtain ⟨env1, r1, -⟩ := d _ he.push hN'
          simp only [items, toS, trS, occV, VS.occ] at r1
          simp [blockOfV, items, toS, trS, resolve_one, resolve, r1, hl, occV, VS.occ]
        · have h1 : blockOfV (some v) = some v := by
            cases v with
            | seq k x y => cases k with
              | false => exact absurd ⟨x, y, rfl⟩ hq
              | true => rfl
            | _ => rfl
          obtain ⟨c, h2, h3, h4⟩ := trS_one (N := N) v (by simpa using hs rfl) (fun x y he => hq ⟨x, y, he⟩)
          obtain ⟨env1, r1, -⟩ := d env he hN'
          simp only [items, h2, resolve_one] at r1
          have := resolve_closed r1 h3 h4
          subst this
          simp only [h1, items, h2, resolve_one, r1, hl, occV]
  | done => exact ⟨[], [], by simp, by simp, (Closed.empty rfl).done, ⟨[], by simp⟩⟩
  | decl h1 _ ih =>
    obtain ⟨cs, os, e1, e2, d, hp⟩ := ih
    obtain ⟨d1, hp1⟩ := LocalDeclV.run (N := N) h1
    exact ⟨_, _, by rw [e1, items_join, List.append_assoc]; rfl, by rw [e2, occV_join, List.append_assoc]; rfl, d1.append d hp, hp1.trans hp⟩
  | stat _ _ _ ih1 ih2 =>
    obtain ⟨-, i2, i3⟩ := ih1
    obtain ⟨cs, os, e1, e2, d, hp⟩ := ih2
    exact ⟨_, _, by rw [e1, items_join, List.append_assoc], by rw [e2, occV_join, List.append_assoc], i2.done.append d hp, i3.trans hp⟩

end Cmm.CText
