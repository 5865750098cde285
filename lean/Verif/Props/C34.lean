import Verif.Parse.Eval
import Verif.Parse.Glob

/-! C34: a name resolves to the innermost visible declaration. -/
namespace Cmm.Parse
open Cmm.Tree

/-! ### Specification: nested scopes -/

/-- Nested scopes. Declarations are numbered; each scope is the list of its declarations, latest
first, with the number that was next when it was opened. -/
structure Scopes where
  next : Nat := 0
  inner : List (Nat × List (Nat × String)) := []
  outer : List (Nat × String) := []

/-- The most recent declaration of the innermost scope that declares `x`. -/
def Scopes.lookup (c : Scopes) (x : String) : Option Nat :=
  ((c.inner.flatMap Prod.snd ++ c.outer).find? fun d => d.2 == x).map Prod.fst

/-- What happens to scopes: a declaration (structure names and typedef names are not looked up as
names of variables or functions), the beginning and the end of a scope, the end of a scope whose
declarations are forgotten altogether so that their numbers are given again. -/
inductive Event
  | decl (x : String) (isName : Bool)
  | enter
  | leave
  | forget

/-- A declaration is added to the innermost scope. -/
def Scopes.add (c : Scopes) (x : String) : Scopes :=
  match c.inner with
  | (i, ds) :: r => { c with next := c.next + 1, inner := (i, (c.next, x) :: ds) :: r }
  | [] => { c with next := c.next + 1, outer := (c.next, x) :: c.outer }

def Scopes.step (c : Scopes) : Event → Option Scopes
  | .decl x true => some (c.add x)
  | .decl _ false => some { c with next := c.next + 1 }
  | .enter => some { c with inner := (c.next, []) :: c.inner }
  | .leave => match c.inner with
    | _ :: r => some { c with inner := r }
    | [] => none
  | .forget => match c.inner with
    | (i, _) :: r => some { c with next := i, inner := r }
    | [] => none

/-! ### The name table under the operations of namtbl.c -/

/-- The table and the indices the parser remembers (`tmp` in getBlock and getFor, the indices
of the function and its parameters in getFunc). -/
structure Mach where
  tab : Tab := []
  marks : List Nat := []

/-- Operations of namtbl.c as the parser uses them. `scope` and `cnt` change an entry
without making it visible or invisible. -/
inductive Op
  | decl (e : Ent)
  | enter
  | leave
  | forget
  | scope (i : Nat) (c : Int)
  | cnt (i c : Nat)

def Mach.step (m : Mach) : Op → Option Mach
  | .decl e => (defName m.tab e).map fun t => { m with tab := t }
  | .enter => some { m with marks := m.tab.length :: m.marks }
  | .leave => match m.marks with
    | i :: r => some ⟨setVoid m.tab i, r⟩
    | [] => none
  | .forget => match m.marks with
    | i :: r => some ⟨undefName m.tab i, r⟩
    | [] => none
  | .scope i c =>
    if 0 ≤ c ∧ (m.tab[i]?).any (fun e => decide (0 ≤ e.scope)) then some { m with tab := setScope m.tab i c }
    else none
  | .cnt i c => some { m with tab := setCnt m.tab i c }

/-- The event an operation stands for. -/
def Op.event : Op → List Event
  | .decl e => [.decl e.name (decide (0 ≤ e.scope))]
  | .enter => [.enter]
  | .leave => [.leave]
  | .forget => [.forget]
  | .scope _ _ => []
  | .cnt _ _ => []

def Mach.run (m : Mach) : List Op → Option Mach
  | [] => some m
  | op :: ops => (m.step op).bind fun m => m.run ops

def Scopes.run (c : Scopes) : List Event → Option Scopes
  | [] => some c
  | e :: es => (c.step e).bind fun c => c.run es

/-! ### Refinement -/

/-- The name under which an entry is found. -/
def Ent.key (e : Ent) : Option String := if 0 ≤ e.scope then some e.name else none

/-- The visible names with their indices, latest first; `k` is the index of the first. -/
def visK : Nat → List (Option String) → List (Nat × String)
  | _, [] => []
  | k, a :: r => visK (k + 1) r ++ (a.map fun x => (k, x)).toList

theorem visK_app (k : Nat) (a b : List (Option String)) :
    visK k (a ++ b) = visK (k + a.length) b ++ visK k a := by
  induction a generalizing k with
  | nil => simp [visK]
  | cons x a ih =>
    simp only [List.cons_append, visK, ih, List.length_cons, List.append_assoc]
    rw [show k + 1 + a.length = k + (a.length + 1) by omega]

theorem visK_none (k n : Nat) : visK k (List.replicate n none) = [] := by
  induction n generalizing k with
  | zero => rfl
  | succ n ih => simp [List.replicate_succ, visK, ih]

/-- The scopes describe the keys of a table. -/
def Fits (ks : List (Option String)) :
    List (Nat × List (Nat × String)) → List (Nat × String) → Prop
  | [], outer => outer = visK 0 ks
  | (i, ds) :: r, outer => i ≤ ks.length ∧ ds = visK i (ks.drop i) ∧ Fits (ks.take i) r outer

theorem Fits.none {ks : List (Option String)} {r : List (Nat × List (Nat × String))}
    {outer : List (Nat × String)} (h : Fits ks r outer) (n : Nat) :
    Fits (ks ++ List.replicate n none) r outer := by
  cases r with
  | nil =>
    change outer = _ at h ⊢
    rw [h, visK_app, visK_none, List.nil_append]
  | cons a r =>
    obtain ⟨i, ds⟩ := a
    obtain ⟨h1, h2, h3⟩ := h
    refine ⟨by simp; omega, ?_, ?_⟩
    · rw [List.drop_append_of_le_length h1, visK_app, visK_none, List.nil_append, h2]
    · rw [List.take_append_of_le_length h1]; exact h3

theorem Fits.all {ks : List (Option String)} {r : List (Nat × List (Nat × String))}
    {outer : List (Nat × String)} (h : Fits ks r outer) :
    r.flatMap Prod.snd ++ outer = visK 0 ks := by
  induction r generalizing ks with
  | nil => exact h
  | cons a r ih =>
    obtain ⟨i, ds⟩ := a
    obtain ⟨h1, h2, h3⟩ := h
    have : visK 0 ks = visK 0 (ks.take i ++ ks.drop i) := by rw [List.take_append_drop]
    rw [this, visK_app, List.flatMap_cons, List.append_assoc, ih h3, List.length_take,
      Nat.min_eq_left h1, Nat.zero_add, h2]

/-- The scopes describe the table and the remembered indices. -/
structure Sim (m : Mach) (c : Scopes) : Prop where
  next : c.next = m.tab.length
  marks : m.marks = c.inner.map Prod.fst
  fits : Fits (m.tab.map Ent.key) c.inner c.outer

theorem Sim.push {m : Mach} {c : Scopes} (h : Sim m c) (e : Ent) :
    Sim { m with tab := m.tab ++ [e] }
      (if 0 ≤ e.scope then c.add e.name else { c with next := c.next + 1 }) := by
  have hk : e.key = if 0 ≤ e.scope then some e.name else none := rfl
  obtain ⟨next, inner, outer⟩ := c
  obtain ⟨h1, h2, h3⟩ := h
  simp only at h1
  subst h1
  split
  · rename_i hs
    rw [if_pos hs] at hk
    cases inner with
    | nil =>
      refine ⟨by simp [Scopes.add], h2, ?_⟩
      change outer = _ at h3
      show (_ :: outer) = _
      rw [List.map_append, visK_app, h3]
      simp [visK, hk]
    | cons a r =>
      obtain ⟨i, ds⟩ := a
      obtain ⟨g1, g2, g3⟩ := h3
      refine ⟨by simp [Scopes.add], h2, ?_, ?_, ?_⟩
      · simp at g1 ⊢; omega
      · show _ :: ds = _
        rw [List.map_append, List.drop_append_of_le_length g1, visK_app, g2]
        rw [List.length_map] at g1
        simp [visK, hk]
        omega
      · rw [List.map_append, List.take_append_of_le_length g1]; exact g3
  · rename_i hs
    rw [if_neg hs] at hk
    refine ⟨by simp, h2, ?_⟩
    have := h3.none 1
    rw [List.map_append, List.map_singleton, hk]
    exact this

theorem map_modify {i : Nat} {f : Ent → Ent} {t : Tab}
    (h : ∀ e, t[i]? = some e → (f e).key = e.key) : (t.modify i f).map Ent.key = t.map Ent.key := by
  induction t generalizing i with
  | nil => simp
  | cons a t ih =>
    cases i with
    | zero => simpa using h a rfl
    | succ i =>
      rw [List.modify_succ_cons, List.map_cons, List.map_cons, ih fun e he => h e (by simpa using he)]

theorem setVoid_key (t : Tab) (i : Nat) :
    (setVoid t i).map Ent.key = (t.map Ent.key).take i ++ List.replicate (t.length - i) none := by
  rw [setVoid, List.map_append, List.map_take]
  congr 1
  rw [List.map_map, List.eq_replicate_iff]
  refine ⟨by simp, ?_⟩
  intro b hb
  rw [List.mem_map] at hb
  obtain ⟨e, -, rfl⟩ := hb
  rfl

theorem Sim.step {m m' : Mach} {c : Scopes} {op : Op} (h : Sim m c) (hs : m.step op = some m') :
    ∃ c', c.run op.event = some c' ∧ Sim m' c' := by
  cases op with
  | decl e =>
    simp only [Mach.step, Option.map_eq_some_iff] at hs
    obtain ⟨t, h1, rfl⟩ := hs
    have hp := h.push e
    rw [(defName_some h1).1]
    by_cases he : 0 ≤ e.scope
    · rw [if_pos he] at hp
      exact ⟨_, by simp [Op.event, Scopes.run, Scopes.step, he], hp⟩
    · rw [if_neg he] at hp
      exact ⟨_, by simp [Op.event, Scopes.run, Scopes.step, he], hp⟩
  | enter =>
    cases hs
    refine ⟨_, rfl, h.next, ?_, ?_⟩
    · show m.tab.length :: m.marks = c.next :: _
      rw [h.next, h.marks]
    · refine ⟨by rw [h.next]; simp, ?_, ?_⟩
      · rw [h.next, List.drop_of_length_le (by simp)]; rfl
      · rw [h.next, List.take_of_length_le (by simp)]; exact h.fits
  | leave =>
    obtain ⟨next, inner, outer⟩ := c
    cases inner with
    | nil =>
      have := h.marks
      simp only [Mach.step, this] at hs
      cases hs
    | cons a r =>
      obtain ⟨i, ds⟩ := a
      have hm := h.marks
      simp only [Mach.step, hm, List.map_cons] at hs
      cases hs
      obtain ⟨h1, h2, h3⟩ := h.fits
      refine ⟨_, rfl, ?_, rfl, ?_⟩
      · simp only [setVoid]
        have := h.next
        simp at h1 this ⊢
        omega
      · show Fits _ r outer
        rw [setVoid_key]
        exact h3.none _
  | forget =>
    obtain ⟨next, inner, outer⟩ := c
    cases inner with
    | nil =>
      have := h.marks
      simp only [Mach.step, this] at hs
      cases hs
    | cons a r =>
      obtain ⟨i, ds⟩ := a
      have hm := h.marks
      simp only [Mach.step, hm, List.map_cons] at hs
      cases hs
      obtain ⟨h1, h2, h3⟩ := h.fits
      refine ⟨_, rfl, ?_, rfl, ?_⟩
      · simp only [undefName]
        simp at h1 ⊢
        omega
      · show Fits _ r outer
        rw [undefName, List.map_take]
        exact h3
  | scope i s =>
    simp only [Mach.step] at hs
    split at hs
    · rename_i hc
      cases hs
      refine ⟨c, rfl, by rw [h.next]; simp [setScope], h.marks, ?_⟩
      show Fits ((setScope m.tab i s).map Ent.key) _ _
      rw [setScope, map_modify]
      · exact h.fits
      · intro e he
        rw [he] at hc
        have : 0 ≤ e.scope := by simpa using hc.2
        simp [Ent.key, hc.1, this]
    · cases hs
  | cnt i n =>
    cases hs
    refine ⟨c, rfl, by rw [h.next]; simp [setCnt], h.marks, ?_⟩
    show Fits ((setCnt m.tab i n).map Ent.key) _ _
    rw [setCnt, map_modify]
    · exact h.fits
    · intro e _; rfl

theorem Scopes.run_app {c c1 c2 : Scopes} {a b : List Event} (h : c.run a = some c1) (g : c1.run b = some c2) :
    c.run (a ++ b) = some c2 := by
  induction a generalizing c with
  | nil => cases h; exact g
  | cons e a ih =>
    simp only [Scopes.run, Option.bind_eq_some_iff] at h
    obtain ⟨c', h1, h2⟩ := h
    simp only [List.cons_append, Scopes.run, h1, Option.bind_some]
    exact ih h2

theorem Sim.run {m m' : Mach} {c : Scopes} {ops : List Op} (h : Sim m c) (hs : m.run ops = some m') :
    ∃ c', c.run (ops.flatMap Op.event) = some c' ∧ Sim m' c' := by
  induction ops generalizing m c with
  | nil => cases hs; exact ⟨c, rfl, h⟩
  | cons op ops ih =>
    simp only [Mach.run, Option.bind_eq_some_iff] at hs
    obtain ⟨m1, h1, h2⟩ := hs
    obtain ⟨c1, g1, g2⟩ := h.step h1
    obtain ⟨c2, g3, g4⟩ := ih g2 h2
    exact ⟨c2, Scopes.run_app g1 g3, g4⟩

theorem lastIdx_left {p : Ent → Bool} {t u : Tab} {k : Nat} (hk : k ≤ t.length) :
    lastIdx p (t ++ u) k = lastIdx p t k := by
  induction k with
  | zero => rfl
  | succ k ih =>
    unfold lastIdx
    rw [List.getElem?_append_left (by omega), ih (by omega)]

theorem srcName_snoc (t : Tab) (e : Ent) (x : String) :
    srcName (t ++ [e]) x = if e.key = some x then some t.length else srcName t x := by
  unfold srcName
  rw [List.length_append, List.length_singleton]
  show (match (t ++ [e])[t.length]? with
    | some e => _
    | none => _) = _
  rw [List.getElem?_append_right (Nat.le_refl _), Nat.sub_self, List.getElem?_singleton, if_pos rfl]
  simp only [lastIdx_left (Nat.le_refl _)]
  by_cases hs : 0 ≤ e.scope <;> by_cases hn : e.name = x <;> simp [Ent.key, ScPROT, hs, hn]

theorem srcName_vis (t : Tab) (x : String) :
    srcName t x = ((visK 0 (t.map Ent.key)).find? fun d => d.2 == x).map Prod.fst := by
  induction t using List.reverseRecOn with
  | nil => rfl
  | append_singleton t e ih =>
    rw [srcName_snoc, List.map_append, visK_app, List.find?_append, ih]
    simp only [List.map_singleton, visK, List.nil_append, List.length_map, Nat.zero_add]
    cases hk : e.key with
    | none => simp
    | some y =>
      by_cases hy : y = x
      · subst hy; simp
      · simp [hy]

theorem Sim.lookup {m : Mach} {c : Scopes} (h : Sim m c) (x : String) :
    srcName m.tab x = c.lookup x := by
  rw [srcName_vis, Scopes.lookup, h.fits.all]

/-- C34 After any sequence of declarations, scope entries and exits, and function ends that the
name table accepts, looking up a name yields the number of its most recent declaration in the
innermost scope that has one. -/
theorem C34_lookup (ops : List Op) (m : Mach) (h : Mach.run {} ops = some m) :
    ∃ c : Scopes, Scopes.run {} (ops.flatMap Op.event) = some c ∧
      ∀ x, srcName m.tab x = c.lookup x := by
  have h0 : Sim {} {} := ⟨rfl, rfl, rfl⟩
  obtain ⟨c, h1, h2⟩ := h0.run h
  exact ⟨c, h1, h2.lookup⟩

/-- Sequences in which every scope that is opened is closed, and no other. -/
inductive Bal : List Op → Prop
  | nil : Bal []
  | decl (e : Ent) : Bal [.decl e]
  | scope (i : Nat) (c : Int) : Bal [.scope i c]
  | cnt (i c : Nat) : Bal [.cnt i c]
  | blk {a} : Bal a → Bal (.enter :: (a ++ [.leave]))
  | fn {a} : Bal a → Bal (.enter :: (a ++ [.forget]))
  | app {a b} : Bal a → Bal b → Bal (a ++ b)

theorem Mach.run_app {m : Mach} {a b : List Op} :
    m.run (a ++ b) = (m.run a).bind fun m => m.run b := by
  induction a generalizing m with
  | nil => rfl
  | cons op a ih =>
    simp only [List.cons_append, Mach.run]
    cases m.step op with
    | none => rfl
    | some m => exact ih

/-- What a balanced sequence leaves of the keys: it adds to the innermost scope. -/
theorem Bal.keys {a : List Op} (h : Bal a) : ∀ {m m' : Mach}, m.run a = some m' →
    m'.marks = m.marks ∧ m.tab.map Ent.key <+: m'.tab.map Ent.key := by
  induction h with
  | nil => intro m m' h; cases h; exact ⟨rfl, List.prefix_refl _⟩
  | decl e =>
    intro m m' h
    simp only [Mach.run, Mach.step, Option.bind_eq_some_iff, Option.map_eq_some_iff] at h
    obtain ⟨m1, ⟨t, h1, rfl⟩, h⟩ := h
    cases h
    rw [(defName_some h1).1]
    exact ⟨rfl, by rw [List.map_append]; exact List.prefix_append _ _⟩
  | scope i c =>
    intro m m' h
    simp only [Mach.run, Mach.step, Option.bind_eq_some_iff] at h
    obtain ⟨m1, h1, h⟩ := h
    cases h
    split at h1
    · rename_i hc
      cases h1
      refine ⟨rfl, ?_⟩
      rw [setScope, map_modify]
      intro e he
      rw [he] at hc
      have : 0 ≤ e.scope := by simpa using hc.2
      simp [Ent.key, hc.1, this]
    · cases h1
  | cnt i c =>
    intro m m' h
    cases h
    refine ⟨rfl, ?_⟩
    show _ <+: (setCnt m.tab i c).map Ent.key
    rw [setCnt, map_modify]
    intro e _; rfl
  | @blk a _ ih =>
    intro m m' h
    simp only [Mach.run, Mach.step, Option.bind_some, Mach.run_app, Option.bind_eq_some_iff] at h
    obtain ⟨m1, h1, h2⟩ := h
    obtain ⟨g1, g2⟩ := ih h1
    simp only [g1] at h2
    obtain ⟨m2, h2, h3⟩ := h2
    cases h2
    cases h3
    refine ⟨rfl, ?_⟩
    obtain ⟨y, hy⟩ := g2
    rw [setVoid_key, ← hy, List.take_append_of_le_length (by simp), List.take_of_length_le (by simp)]
    exact List.prefix_append _ _
  | @fn a _ ih =>
    intro m m' h
    simp only [Mach.run, Mach.step, Option.bind_some, Mach.run_app, Option.bind_eq_some_iff] at h
    obtain ⟨m1, h1, h2⟩ := h
    obtain ⟨g1, g2⟩ := ih h1
    simp only [g1] at h2
    obtain ⟨m2, h2, h3⟩ := h2
    cases h2
    cases h3
    refine ⟨rfl, ?_⟩
    obtain ⟨y, hy⟩ := g2
    show _ <+: (undefName m1.tab _).map Ent.key
    rw [undefName, List.map_take, ← hy, List.take_append_of_le_length (by simp),
      List.take_of_length_le (by simp)]
  | app _ _ ih1 ih2 =>
    intro m m' h
    rw [Mach.run_app, Option.bind_eq_some_iff] at h
    obtain ⟨m1, h1, h2⟩ := h
    obtain ⟨g1, g2⟩ := ih1 h1
    obtain ⟨g3, g4⟩ := ih2 h2
    exact ⟨g3.trans g1, g2.trans g4⟩

/-- C34 After a scope has been entered and left again, whatever happened in between, every name
resolves as before: the names declared in the scope are gone, all others are visible again. -/
theorem C34_block (ops : List Op) (hb : Bal ops) (m m' : Mach)
    (h : m.run (.enter :: (ops ++ [.leave])) = some m') (x : String) :
    srcName m'.tab x = srcName m.tab x := by
  simp only [Mach.run, Mach.step, Option.bind_some, Mach.run_app, Option.bind_eq_some_iff] at h
  obtain ⟨m1, h1, h2⟩ := h
  obtain ⟨g1, g2⟩ := hb.keys h1
  simp only [g1] at h2
  obtain ⟨m2, h2, h3⟩ := h2
  cases h2
  cases h3
  obtain ⟨y, hy⟩ := g2
  rw [srcName_vis, srcName_vis, setVoid_key, ← hy, List.take_append_of_le_length (by simp),
    List.take_of_length_le (by simp), visK_app, visK_none, List.nil_append]

/-- The names a function had are gone when it ends and its entries are forgotten; all others
are visible again. -/
theorem C34_function (ops : List Op) (hb : Bal ops) (m m' : Mach)
    (h : m.run (.enter :: (ops ++ [.forget])) = some m') (x : String) :
    srcName m'.tab x = srcName m.tab x := by
  simp only [Mach.run, Mach.step, Option.bind_some, Mach.run_app, Option.bind_eq_some_iff] at h
  obtain ⟨m1, h1, h2⟩ := h
  obtain ⟨g1, g2⟩ := hb.keys h1
  simp only [g1] at h2
  obtain ⟨m2, h2, h3⟩ := h2
  cases h2
  cases h3
  obtain ⟨y, hy⟩ := g2
  rw [srcName_vis, srcName_vis]
  show Option.map _ (List.find? _ (visK 0 ((undefName m1.tab _).map Ent.key))) = _
  rw [undefName, List.map_take, ← hy, List.take_append_of_le_length (by simp),
    List.take_of_length_le (by simp)]

/-- Declaring `a`, `f`; in a scope `a`; in another one `b` and `a`: the names resolve to the numbers
of the specification. -/
example : ∃ m, Mach.run {} [.decl ⟨"a", ScGVAR, TyINT, 0, 0, false⟩, .decl ⟨"f", ScFUNC, TyINT, 0, 0, false⟩,
      .enter, .decl ⟨"a", ScPRM, TyINT, 0, 0, false⟩, .enter, .decl ⟨"b", ScLVAR, TyINT, 0, 1, false⟩, .leave,
      .enter, .decl ⟨"c", ScLVAR, TyINT, 0, 1, false⟩] = some m ∧
    srcName m.tab "a" = some 2 ∧ srcName m.tab "b" = none ∧ srcName m.tab "c" = some 4 ∧
    srcName m.tab "f" = some 1 := ⟨_, rfl, by decide +kernel⟩

/-! ### The parser works on its table by such sequences of operations -/

/-- From `t` with the points `P` to `t'` with the points `P'` by a balanced sequence, and to the new
points by sequences of operations. -/
structure Hist (t : Tab) (P : List Tab) (t' : Tab) (P' : List Tab) : Prop where
  all : ∃ ops, Bal ops ∧ ∀ ms, Mach.run ⟨t, ms⟩ ops = some ⟨t', ms⟩
  pts : ∀ p ∈ P', p ∈ P ∨ ∃ ops k, ∀ ms, Mach.run ⟨t, ms⟩ ops = some ⟨p, k ++ ms⟩

theorem Hist.refl (t : Tab) (P : List Tab) : Hist t P t P := ⟨⟨[], .nil, fun _ => rfl⟩, fun _ => .inl⟩

theorem Hist.trans {t1 t2 t3 : Tab} {P1 P2 P3 : List Tab} (h : Hist t1 P1 t2 P2) (g : Hist t2 P2 t3 P3) :
    Hist t1 P1 t3 P3 := by
  obtain ⟨⟨a, ha, ha'⟩, hp⟩ := h
  obtain ⟨⟨b, hb, hb'⟩, gp⟩ := g
  refine ⟨⟨a ++ b, .app ha hb, fun ms => ?_⟩, fun p hpp => ?_⟩
  · rw [Mach.run_app, ha', Option.bind_some, hb']
  · rcases gp p hpp with g1 | ⟨ops, k, h1⟩
    · exact hp p g1
    · refine .inr ⟨a ++ ops, k, fun ms => ?_⟩
      rw [Mach.run_app, ha', Option.bind_some, h1]

theorem Hist.mark (t : Tab) (P : List Tab) : Hist t P t (t :: P) := by
  refine ⟨⟨[], .nil, fun _ => rfl⟩, fun p hp => ?_⟩
  rcases List.mem_cons.1 hp with h | h
  · subst h; exact .inr ⟨[], [], fun _ => rfl⟩
  · exact .inl h

theorem Hist.one {t t' : Tab} (P : List Tab) (op : Op) (hb : Bal [op])
    (h : ∀ ms, Mach.step ⟨t, ms⟩ op = some ⟨t', ms⟩) : Hist t P t' P :=
  ⟨⟨[op], hb, fun ms => by simp only [Mach.run, h, Option.bind_some]⟩, fun _ => .inl⟩

theorem Hist.decl {t t' : Tab} {e : Ent} (P : List Tab) (h : defName t e = some t') : Hist t P t' P :=
  .one P (.decl e) (.decl e) fun ms => by simp only [Mach.step, h, Option.map_some]

theorem Hist.leave {t t' : Tab} {P P' : List Tab} (h : Hist t P t' P') :
    Hist t P (setVoid t' t.length) P' := by
  obtain ⟨⟨a, ha, ha'⟩, hp⟩ := h
  refine ⟨⟨_, .blk ha, fun ms => ?_⟩, fun p hpp => ?_⟩
  · simp only [Mach.run, Mach.step, Option.bind_some, Mach.run_app, ha']
  · rcases hp p hpp with g1 | ⟨ops, k, h1⟩
    · exact .inl g1
    · refine .inr ⟨.enter :: ops, k ++ [t.length], fun ms => ?_⟩
      simp only [Mach.run, Mach.step, Option.bind_some, h1, List.append_assoc, List.singleton_append]

theorem Hist.forget {t t' : Tab} {P P' : List Tab} (h : Hist t P t' P') :
    Hist t P (undefName t' t.length) P' := by
  obtain ⟨⟨a, ha, ha'⟩, hp⟩ := h
  refine ⟨⟨_, .fn ha, fun ms => ?_⟩, fun p hpp => ?_⟩
  · simp only [Mach.run, Mach.step, Option.bind_some, Mach.run_app, ha']
  · rcases hp p hpp with g1 | ⟨ops, k, h1⟩
    · exact .inl g1
    · refine .inr ⟨.enter :: ops, k ++ [t.length], fun ms => ?_⟩
      simp only [Mach.run, Mach.step, Option.bind_some, h1, List.append_assoc, List.singleton_append]

theorem Hist.scope {t : Tab} {i : Nat} {c : Int} {e : Ent} (P : List Tab) (h : t[i]? = some e)
    (he : 0 ≤ e.scope) (hc : 0 ≤ c) : Hist t P (setScope t i c) P :=
  .one P (.scope i c) (.scope i c) fun ms => by simp [Mach.step, hc, h, he]

theorem Hist.cnt (t : Tab) (P : List Tab) (i c : Nat) : Hist t P (setCnt t i c) P :=
  .one P (.cnt i c) (.cnt i c) fun _ => rfl

theorem Fr.hist {s s' : PS} (f : Fr s s') : Hist s.tab s.pts s'.tab s'.pts := by
  rw [f.tab, f.pts]; exact .refl _ _

theorem Dcls.hist {ty : Int} {s s' : PS} (h : Dcls ty s s') : Hist s.tab s.pts s'.tab s'.pts := by
  induction h with
  | nil => exact .refl _ _
  | @snoc s1 s2 s' e _ f d ih =>
    refine (ih.trans f.hist).trans ?_
    rw [d.pts]
    exact (Hist.decl _ d.tab).trans (.mark _ _)

theorem getLVars_hist {o : Opts} {s s' : PS} {d : Stmt} (h : getLVars o s = some (d, s')) :
    Hist s.tab s.pts s'.tab s'.pts := by
  obtain ⟨d, ty, s1, s2, h1, f, -, rfl⟩ := (getLVars_some h).run
  exact (show Hist s.tab s.pts s1.tab s1.pts from h1.hist).trans f.hist

theorem getIni_hist {o : Opts} {s s' : PS} {i : Option Stmt} (h : getIni o s = some (i, s')) :
    Hist s.tab s.pts s'.tab s'.pts := by
  simp only [getIni, Option.bind_eq_bind, Option.bind_eq_some_iff] at h
  obtain ⟨⟨i, s1⟩, h1, s2, h2, h⟩ := h
  cases h
  refine Hist.trans ?_ (chkTok_fr h2).hist
  unfold getIni0 at h1
  split at h1
  · cases h1; exact .refl _ _
  · split at h1
    · rw [Option.map_eq_some_iff] at h1
      obtain ⟨⟨d, s3⟩, h3, h1⟩ := h1
      cases h1
      exact getLVars_hist h3
    · rw [Option.map_eq_some_iff] at h1
      obtain ⟨⟨w, s3⟩, h3, h1⟩ := h1
      cases h1
      exact (lev_fr h3).hist

theorem Run.hist {o : Opts} {ty : Int} {dim : Nat} {k : Option (Option Stmt)} {s s' : PS}
    {r : Option Stmt} (h : Run o ty dim k s r s') : Hist s.tab s.pts s'.tab s'.pts := by
  have mk : ∀ {s : PS} {t' : Tab} {P' : List Tab}, Hist s.mark.next.tab s.mark.next.pts t' P' →
      Hist s.tab s.pts t' P' := fun {s _ _} h => (Hist.mark s.tab s.pts).trans h
  induction h with
  | @simple s r s' h =>
    apply mk
    show Hist s.mark.next.tab _ s'.tab s'.pts
    cases h with
    | ret _ h => exact (getReturn_fr h).1.hist
    | brk _ _ h => exact (chkTok_fr h).hist
    | cnt _ _ h => exact (chkTok_fr h).hist
    | semi => exact .refl _ _
    | exp _ h1 h2 => exact ((lev_fr h1).trans (chkTok_fr h2)).hist
  | ifs _ h1 _ ih => exact mk ((getCond_fr h1).hist.trans ih)
  | els _ h1 _ _ _ ih1 ih2 => exact mk ((getCond_fr h1).hist.trans (ih1.trans ih2))
  | whl _ h1 _ ih => exact mk ((getCond_fr h1).hist.trans ih)
  | dos _ _ h2 h3 h4 ih =>
    exact mk (Hist.trans ih ((chkTok_fr h2).trans ((getCond_fr h3).trans (chkTok_fr h4))).hist)
  | @«for» s s1 ini s2 cnd s3 rini s4 a s5 _ h1 h2 h3 h4 _ ih =>
    have := (chkTok_fr h1).hist.trans ((getIni_hist h2).trans (((getForCond_fr h3).trans (getRini_fr h4)).hist.trans ih))
    exact mk (s := s) this.leave
  | blk _ _ ih => exact mk ih.leave
  | done => exact .refl _ _
  | decl h1 h2 _ ih => exact (getLVars_hist h1).trans ((chkTok_fr h2).hist.trans ih)
  | stat _ _ ih1 ih2 => exact ih1.trans ih2

theorem getBlock_hist {o : Opts} {ty : Int} {dim : Nat} {s s' : PS} {r : Option Stmt}
    (h : getBlock o ty dim s = some (r, s')) : Hist s.tab s.pts s'.tab s'.pts := by
  obtain ⟨l, s1, h1, h2⟩ := (run_all o ty dim).2.2.1 s _ h
  cases h2
  exact h1.hist.leave

theorem Defs.hist {P : Ent → Prop} {t t' : Tab} (h : Defs P t t') (Q : List Tab) : Hist t Q t' Q := by
  induction h with
  | nil => exact .refl _ _
  | snoc _ h2 _ ih => exact ih.trans (.decl Q h2)

/-- The table of a function body. -/
theorem hist_body {t x : Tab} {e : Ent} {old : Option Nat} (P : List Tab)
    (h1 : defName t e = some (t ++ [e])) (h2 : e.scope = ScPROT)
    (h3 : Defs IsPrm (t ++ [e]) (t ++ e :: x))
    (h4 : ∀ i, old = some i → ∃ d : Ent, t[i]? = some d ∧ d.scope = ScPROT ∧ d.name = e.name) :
    Hist t P (markOld old t ++ { e with cnt := x.length, scope := ScFUNC } :: x) P := by
  have g1 := (Hist.decl P h1).trans ((h3.hist P).trans (.cnt _ P t.length x.length))
  rw [setCnt_app] at g1
  have g2 : Hist t P (t ++ { e with cnt := x.length, scope := ScFUNC } :: x) P := by
    have := g1.trans (.scope (i := t.length) (c := ScFUNC) P
      (List.getElem?_append_right (Nat.le_refl _) |>.trans (by rw [Nat.sub_self]; rfl)) ?_ (by decide))
    · rw [setScope_app] at this
      exact this
    · show 0 ≤ e.scope
      rw [h2]
  cases old with
  | none => exact g2
  | some i =>
    obtain ⟨d, k1, k2, -⟩ := h4 i rfl
    have hi := (List.getElem?_eq_some_iff.1 k1).1
    have := g2.trans (.scope (i := i) (c := ScFUNC) P (by rw [List.getElem?_append_left hi]; exact k1)
      (by rw [k2]) (by decide))
    rw [setScope_left hi] at this
    exact this

theorem hist_top (o : Opts) : TopInv o fun t _ _ => Hist [] [] t [] where
  start := .refl _ _
  struct := by
    intro t d out e t2 h h1 _ _ h4
    refine h.trans ((Hist.decl _ h1).trans ?_)
    have := (h4.hist []).leave
    rw [show (t ++ [e]).length = t.length + 1 by simp] at this
    exact this.trans (.cnt _ _ _ _)
  typedef := by
    intro t d out e h h1 _ _
    exact h.trans (.decl _ h1)
  func := by
    intro t s s' e ty h _ h2 h3 _ _ hr
    obtain ⟨x, old, ho, ⟨hd, -⟩, hc⟩ := hr.run
    refine h.trans ?_
    rcases hc with ⟨-, ht⟩ | ⟨s2, s3, b, body, -, -, -, -, -, -, -, h8, -, -, -, -, -, -, ht⟩
    · rw [ht]
      cases old with
      | some i => exact .refl _ _
      | none =>
        have := (Hist.decl [] h2).trans ((hd.hist []).leave.trans (.cnt _ _ t.length x.length))
        rw [show t ++ e :: x = (t ++ [e]) ++ x by simp, setVoid_app, List.append_assoc,
          List.singleton_append, setCnt_app] at this
        exact this
    · rw [ht]
      cases old with
      | some i =>
        obtain ⟨d, k1, k2⟩ := h8 i rfl
        exact .scope _ k1 (by rw [k2]) (by decide)
      | none =>
        have := (Hist.decl [] h2).trans ((hd.hist []).leave.trans (.cnt _ _ t.length x.length))
        rw [show t ++ e :: x = (t ++ [e]) ++ x by simp, setVoid_app, List.append_assoc,
          List.singleton_append, setCnt_app] at this
        have g := this.trans (.scope (i := t.length) (c := ScFUNC) []
          (List.getElem?_append_right (Nat.le_refl _) |>.trans (by rw [Nat.sub_self]; rfl)) ?_ (by decide))
        · rw [setScope_app] at g
          exact g
        · show 0 ≤ e.scope
          rw [h3]
  var := by
    intro t d out e t' out' h h1 h2 _ hv _
    refine h.trans ?_
    rcases var_tab hv with rfl | ⟨i, d, k1, k2, -, -, rfl⟩ | ⟨-, rfl | rfl⟩
    · exact .refl _ _
    · exact .scope _ k1 (by rw [k2]; decide) (by decide)
    · exact .decl _ h1
    · have g := (Hist.decl [] h1).trans (.scope (i := t.length) (c := ScGVAR) []
          (List.getElem?_append_right (Nat.le_refl _) |>.trans (by rw [Nat.sub_self]; rfl)) ?_ (by decide))
      · rw [setScope_app] at g
        exact g
      · rw [h2]; decide

/-- The tables of the points of a function are made by operations on the name table. -/
def PtsReach : Out → Prop
  | .func _ _ _ _ _ pts => ∀ p ∈ pts, ∃ ops m, Mach.run {} ops = some m ∧ m.tab = p
  | _ => True

theorem ptsReach_inv (o : Opts) : TopInv o fun t _ out => Hist [] [] t [] ∧ ∀ x ∈ out, PtsReach x := by
  refine out_inv (hist_top o) (by intros; trivial) (by intros; trivial) ?_
  intro t s s' e ty x old s2 s3 b body h h1 h2 _ _ h5 h6 h7 _ _ _ hp _ h8 _ _ _ p hpp
  have g := hist_body (old := old) [] h1 h2 h5.1 h7
  rw [← h6] at g
  have g2 := getBlock_hist h8
  rw [hp] at g2
  rcases (h.trans (g.trans g2)).pts p hpp with k | ⟨ops, k, h⟩
  · cases k
  · exact ⟨ops, _, h [], rfl⟩

/-- C34 for the parser: the name table at every point of every function of an accepted program,
and the table at its end, are made by sequences of operations as in C34_lookup; so at every
point a name resolves to its most recent declaration in the innermost scope that has one. -/
theorem C34_parser (o : Opts) (toks : List Tok) (s : PS) (h : getSrc o (start toks) = some s) (t : Tab)
    (ht : t = s.tab ∨ ∃ f n src body tab pts, .func f n src body tab pts ∈ s.out ∧ t ∈ pts) :
    ∃ ops m c, Mach.run {} ops = some m ∧ m.tab = t ∧
      Scopes.run {} (ops.flatMap Op.event) = some c ∧ ∀ x, srcName t x = c.lookup x := by
  have hi := (ptsReach_inv o).final h
  have : ∃ ops m, Mach.run {} ops = some m ∧ m.tab = t := by
    rcases ht with rfl | ⟨f, n, src, body, tab, pts, h1, h2⟩
    · obtain ⟨ops, -, h1⟩ := hi.1.all
      exact ⟨ops, _, h1 [], rfl⟩
    · exact hi.2 _ h1 t h2
  obtain ⟨ops, m, h1, rfl⟩ := this
  obtain ⟨c, h2, h3⟩ := C34_lookup ops m h1
  exact ⟨ops, m, c, h1, rfl, h2, h3⟩

/-- A statement, a block in particular, leaves the resolution of all names as it was. -/
theorem C34_stat (o : Opts) (ty : Int) (dim : Nat) (s s' : PS) (r : Option Stmt)
    (h : getStat o ty dim s = some (r, s') ∨ getBlock o ty dim s = some (r, s')) (x : String) :
    srcName s'.tab x = srcName s.tab x := by
  have : Back s s' := h.elim getStat_back getBlock_back
  obtain ⟨y, hy, hy'⟩ := this.void
  rw [hy, srcName_vis, srcName_vis, List.map_append, visK_app]
  have : y.map Ent.key = List.replicate y.length none := by
    rw [List.eq_replicate_iff]
    refine ⟨by simp, fun k hk => ?_⟩
    rw [List.mem_map] at hk
    obtain ⟨e, he, rfl⟩ := hk
    simp [Ent.key, hy' e he]
  rw [this, visK_none, List.nil_append]

/-- A declarator declares its name: from then on the name is the new variable, all other
names are as before. -/
theorem C34_decl (o : Opts) (ty : Int) (s s' : PS) (d : Stmt) (h : getLVar o ty s = some (d, s')) :
    ∃ y r, s.toks = .name y :: r ∧ srcName s'.tab y = some s.tab.length ∧
      ∀ x, x ≠ y → srcName s'.tab x = srcName s.tab x := by
  simp only [getLVar, Option.bind_eq_bind, Option.bind_eq_some_iff] at h
  obtain ⟨s1, h1, h⟩ := h
  obtain ⟨y, g1, g2, -⟩ := getName_some h1
  have hs1 : s'.tab = s1.tab := by
    split at h
    · simp only [Option.bind_eq_some_iff] at h
      obtain ⟨⟨w, s2⟩, h2, w', -, h⟩ := h
      cases h
      exact ((Fr.next s1.mark).trans (lev_fr h2)).tab
    · cases h
      rfl
  refine ⟨y, s1.toks, g2, ?_, ?_⟩
  · rw [hs1, (defName_some g1).1, srcName_snoc]
    exact if_pos rfl
  · intro x hx
    rw [hs1, (defName_some g1).1, srcName_snoc, if_neg]
    intro hk
    exact hx (Option.some.inj hk).symm

/-- `int x; void f(int n) { n = x; { char x; { ; } } { char x; } n = x; }` -/
def prog34 : List Tok :=
  [Lx.INT, .name "x", Lx.semi, Lx.VOID, .name "f", Lx.lpar, Lx.INT, .name "n", Lx.rpar, Lx.lbrc,
   .name "n", Lx.eq, .name "x", Lx.semi,
   Lx.lbrc, Lx.CHAR, .name "x", Lx.semi, Lx.lbrc, Lx.semi, Lx.rbrc, Lx.rbrc,
   Lx.lbrc, Lx.CHAR, .name "x", Lx.semi, Lx.rbrc,
   .name "n", Lx.eq, .name "x", Lx.semi, Lx.rbrc]

/-- What x is at the points of the functions, from last to first. -/
def whatX (s : PS) : List (List (Option Nat)) :=
  s.out.filterMap fun
    | .func _ _ _ _ _ pts => some (pts.map fun t => srcName t "x")
    | _ => none

/-- The global x has index 0, the local ones 3 and 4. -/
example : ∃ s, getSrc ⟨false, false⟩ (start prog34) = some s ∧ whatX s =
    [[some 0, some 4, some 0, some 3, some 3, some 3, some 0, some 0]] :=
  run_ok 60 whatX (by decide +kernel)

end Cmm.Parse
