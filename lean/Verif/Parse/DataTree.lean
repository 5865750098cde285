import Verif.Parse.Ready4
import Verif.Parse.OptRen
import Verif.Parse.Sound
import Verif.Props.C57

/-
The trees of initial values that the parser builds, for Verif/Props/C69.lean: constants, addresses of functions and global
variables, and strings, in lists that are nested as the type says.
-/
namespace Cmm.Parse
open Cmm.Tree Cmm.Opt

/-! ### Constants -/

/-- Names of an expression are in the table. -/
theorem Ty.fixed {R : Rules} {T : Tab} {g : Int → Int} (hg : ∀ (n : Nat) (e : Ent), T[n]? = some e → IsNam e.scope → g n = n)
    {m : Nat} {x : SX} {ts : List (Int × Nat)} {e : Expr} (h : Ty R T m x ts e) : ren g e = e := by
  have hk : ∀ {n : Nat} {e : Ent} {k : Kind}, T[n]? = some e → VarKind e.scope k → renK g k n = n := by
    intro n e k h1 h2
    have hv : e.scope = ScCOMM ∨ e.scope = ScGVAR → g n = n := fun h => hg n e h1 (.inr h)
    generalize e.scope = c at h2 hv
    cases h2 with
    | comm => exact hv (.inl rfl)
    | gvar => exact hv (.inr rfl)
    | _ => rfl
  induction h with
  | int | chr | log | str | nul | sizeof => rfl
  | addrof h1 h2 =>
    refine congrArg (Expr.leaf Kind.addr) ?_
    rcases h2 with h2 | h2
    · exact hg _ _ h1.1 (.inl h2)
    · exact hk (k := .glb) h1.1 h2
  | var h1 h2 => exact congrArg _ (hk h1.1 h2)
  | call0 h1 h2 => exact congrArg _ (hg _ _ h1.1 (.inl h2))
  | call h1 h2 _ _ _ ih => simp only [ren, hg _ _ h1.1 (.inl h2), ih]
  | args _ _ ih1 ih2 => simp only [ren, ih1, ih2]
  | par _ ih => exact ih
  | conv h _ ih => cases h <;> simp only [ren, id, ih]
  | idx _ _ _ ih1 ih2 => simp only [ren, ih1, ih2]
  | fld _ _ _ _ ih => simp only [ren, ih]
  | pre h _ ih => cases h <;> simp only [ren, id, ih]
  | bin _ _ _ _ ih1 ih2 => simp only [ren, ih1, ih2]
  | ass _ _ _ _ hs ih1 ih2 =>
    cases hs with
    | var => simp only [ren, Expr.leaf.injEq, true_and] at ih1 ⊢; rw [ih1, ih2]
    | mem => simp only [ren, Expr.bin.injEq, true_and] at ih1 ⊢; rw [ih1.1, ih1.2, ih2]
  | com _ _ ih1 ih2 => simp only [ren, ih1, ih2]

/-- A constant, the address of something in the table, or a string. -/
def Leaf (T : Tab) : Gen.DT → Prop
  | .cnst _ | .str _ => True
  | .addr n => ∃ (i : Nat) (e : Ent), n = i ∧ T[i]? = some e ∧ IsNam e.scope
  | _ => False

theorem getCnst_leaf {ty : Int} {s s' : PS} {d : Gen.DT} (h : getCnst ty s = some (d, s')) : Leaf s.tab d := by
  simp only [getCnst, Option.bind_eq_bind, Option.bind_eq_some_iff] at h
  obtain ⟨⟨w, s1⟩, h1, w', h2, e, h3, d', h4, h⟩ := h
  cases h
  have hw : w'.tree = w.tree := by
    unfold chkCmpat at h2
    dsimp only at h2
    split at h2
    · cases h2
    · cases h2
      unfold autoCast
      split
      · rfl
      · split <;> rfl
  obtain ⟨x, hx⟩ := lev_sound h1 (by decide)
  unfold cnstTree at h4
  split at h4
  · cases h4; trivial
  · next n =>
    cases h4
    have key : ∀ g : Int → Int, (∀ (n : Nat) (e : Ent), s.tab[n]? = some e → IsNam e.scope → g n = n) → g n = n := by
      intro g hg
      have e1 := ren_optExp (g := g) w'.tree
      rw [hw, hx.ty.fixed hg, ← hw, h3] at e1
      simp only [Option.map_some, Option.some.injEq, ren, renK, Expr.leaf.injEq, true_and] at e1
      exact e1.symm
    classical
    by_contra hn
    have := key (fun n => if Leaf s.tab (.addr n) then n else n + 1) fun n e h1 h2 => if_pos ⟨n, e, rfl, h1, h2⟩
    simp only [hn, if_false] at this
    omega
  · cases h4; trivial
  · cases h4

/-! ### Lists -/

/-- The sizes of an array. -/
def Dims : Gen.DT → Prop
  | .cnst v => 0 < v
  | .addr _ | .str _ => True
  | .semi l (.cnst v) => Dims l ∧ 0 < v
  | .semi l (.addr _) | .semi l (.str _) => Dims l
  | _ => False

/-- The values of a list of bytes. -/
def Leaves (T : Tab) : Gen.DT → Prop
  | .semi l r => Leaves T l ∧ Leaves T r
  | d => Leaf T d

/-- The trees the parser builds: lists nested at most `k` deep; 1 is the mark of lists of bytes. -/
def Form (T : Tab) : Nat → Gen.DT → Prop
  | k, .semi l r => Form T k l ∧ Form T k r
  | 0, .list _ _ => False
  | k + 1, .list b r => if r = 1 then Leaves T b else Form T k b
  | 0, .arry _ _ => False
  | _ + 1, .arry d _ => Dims d
  | _, d => Leaf T d

variable {T : Tab} {s s' : PS} {d : Gen.DT} {ty : Int}

theorem Leaf.shape (h : Leaf T d) (k : Nat) : Form T k d := by
  cases d <;> first | cases h; done | (cases k <;> exact h)

theorem Form.mono (h : Form T 0 d) : ∀ k, Form T k d := by
  induction d with
  | semi l r ih1 ih2 => intro k; cases k <;> exact ⟨ih1 h.1 _, ih2 h.2 _⟩
  | list | arry => cases h
  | _ => intro k; cases k <;> exact h

theorem Leaf.leaves (h : Leaf T d) : Leaves T d := by
  cases d <;> first | cases h; done | exact h

theorem shape_cat {k : Nat} {l : Option Gen.DT} (hl : ∀ a, l = some a → Form T k a) (h : Form T k d) : Form T k (catD l d) := by
  cases l with
  | none => exact h
  | some a => cases k <;> exact ⟨hl a rfl, h⟩

theorem leaves_cat {l : Option Gen.DT} (hl : ∀ a, l = some a → Leaves T a) (h : Leaves T d) : Leaves T (catD l d) := by
  cases l with
  | none => exact h
  | some a => exact ⟨hl a rfl, h⟩

theorem getArray0_dims {dim : Nat} : ∀ {s s' : PS} {d : Gen.DT}, getArray0 dim s = some (d, s') → Dims d := by
  induction dim with
  | zero => intro s s' d h; cases h
  | succ dim ih =>
    intro s s' d h
    simp only [getArray0, Option.bind_eq_bind, Option.bind_eq_some_iff] at h
    obtain ⟨⟨a, s1⟩, h1, h⟩ := h
    have ha := getCnst_leaf h1
    split at h
    · cases h
    next hp =>
    have hp' : 0 < lVal a := by simpa using hp
    split at h
    · simp only [Option.bind_eq_some_iff] at h
      obtain ⟨⟨l, s2⟩, h2, h⟩ := h
      cases h
      have := ih h2
      cases a <;> first | cases ha; done | exact ⟨this, hp'⟩ | exact this
    · cases h
      cases a <;> first | cases ha; done | exact hp' | trivial

theorem getFldInit_leaf {e : Ent} (h : getFldInit e s = some (d, s')) : Leaf s.tab d := by
  unfold getFldInit at h
  split at h
  · obtain ⟨s1, -, h⟩ := Option.map_eq_some_iff.1 h
    cases h; trivial
  · split at h
    · split at h
      · split at h
        · cases h
        · cases h; trivial
      · cases h; trivial
      · cases h
    · split at h
      · exact getCnst_leaf h
      · cases h

theorem getStructInit0_shape {i : Nat} {l : Option Gen.DT} {r : Gen.DT × PS} (h : getStructInit0 i l s = some r)
    (hs : s.tab = T) (hl : ∀ a, l = some a → Form T 0 a) : Form T 0 r.1 := by
  revert hs hl
  refine getStructInit0.partial_correctness (fun i l s r => s.tab = T → (∀ a, l = some a → Form T 0 a) → Form T 0 r.1) ?_ i l s r h
  intro f ih i l s r h hs hl
  simp only [Option.bind_eq_bind, Option.bind_eq_some_iff] at h
  obtain ⟨e, -, h⟩ := h
  split at h
  · cases h
  · simp only [Option.bind_eq_some_iff] at h
    obtain ⟨⟨d, s1⟩, h1, h⟩ := h
    have g := shape_cat hl (hs ▸ (getFldInit_leaf h1).shape 0)
    split at h
    · refine ih _ _ _ _ h ?_ fun a ha => by cases ha; exact g
      exact (getFldInit_fr h1).tab.trans hs
    · split at h
      · split at h
        · cases h
        · cases h; exact g
      · cases h; exact g

theorem getStructInit_shape (h : getStructInit ty s = some (d, s')) (k : Nat) : Form s.tab (k + 1) d := by
  unfold getStructInit at h
  split at h
  · cases h; trivial
  · simp only [Option.bind_eq_bind, Option.bind_eq_some_iff] at h
    obtain ⟨⟨d1, s1⟩, h1, s2, h2, h⟩ := h
    cases h
    exact (getStructInit0_shape (T := s.tab) h1 rfl nofun).mono k
  · cases h

theorem getElm_shape (h : getElm ty s = some (d, s')) :
    Form s.tab 1 d ∧ (ty = TyCHAR ∨ ty = TyBOOL → Leaves s.tab d) := by
  unfold getElm at h
  split at h
  · next h0 =>
    refine ⟨getStructInit_shape h 0, fun h1 => absurd h0 ?_⟩
    rcases h1 with rfl | rfl <;> decide
  · split at h
    · have := getCnst_leaf h
      exact ⟨this.shape 1, fun _ => this.leaves⟩
    · cases h

theorem getElm_tab (h : getElm ty s = some (d, s')) : s'.tab = s.tab := by
  unfold getElm at h
  split at h
  · exact (getStructInit_fr h).tab
  · split at h
    · exact (getCnst_fr h).tab
    · cases h

theorem bytes_one {dim : Nat} (h : bytes ty dim = 1) : dim = 1 ∧ (ty = TyCHAR ∨ ty = TyBOOL) := by
  unfold bytes at h
  split at h
  · next h0 => exact ⟨by omega, h0⟩
  · cases h

/-- A value, or several: those of the last dimension of an array of bytes are constants. -/
def Elems (T : Tab) (ty : Int) (dim : Nat) (d : Gen.DT) : Prop := Form T dim d ∧ (bytes ty dim = 1 → Leaves T d)

theorem init_shape (ty : Int) :
    (∀ dim s r, initElm ty dim s = some r → 0 < dim → r.2.tab = s.tab ∧ Elems s.tab ty dim r.1) ∧
    (∀ dim s r, getGArrayInit ty dim s = some r → 0 < dim →
      r.2.tab = s.tab ∧ Form s.tab (dim + 1) r.1 ∧ Gen.single r.1 = true) ∧
    (∀ dim l s r, initLoop ty dim l s = some r → 0 < dim → (∀ a, l = some a → Elems s.tab ty dim a) →
      r.2.tab = s.tab ∧ Elems s.tab ty dim r.1) := by
  refine initElm.mutual_partial_correctness ty (fun dim s r => 0 < dim → r.2.tab = s.tab ∧ Elems s.tab ty dim r.1)
    (fun dim s r => 0 < dim → r.2.tab = s.tab ∧ Form s.tab (dim + 1) r.1 ∧ Gen.single r.1 = true)
    (fun dim l s r => 0 < dim → (∀ a, l = some a → Elems s.tab ty dim a) → r.2.tab = s.tab ∧ Elems s.tab ty dim r.1) ?_ ?_ ?_
  · intro g ih dim s r h hd
    split at h
    · have : dim = 1 := by omega
      subst this
      exact ⟨getElm_tab h, (getElm_shape h).1, fun hb => (getElm_shape h).2 (bytes_one hb).2⟩
    · obtain ⟨h1, h2, -⟩ := ih _ _ _ h (by omega)
      have : dim - 1 + 1 = dim := by omega
      rw [this] at h2
      exact ⟨h1, h2, fun hb => absurd (bytes_one hb).1 (by omega)⟩
  · intro g ih dim s r h hd
    split at h
    · simp only [Option.bind_eq_bind, Option.bind_eq_some_iff] at h
      obtain ⟨⟨d1, s1⟩, h1, s2, h2, h⟩ := h
      cases h
      obtain ⟨k1, k2, k3⟩ := ih _ _ _ _ h1 hd nofun
      refine ⟨(chkTok_fr h2).tab.trans k1, ?_, rfl⟩
      rw [Form]
      split
      · next hb => exact k3 hb
      · exact k2
    · split at h
      · cases h
      · cases h; exact ⟨rfl, trivial, rfl⟩
    · have := (getArray_fr h).tab
      simp only [getArray, Option.bind_eq_bind, Option.bind_eq_some_iff] at h
      obtain ⟨s1, h1, ⟨d1, s2⟩, h2, s3, h3, h⟩ := h
      cases h
      exact ⟨this, getArray0_dims h2, rfl⟩
    · cases h; exact ⟨rfl, trivial, rfl⟩
    · cases h
  · intro g l ih1 ih2 dim a s r h hd ha
    simp only [Option.bind_eq_bind, Option.bind_eq_some_iff] at h
    obtain ⟨⟨d1, s1⟩, h1, h⟩ := h
    obtain ⟨k1, k2, k3⟩ := ih1 _ _ _ h1 hd
    have hc : Elems s.tab ty dim (catD a d1) :=
      ⟨shape_cat (fun b hb => (ha b hb).1) k2, fun hb => leaves_cat (fun b hb' => (ha b hb').2 hb) (k3 hb)⟩
    split at h
    · have k1' : s1.next.tab = s.tab := k1
      have := ih2 _ _ _ _ h hd fun b hb => by
        cases hb
        rw [k1']
        exact hc
      rw [k1'] at this
      exact this
    · cases h
      exact ⟨k1, hc⟩

/-- The initial value of a variable. -/
theorem getInit_shape {dim : Nat} (h : getInit ty dim s = some (d, s')) : Form s.tab (dim + 1) d ∧ Gen.single d = true := by
  unfold getInit at h
  split at h
  · next hd =>
    obtain ⟨-, h1, h2⟩ := (init_shape ty).2.1 _ _ _ h hd
    exact ⟨h1, h2⟩
  · split at h
    · have := getCnst_leaf h
      exact ⟨this.shape _, by cases d <;> first | rfl | cases this⟩
    · split at h
      · refine ⟨getStructInit_shape h _, ?_⟩
        unfold getStructInit at h
        split at h
        · cases h; rfl
        · simp only [Option.bind_eq_bind, Option.bind_eq_some_iff] at h
          obtain ⟨⟨d1, s1⟩, h1, s2, h2, h⟩ := h
          cases h; rfl
        · cases h
      · cases h

/-! ### Without error, the trees are well formed -/

open Cmm.Gen (DT Dir genList0 genListLoop genList genArray0 genArray genElm genData genDW BytD WfD dimTree)

/-- Something at depth `d` that makes the code generator report an error: sizes or bytes that are not numbers. -/
def Bad : Nat → DT → Prop
  | d, .semi l r => Bad d l ∨ Bad d r
  | 0, .list b r => r = 1 ∧ ¬ BytD b
  | d + 1, .list b _ => Bad d b
  | 0, .arry e _ => ∀ ns, ns ≠ [] → e ≠ dimTree ns
  | _, _ => False

theorem dims_bug : ∀ {e : DT}, Dims e → (∀ ns, ns ≠ [] → e ≠ dimTree ns) → ∀ n d m, Dir.bug ∈ (genArray0 e n d m).1 := by
  intro e
  induction e with
  | cnst v =>
    intro h hn
    have h : 0 < v := h
    exact absurd (show DT.cnst v = dimTree [v.toNat] by simp only [dimTree]; congr 1; omega) (hn _ (by simp))
  | semi l r ihl ihr =>
    intro h hn n d m
    cases r with
    | cnst v =>
      have h' : Dims l ∧ 0 < v := h
      have hl : ∀ ns, ns ≠ [] → l ≠ dimTree ns := by
        intro ns hne e
        refine hn (v.toNat :: ns) (by simp) ?_
        obtain ⟨a, ns, rfl⟩ := List.exists_cons_of_ne_nil hne
        rw [dimTree, e]
        · congr 2; omega
        · simp
      have := ihl h'.1 hl (n * v.toNat) (d - 1) m
      simp only [genArray0]
      exact List.mem_append_left _ this
    | _ => simp [genArray0]
  | _ => intro h hn n d m; first | cases h; done | simp [genArray0]

theorem bytD_bug : ∀ {b : DT}, Leaves T b → ¬ BytD b → ∀ m, Dir.bug ∈ (genList0 b 0 true m).1 := by
  intro b
  induction b with
  | semi l r ihl ihr =>
    intro h hn m
    simp only [genList0]
    by_cases hl : BytD l
    · exact List.mem_append_right _ (ihr h.2 (fun hr => hn ⟨hl, hr⟩) _)
    · exact List.mem_append_left _ (ihl h.1 hl _)
  | cnst v => intro _ hn; exact absurd trivial hn
  | _ => intro h hn m; first | cases h; done | simp [genList0, genElm]

theorem bytD_pass : ∀ (b : DT) (d : Nat) (byt : Bool) (m : Nat), BytD (genList0 b d byt m).2.1 → BytD b := by
  intro b
  induction b with
  | semi l r ihl ihr => intro d byt m h; exact ⟨ihl d byt m h.1, ihr d byt _ h.2⟩
  | list b r ih =>
    intro d byt m h
    cases d with
    | zero => exact h
    | succ d => simp only [genList0] at h; split at h <;> cases h
  | arry e r ih =>
    intro d byt m h
    cases d with
    | zero => exact h
    | succ d => simp only [genList0] at h; split at h <;> cases h
  | _ => intro d byt m h; cases d <;> exact h

/-- Below a list at depth `d`. -/
def Under (T : Tab) : Nat → DT → Prop
  | d, .semi l r => Under T d l ∧ Under T d r
  | 0, .list b r => r = 1 → Leaves T b
  | d + 1, .list b _ => Under T d b
  | 0, .arry e _ => Dims e
  | _, _ => True

theorem leaves_under : ∀ {t : DT}, Leaves T t → ∀ d, Under T d t := by
  intro t
  induction t with
  | semi l r ihl ihr => intro h d; cases d <;> exact ⟨ihl h.1 _, ihr h.2 _⟩
  | list | arry => intro h; cases h
  | _ => intro _ d; cases d <;> trivial

theorem shape_under : ∀ {t : DT} {k : Nat}, Form T k t → ∀ d, Under T d t := by
  intro t
  induction t with
  | semi l r ihl ihr => intro k h d; cases k <;> cases d <;> exact ⟨ihl h.1 _, ihr h.2 _⟩
  | list b r ih =>
    intro k h d
    cases k with
    | zero => cases h
    | succ k =>
      rw [Form] at h
      cases d with
      | zero => intro hr; rw [if_pos hr] at h; exact h
      | succ d =>
        split at h
        · exact leaves_under h d
        · exact ih h d
  | arry e r ih =>
    intro k h d
    cases k with
    | zero => cases h
    | succ k => cases d with
      | zero => exact h
      | succ d => trivial
  | _ => intro k _ d; cases d <;> trivial

theorem bad_bug : ∀ {t : DT} {d : Nat}, Under T d t → Bad d t → ∀ byt m, Dir.bug ∈ (genList0 t (d + 1) byt m).1 := by
  intro t
  induction t with
  | semi l r ihl ihr =>
    intro d hu h byt m
    have hu' : Under T d l ∧ Under T d r := by cases d <;> exact hu
    have h' : Bad d l ∨ Bad d r := by cases d <;> exact h
    simp only [genList0]
    rcases h' with h' | h'
    · exact List.mem_append_left _ (ihl hu'.1 h' _ _)
    · exact List.mem_append_right _ (ihr hu'.2 h' _ _)
  | list b r ih =>
    intro d hu h byt m
    cases d with
    | zero =>
      obtain ⟨rfl, hb⟩ := h
      simp only [genList0, if_true, decide_true]
      exact List.mem_cons_of_mem _ (bytD_bug (hu rfl) hb _)
    | succ d =>
      simp only [genList0, Nat.succ_ne_zero, if_false]
      exact ih hu h _ _
  | arry e r ih =>
    intro d hu h byt m
    cases d with
    | zero =>
      simp only [genList0, if_true, genArray]
      exact dims_bug hu h _ _ _
    | succ d => cases h
  | _ => intro d _ h; cases d <;> cases h

theorem bad_pass : ∀ {t : DT} {d e : Nat}, d < e → Bad d t → ∀ byt m, Bad d (genList0 t (e + 1) byt m).2.1 := by
  intro t
  induction t with
  | semi l r ihl ihr =>
    intro d e hd h byt m
    have h' : Bad d l ∨ Bad d r := by cases d <;> exact h
    have : Bad d (genList0 l (e + 1) byt m).2.1 ∨ Bad d (genList0 r (e + 1) byt (genList0 l (e + 1) byt m).2.2).2.1 :=
      h'.imp (ihl hd · _ _) (ihr hd · _ _)
    simp only [genList0]
    cases d <;> exact this
  | list b r ih =>
    intro d e hd h byt m
    have he : e ≠ 0 := by omega
    obtain ⟨e, rfl⟩ := Nat.exists_eq_succ_of_ne_zero he
    simp only [genList0, Nat.succ_ne_zero, if_false]
    cases d with
    | zero => exact ⟨h.1, fun hb => h.2 (bytD_pass _ _ _ _ hb)⟩
    | succ d => exact ih (by omega) h _ _
  | arry a r ih =>
    intro d e hd h byt m
    have he : e ≠ 0 := by omega
    simp only [genList0, he, if_false]
    exact h
  | _ => intro d e _ h; cases d <;> cases h

theorem leaves_pass : ∀ {b : DT}, Leaves T b → ∀ d byt m, (genList0 b d byt m).2.1 = b := by
  intro b
  induction b with
  | semi l r ihl ihr => intro h d byt m; simp only [genList0]; rw [ihl h.1, ihr h.2]
  | list | arry => intro h; cases h
  | _ => intro _ d byt m; cases d <;> rfl

theorem under_pass : ∀ {t : DT} {d e : Nat}, d < e → Under T d t → ∀ byt m, Under T d (genList0 t (e + 1) byt m).2.1 := by
  intro t
  induction t with
  | semi l r ihl ihr =>
    intro d e hd h byt m
    have h' : Under T d l ∧ Under T d r := by cases d <;> exact h
    have : Under T d (genList0 l (e + 1) byt m).2.1 ∧ Under T d (genList0 r (e + 1) byt (genList0 l (e + 1) byt m).2.2).2.1 :=
      ⟨ihl hd h'.1 _ _, ihr hd h'.2 _ _⟩
    simp only [genList0]
    cases d <;> exact this
  | list b r ih =>
    intro d e hd h byt m
    have he : e ≠ 0 := by omega
    obtain ⟨e, rfl⟩ := Nat.exists_eq_succ_of_ne_zero he
    simp only [genList0, Nat.succ_ne_zero, if_false]
    cases d with
    | zero => intro hr; rw [leaves_pass (h hr)]; exact h hr
    | succ d => exact ih (by omega) h _ _
  | arry a r ih =>
    intro d e hd h byt m
    have he : e ≠ 0 := by omega
    simp only [genList0, he, if_false]
    exact h
  | _ => intro d e _ h byt m; cases d <;> exact h

theorem loop_bug : ∀ (n : Nat) {t : DT} {d : Nat}, d < n → Under T d t → Bad d t → ∀ m, Dir.bug ∈ (genListLoop n t m).1
  | 0, _, _, hd, _, _, _ => by omega
  | n + 1, t, d, hd, hu, h, m => by
    simp only [genListLoop]
    by_cases hn : d = n
    · subst hn
      exact List.mem_append_left _ (bad_bug hu h _ _)
    · exact List.mem_append_right _ (loop_bug n (by omega) (under_pass (by omega) hu _ _) (bad_pass (by omega) h _ _) _)

theorem shape_wf : ∀ {t : DT} {k : Nat}, Form T k t → (∀ d, d < k → ¬ Bad d t) → WfD k t := by
  intro t
  induction t with
  | semi l r ihl ihr =>
    intro k h hb
    have h' : Form T k l ∧ Form T k r := by cases k <;> exact h
    have hl : WfD k l := ihl h'.1 fun d hd hx => hb d hd (by cases d <;> exact .inl hx)
    have hr : WfD k r := ihr h'.2 fun d hd hx => hb d hd (by cases d <;> exact .inr hx)
    cases k <;> exact ⟨hl, hr⟩
  | list b r ih =>
    intro k h hb
    cases k with
    | zero => cases h
    | succ k =>
      rw [Form] at h
      rw [WfD]
      split at h
      · next hr =>
        rw [if_pos hr]
        by_contra hn
        exact hb 0 (by omega) ⟨hr, hn⟩
      · next hr =>
        rw [if_neg hr]
        exact ih h fun d hd hx => hb (d + 1) (by omega) hx
  | arry e r ih =>
    intro k h hb
    cases k with
    | zero => cases h
    | succ k =>
      by_contra hn
      refine hb 0 (by omega) fun ns h1 h2 => hn ⟨ns, h1, h2⟩
  | other => intro k h; cases k <;> cases h
  | _ => intro k h hb; cases k <;> trivial

/-- The initial value of a variable is well formed if the code generator does not report an error. -/
theorem init_wf {idx : Int} {dim k : Nat} (h : Form T (dim + 1) d) (hb : Dir.bug ∉ (genData idx dim d k).1) : WfD (dim + 1) d := by
  cases d with
  | list b r =>
    refine shape_wf h fun j hj hx => hb ?_
    simp only [genData, genList]
    exact List.mem_append_left _ (loop_bug _ hj (shape_under h j) hx _)
  | arry e r =>
    by_contra hn
    refine hb ?_
    simp only [genData, genArray]
    exact List.mem_append_left _ (dims_bug h (fun ns h1 h2 => hn ⟨ns, h1, h2⟩) _ _ _)
  | semi l r => 
    refine absurd (List.mem_append_right _ ?_) hb
    simp [genDW]
  | other => cases h
  | _ => trivial

end Cmm.Parse
