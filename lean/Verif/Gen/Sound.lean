import Verif.Gen.Run

/- Correctness of the code for expressions (used by C44 and C45). -/
namespace Cmm.Gen
open Cmm.Tree

variable {σ : Type} {w : World σ} {P : List Instr} {nt : NT}

/-- Arrays of references and fields of structures are accessed as words, arrays of booleans as
bytes; a field is the word at its offset in the structure. -/
structure Layout (w : World σ) (nt : NT) : Prop where
  ldR : w.load .idxr = w.load .idxi
  ldB : w.load .idxb = w.load .idxc
  ldD : ∀ idx : Int, 0 ≤ idx → idx < 500 → ∀ a s,
    w.load .dot a (BitVec.ofInt 16 idx) s = w.load .idxi a (BitVec.ofInt 16 (nt.cnt idx)) s
  stR : w.store .idxr = w.store .idxi
  stB : w.store .idxb = w.store .idxc
  stD : ∀ idx : Int, 0 ≤ idx → idx < 500 → ∀ a v s,
    w.store .dot a (BitVec.ofInt 16 idx) v s = w.store .idxi a (BitVec.ofInt 16 (nt.cnt idx)) v s
  okR : w.ok .idxr = w.ok .idxi
  okB : w.ok .idxb = w.ok .idxc
  okD : ∀ idx : Int, 0 ≤ idx → idx < 500 → ∀ a,
    w.ok .dot a (BitVec.ofInt 16 idx) = w.ok .idxi a (BitVec.ofInt 16 (nt.cnt idx))

/-- What is on the stack for a place: the words `ext`; the value is then `vs`. -/
def Holds (w : World σ) : Place → List Word → σ → List Word → Prop
  | .stkd, vs, _, ext => ∃ v, vs = [v] ∧ ext = [v]
  | .cnst c, vs, _, ext => vs = [BitVec.ofInt 16 c] ∧ ext = []
  | .gvar n, vs, s, ext => vs = [w.read .glb n s] ∧ ext = []
  | .lvar n, vs, s, ext => vs = [w.read .loc n s] ∧ ext = []
  | .prm n, vs, s, ext => vs = [w.read .prm n s] ∧ ext = []
  | .str n, vs, s, ext => vs = [w.read .str n s] ∧ ext = []
  | .labl n, vs, s, ext => vs = [w.read .addr n s] ∧ ext = []
  | .stkw, vs, s, ext => ∃ a i, vs = [w.load .idxi a i s] ∧ ext = [i, a] ∧ w.ok .idxi a i = true
  | .stkb, vs, s, ext => ∃ a i, vs = [w.load .idxc a i s] ∧ ext = [i, a] ∧ w.ok .idxc a i = true
  | .inval, vs, _, ext => (∃ v, vs = [v]) ∧ ext = []

theorem Holds.single {p : Place} {vs : List Word} {s : σ} {ext : List Word}
    (h : Holds w p vs s ext) : ∃ v, vs = [v] := by
  cases p <;> simp only [Holds] at h
  case stkd => obtain ⟨v, h, -⟩ := h; exact ⟨v, h⟩
  case stkw => obtain ⟨a, i, h, -⟩ := h; exact ⟨_, h⟩
  case stkb => obtain ⟨a, i, h, -⟩ := h; exact ⟨_, h⟩
  case inval => exact h.1
  all_goals exact ⟨_, h.1⟩

/-- The code `b` does what `d` says, leaving the value in its place. -/
def BOK (w : World σ) (P : List Instr) (b : Nat → BRes) (d : Den σ) : Prop :=
  ∀ n pc, At P pc (b n).1 → ∀ st ar rg s,
    Runs w P ⟨pc, ⟨st, ar, rg, s⟩⟩ (d s) fun r c' =>
      ∃ ext, c' = ⟨pc + (b n).1.length, ⟨ext ++ st, ar, rg, r.2⟩⟩ ∧ Holds w (b n).2.1 r.1 r.2 ext

/-- The code of genExpr does what `d` says and pushes the value. -/
def VOK (w : World σ) (P : List Instr) (b : Nat → BRes) (d : Den σ) : Prop :=
  ∀ n pc, At P pc (genE b n).1 → ∀ st ar rg s,
    Runs w P ⟨pc, ⟨st, ar, rg, s⟩⟩ (d s) fun r c' =>
      ∃ v, r.1 = [v] ∧ c' = ⟨pc + (genE b n).1.length, ⟨v :: st, ar, rg, r.2⟩⟩

theorem load_steps {p : Place} {vs : List Word} {s : σ} {ext : List Word} {pc : Nat}
    (hp : p ≠ .inval) (h : At P pc (load p)) (hh : Holds w p vs s ext) (st ar rg) :
    ∃ v, vs = [v] ∧ Steps w P ⟨pc, ⟨ext ++ st, ar, rg, s⟩⟩
      ⟨pc + (load p).length, ⟨v :: st, ar, rg, s⟩⟩ := by
  cases p <;> simp only [Holds] at hh
  case inval => exact absurd rfl hp
  case stkd => obtain ⟨v, rfl, rfl⟩ := hh; exact ⟨v, rfl, .refl⟩
  case stkw => obtain ⟨a, i, rfl, rfl, ho⟩ := hh; exact ⟨_, rfl, step1 h (if_pos ho)⟩
  case stkb => obtain ⟨a, i, rfl, rfl, ho⟩ := hh; exact ⟨_, rfl, step1 h (if_pos ho)⟩
  all_goals obtain ⟨rfl, rfl⟩ := hh; exact ⟨_, rfl, step1 h rfl⟩

theorem pop_steps {p : Place} {vs : List Word} {s : σ} {ext : List Word} {pc : Nat}
    (h : At P pc (popP p)) (hh : Holds w p vs s ext) (st ar rg) :
    Steps w P ⟨pc, ⟨ext ++ st, ar, rg, s⟩⟩ ⟨pc + (popP p).length, ⟨st, ar, rg, s⟩⟩ := by
  cases p <;> simp only [Holds] at hh
  case inval => obtain ⟨-, rfl⟩ := hh; exact .refl
  case stkd => obtain ⟨v, rfl, rfl⟩ := hh; exact step1 h rfl
  case stkw => obtain ⟨a, i, rfl, rfl, -⟩ := hh; exact (step1 h rfl).trans (step1 h.tail rfl)
  case stkb => obtain ⟨a, i, rfl, rfl, -⟩ := hh; exact (step1 h rfl).trans (step1 h.tail rfl)
  all_goals obtain ⟨-, rfl⟩ := hh; exact .refl

theorem BOK.val {b : Nat → BRes} {d : Den σ} (h : BOK w P b d) (hp : ∀ n, (b n).2.1 ≠ .inval) :
    VOK w P b d := by
  intro n pc hat st ar rg s
  have hat' : At P pc ((b n).1 ++ load (b n).2.1) := hat
  obtain ⟨h1, h2⟩ := at_append.1 hat'
  have := h n pc h1 st ar rg s
  cases hd : d s with
  | none => rw [hd] at this; exact this
  | some r =>
    rw [hd] at this
    obtain ⟨c', hs, ext, rfl, hh⟩ := this
    obtain ⟨v, hv, hs'⟩ := load_steps (hp n) h2 hh st ar rg
    refine ⟨_, hs.trans hs', v, hv, ?_⟩
    simp only [genE, List.length_append]
    rw [Nat.add_assoc]

/-! ### Operators -/

theorem two_ok {bl br : Nat → BRes} {dl dr : Den σ} (hl : VOK w P bl dl) (hr : VOK w P br dr)
    {o : A2} {g : Word → Word → Bool} {f : Word → Word → σ → Word} (hf : ∀ x y s, f x y s = a2Val w o x y)
    (hg : ∀ x y, g x y = okA w o x y) : BOK w P (genTwo bl br [.a2 o] .stkd) (strictG g f dl dr) := by
  intro n pc hat st ar rg s
  simp only [genTwo] at hat
  obtain ⟨h12, h3⟩ := at_append.1 hat
  obtain ⟨h1, h2⟩ := at_append.1 h12
  refine (hl n pc h1 st ar rg s).bind1 ?_
  rintro vs s1 c' - ⟨x, hx, rfl⟩
  refine (hr _ _ h2 (x :: st) ar rg s1).bind1 ?_
  rintro us s2 c' - ⟨y, hy, rfl⟩
  cases hx; cases hy
  rw [List.length_append, ← Nat.add_assoc] at h3
  refine Runs.guard (fun ht => by rw [hg]; exact okA_total ht o x y) fun hk => ?_
  refine ⟨_, step1 h3 (if_pos (by rw [← hg]; exact hk)), [f x y s2], ?_, ⟨_, rfl, rfl⟩⟩
  simp [hf, genTwo, Nat.add_assoc]

theorem two_ok_rl {bl br : Nat → BRes} {dl dr : Den σ} (hl : VOK w P bl dl) (hr : VOK w P br dr)
    {o : A2} {g : Word → Word → Bool} {f : Word → Word → σ → Word} (hf : ∀ x y s, f x y s = a2Val w o y x)
    (hg : ∀ x y, g x y = okA w o y x) : BOK w P (genTwo br bl [.a2 o] .stkd) (strictRL g f dl dr) :=
  two_ok (g := fun x y => g y x) (f := fun x y s => f y x s) hr hl (fun x y s => hf y x s) fun x y => hg y x

theorem idx_ok {bl br : Nat → BRes} {dl dr : Den σ} (hl : VOK w P bl dl) (hr : VOK w P br dr)
    {op op' : Bin} {p : Place} (hw : w.load op = w.load op') (hk : w.ok op = w.ok op')
    (hp : (p = .stkw ∧ op' = .idxi) ∨ (p = .stkb ∧ op' = .idxc)) :
    BOK w P (genTwo bl br [] p) (strictG (w.ok op) (w.load op) dl dr) := by
  intro n pc hat st ar rg s
  simp only [genTwo, List.append_nil] at hat
  obtain ⟨h1, h2⟩ := at_append.1 hat
  refine (hl n pc h1 st ar rg s).bind1 ?_
  rintro vs s1 c' - ⟨x, hx, rfl⟩
  refine (hr _ _ h2 (x :: st) ar rg s1).bind1 ?_
  rintro us s2 c' - ⟨y, hy, rfl⟩
  cases hx; cases hy
  refine Runs.guard (fun ht => ht _ _ _) fun ho => ?_
  refine ⟨_, .refl, [y, x], ?_, ?_⟩
  · simp [genTwo, Nat.add_assoc]
  · rw [hw]
    rw [hk] at ho
    rcases hp with ⟨rfl, rfl⟩ | ⟨rfl, rfl⟩ <;> exact ⟨x, y, rfl, rfl, ho⟩

theorem dot_ok (L : Layout w nt) {bl : Nat → BRes} {dl : Den σ} (hl : VOK w P bl dl) {idx : Int}
    (h0 : 0 ≤ idx) (h1 : idx < 500) {dr : Den σ}
    (hr : ∀ s, dr s = some ([BitVec.ofInt 16 idx], s)) :
    BOK w P (genDotExpr nt bl (.cnst idx)) (strictG (w.ok .dot) (w.load .dot) dl dr) := by
  intro n pc hat st ar rg s
  simp only [genDotExpr] at hat
  obtain ⟨h2, h3⟩ := at_append.1 hat
  refine (hl n pc h2 st ar rg s).bind1 ?_
  rintro vs s1 c' - ⟨x, hx, rfl⟩
  cases hx
  rw [hr]
  refine Runs.guard (fun ht => ht _ _ _) fun ho => ?_
  have ho : w.ok .dot x (BitVec.ofInt 16 idx) = true := ho
  refine ⟨_, step1 h3 rfl, [BitVec.ofInt 16 (nt.cnt idx), x], ?_, ⟨x, _, ?_, rfl, by rw [← L.okD idx h0 h1]; exact ho⟩⟩
  · simp [genDotExpr, Nat.add_assoc]
  · simp [L.ldD idx h0 h1]

theorem comm_ok {bl br : Nat → BRes} {dl dr : Den σ} {f : Word → Word → σ → Word}
    (hf : ∀ x y s, f x y s = y) (hl : BOK w P bl dl) (hr : BOK w P br dr) :
    BOK w P (genCommExpr bl br) (strictG (fun _ _ => true) f dl dr) := by
  intro n pc hat st ar rg s
  simp only [genCommExpr] at hat
  obtain ⟨h12, h3⟩ := at_append.1 hat
  obtain ⟨h1, h2⟩ := at_append.1 h12
  rw [List.length_append, ← Nat.add_assoc] at h3
  refine (hl n pc h1 st ar rg s).bind1 ?_
  rintro vs s1 c' - ⟨ext, rfl, hh⟩
  refine Runs.pre (pop_steps h2 hh st ar rg) ?_
  refine (hr _ _ h3 st ar rg s1).bind1 ?_
  rintro us s2 c' - ⟨ext', rfl, hh'⟩
  obtain ⟨v, hv⟩ := hh'.single
  cases hv
  show Runs w P _ (some _) _
  refine ⟨_, .refl, ext', ?_, ?_⟩
  · simp [genCommExpr, Nat.add_assoc]
  · rw [hf]; exact hh'

theorem assV_ok {br : Nat → BRes} {dr : Den σ} (hr : VOK w P br dr) {k : Kind} {v : Int}
    (hk : k = .loc ∨ k = .prm ∨ k = .glb) :
    BOK w P (genAsExpr (fun n => leafPlace k v ([], .inval, n)) br) (assVD w k v dr) := by
  intro n pc hat st ar rg s
  rcases hk with rfl | rfl | rfl <;>
  · simp only [genAsExpr, leafPlace, List.append_nil] at hat
    obtain ⟨h1, h2⟩ := at_append.1 hat
    refine (hr n pc h1 st ar rg s).bind1 ?_
    rintro vs s1 c' - ⟨x, hx, rfl⟩
    cases hx
    refine ⟨_, step1 h2 rfl, [x], ?_, ⟨x, rfl, rfl⟩⟩
    simp [genAsExpr, leafPlace, store, Nat.add_assoc]

theorem assM_ok {ba bi br : Nat → BRes} {da di dr : Den σ} (ha : VOK w P ba da)
    (hi : VOK w P bi di) (hr : VOK w P br dr) {op op' : Bin} {p : Place}
    (hw : w.store op = w.store op') (hk : w.ok op = w.ok op')
    (hp : (p = .stkw ∧ op' = .idxi) ∨ (p = .stkb ∧ op' = .idxc)) :
    BOK w P (genAsExpr (genTwo ba bi [] p) br) (assMG w op da di dr) := by
  intro n pc hat st ar rg s
  simp only [genAsExpr, genTwo, List.append_nil] at hat
  obtain ⟨h123, h4⟩ := at_append.1 hat
  obtain ⟨h1, h23⟩ := at_append.1 h123
  obtain ⟨h2, h3⟩ := at_append.1 h23
  refine (hr n pc h1 st ar rg s).bind1 ?_
  rintro vs s1 c' - ⟨v, hv, rfl⟩
  refine (ha _ _ h2 (v :: st) ar rg s1).bind1 ?_
  rintro us s2 c' - ⟨x, hx, rfl⟩
  refine (hi _ _ h3 (x :: v :: st) ar rg s2).bind1 ?_
  rintro us s3 c' - ⟨y, hy, rfl⟩
  cases hv; cases hx; cases hy
  rw [List.length_append, List.length_append, ← Nat.add_assoc, ← Nat.add_assoc] at h4
  refine Runs.guard (fun ht => ht _ _ _) fun ho => ?_
  rw [hk] at ho
  rcases hp with ⟨rfl, rfl⟩ | ⟨rfl, rfl⟩ <;>
  · refine ⟨_, step1 h4 (if_pos ho), [v], ?_, ⟨v, rfl, rfl⟩⟩
    simp [genAsExpr, genTwo, store, Nat.add_assoc, hw]

theorem assDot_ok (L : Layout w nt) {ba br : Nat → BRes} {da di dr : Den σ} (ha : VOK w P ba da)
    (hr : VOK w P br dr) {idx : Int} (h0 : 0 ≤ idx) (h5 : idx < 500)
    (hi : ∀ s, di s = some ([BitVec.ofInt 16 idx], s)) :
    BOK w P (genAsExpr (genDotExpr nt ba (.cnst idx)) br) (assMG w .dot da di dr) := by
  intro n pc hat st ar rg s
  simp only [genAsExpr, genDotExpr] at hat
  obtain ⟨h123, h4⟩ := at_append.1 hat
  obtain ⟨h1, h23⟩ := at_append.1 h123
  obtain ⟨h2, h3⟩ := at_append.1 h23
  refine (hr n pc h1 st ar rg s).bind1 ?_
  rintro vs s1 c' - ⟨v, hv, rfl⟩
  refine (ha _ _ h2 (v :: st) ar rg s1).bind1 ?_
  rintro us s2 c' - ⟨x, hx, rfl⟩
  cases hv; cases hx
  rw [hi]
  simp only [List.length_append, ← Nat.add_assoc] at h4
  refine Runs.guard (fun ht => ht _ _ _) fun ho => ?_
  have ho : w.ok .dot x (BitVec.ofInt 16 idx) = true := ho
  rw [L.okD idx h0 h5] at ho
  refine ⟨_, (step1 h3 rfl).trans (step1 h4 (if_pos ho)), [v], ?_, ⟨v, rfl, rfl⟩⟩
  simp [genAsExpr, genDotExpr, store, Nat.add_assoc, L.stD idx h0 h5]

theorem un_ok {b : Nat → BRes} {d : Den σ} (h : VOK w P b d) (op : Un) :
    BOK w P (fun n => ((genE b n).1 ++ [unInstr op], .stkd, (genE b n).2))
      (unD (unVal op) d) := by
  intro n pc hat st ar rg s
  obtain ⟨h1, h2⟩ := at_append.1 hat
  refine (h n pc h1 st ar rg s).bind1 ?_
  rintro vs s1 c' - ⟨v, hv, rfl⟩
  cases hv
  have : ∃ o, unInstr op = .a1 o ∧ a1Val o v = unVal op v := by
    cases op <;> refine ⟨_, rfl, ?_⟩ <;> simp [a1Val, unVal]
  obtain ⟨o, ho, hv⟩ := this
  rw [ho] at h2
  refine ⟨_, step1 h2 rfl, [a1Val o v], ?_, ⟨_, ?_, rfl⟩⟩
  · simp [Nat.add_assoc]
  · simp [hv]

end Cmm.Gen
