import Verif.Tac.Full5

/-
C60: a whole program of functions that call each other, translated by src/vm2tac.c, on the TaC machine with CALL
and RET (Verif/Tac/Full.lean). If the stack code of function `f` returns `v` (`ev`), then CALL f comes back to the
next line with `v` in G0, with the memory the stack code leaves, and with SP, FP and the register variables of
the caller as they were.
-/
namespace Cmm.Tac
open Cmm.Tree (World)
open Cmm.Gen (Instr A1 A2 Data Cfg Step Steps Idle UniqueLabels)

/-! ### The specification does not depend on choices -/

section
variable {E : Env} {L : Lay} {fns : List Fn} {ext : Int → List Word → Mem → Option (Word × Mem)}

theorem Gen.Steps.app {σ : Type} {w : World σ} {P : List Instr} {a b c : Cfg σ} (h : Steps w P a b) (h' : Steps w P b c) :
    Steps w P a c := by
  induction h with
  | refl => exact h'
  | head h _ ih => exact .head h (ih h')

/-- A call has at most one result. -/
theorem C60_ret_unique {call : Int → List Word → Mem → Option (Word × Mem)} {fn : Fn} {vs : List Word} {mem : Mem} {v v' : Word}
    {mem' mem'' : Mem} (hu : UniqueLabels fn.body) (h : Ret E L call fn vs mem v mem') (h' : Ret E L call fn vs mem v' mem'') :
    v = v' ∧ mem' = mem'' := by
  obtain ⟨-, h⟩ := h
  obtain ⟨-, h'⟩ := h'
  obtain ⟨s1, r1, e1, h⟩ := h (fun _ => 0) 0
  obtain ⟨s2, r2, e2, h'⟩ := h' (fun _ => 0) 0
  have stop : ∀ {d : Data AS} {c : Cfg AS}, ¬ Step (aworld E L fn.cnt call) fn.body ⟨fn.body.length, d⟩ c := by
    intro d c hc
    have : fn.body[fn.body.length]? = none := List.getElem?_eq_none (Nat.le_refl _)
    cases hc <;> simp_all
  by_cases hv : E.val fn.f = true
  · rw [if_pos hv] at h h'
    obtain ⟨p1, a1, b1, c1⟩ := h
    obtain ⟨p2, a2, b2, c2⟩ := h'
    have k1 := Gen.Steps.app a1 (.head (.next (d' := ⟨[], [], v, s1⟩) b1 rfl) c1.steps)
    have k2 := Gen.Steps.app a2 (.head (.next (d' := ⟨[], [], v', s2⟩) b2 rfl) c2.steps)
    have := Steps.det hu k1 k2 (fun c => stop) (fun c => stop)
    cases this
    exact ⟨rfl, by rw [← e1, ← e2]⟩
  · rw [if_neg hv] at h h'
    have := Steps.det hu h.1 h'.1 (fun c => stop) (fun c => stop)
    cases this
    exact ⟨by rw [h.2, h'.2], by rw [← e1, ← e2]⟩

/-- The results of `ev`. -/
theorem C60_ev_iff {n : Nat} {f : Int} {fn : Fn} (hf : fns.find? (fun fn => fn.f = f) = some fn) (hu : UniqueLabels fn.body)
    {vs : List Word} {mem : Mem} {v : Word} {mem' : Mem} :
    ev E L fns ext (n + 1) f vs mem = some (v, mem') ↔ Ret E L (ev E L fns ext n) fn vs mem v mem' := by
  rw [ev, hf]
  simp only
  split
  · rename_i h
    have hc := h.choose_spec
    constructor
    · intro e
      have e := Option.some.inj e
      rw [e] at hc
      exact hc
    · intro hr
      obtain ⟨h1, h2⟩ := C60_ret_unique hu hc hr
      congr 1
      exact Prod.ext h1 h2
  · rename_i h
    constructor
    · intro e; cases e
    · intro hr; exact absurd ⟨(v, mem'), hr⟩ h

end

/-! ### The claim -/

section
variable {E : Env} {L : Lay} {fns : List Fn} {ext : Int → List Word → Mem → Option (Word × Mem)} {A : Nat → Word} {S X : Nat} {t0 tQ : T}
  {rest : List Line}

theorem works_ev (hz : L.size < 65535) (hX : 2 ≤ X) (hchk : ChkAt E L X) (hext : ExtOk E L X ext) (hdv : DivOk E)
    (w : W t0) (hs : t0.stk = []) (hp : ProgOk E L S fns t0) (he : emitProg fns t0 = some tQ) (n : Nat) :
    Works E A (tQ.out ++ rest) L (n * S + X) (ev E L fns ext n) := by
  have ex : ∀ (B : Nat), X ≤ B → Works E A (tQ.out ++ rest) L B ext := by
    intro B hB f vs v mem' pc m x h hpc hr hx
    obtain ⟨m', h1, h2⟩ := hext f vs v mem' m x h (by omega) hr
    exact ⟨m', (FStep.plain (.line hpc h1)).steps, h2⟩
  induction n with
  | zero =>
    intro f vs v mem' pc m x h hpc hr hx
    rw [ev] at h
    split at h
    · exact ex _ (by omega) f vs v mem' pc m x h hpc hr hx
    · cases h
  | succ n ih =>
    intro f vs v mem' pc m x h hpc hr hx
    rw [ev] at h
    split at h
    · exact ex _ (by omega) f vs v mem' pc m x h hpc hr hx
    · rename_i fn hfn
      split at h
      · rename_i hh
        have hc := hh.choose_spec
        rw [Option.some.inj h] at hc
        have hmem := List.mem_of_find?_eq_some hfn
        have hf : fn.f = f := by simpa using List.find?_some hfn
        obtain ⟨t1, tB, c, rest', w0, hs0, k1, k2, k3, k4⟩ := prog_place fns w hs hp he fn hmem
        rw [k4, List.append_assoc, List.append_assoc _ rest'] at ih hpc ⊢
        rw [← hf] at hpc ⊢
        have e : ((n + 1) * S : Nat) = n * S + S := Nat.succ_mul n S
        exact fn_works hz hX hchk hdv (B := n * S + X) (by omega) w0 hs0 k1 k2 k3 ih hc hpc hr (by omega)
      · cases h

/-- C60: the program `fns` is translated; the lines are part of a text with other lines before (those in `t0`) and after
(`rest`), which may contain calls, too. If calling `f` with arguments `vs` returns `v` and
memory `mem'`, with calls nested at most `n` deep, and there are `n * S + X` bytes of stack left (`S` is enough for one
frame, `X` for functions of the library), then CALL f gets to the next line, with the registers and the memory as
`Returns` says. -/
theorem C60 (hz : L.size < 65535) (hX : 2 ≤ X) (hchk : ChkAt E L X) (hext : ExtOk E L X ext) (hdv : DivOk E)
    (w : W t0) (hs : t0.stk = []) (hp : ProgOk E L S fns t0) (he : emitProg fns t0 = some tQ) {n : Nat} {f : Int} {vs : List Word} {v : Word} {mem' : Mem}
    {pc : Nat} {m : M} {x : Int} (h : ev E L fns ext n f vs (L.clean m.mem) = some (v, mem'))
    (hpc : (tQ.out ++ rest)[pc]? = some (.call f)) (hr : Ready L vs m x) (hx : ((n * S + X : Nat) : Int) ≤ x) :
    ∃ m', FSteps E A (tQ.out ++ rest) ⟨pc, m⟩ ⟨pc + 1, m'⟩ ∧ Returns L (E.val f) v mem' (x + 2 * vs.length) m m' :=
  works_ev hz hX hchk hext hdv w hs hp he n f vs v mem' pc m x h hpc hr hx

end

/-! ### The run is the only one -/

/-- Names that begin a function. -/
def names (c : List Line) : List Int :=
  c.filterMap fun l => match l with
    | .nam f => some f
    | _ => none

theorem names_append (a b : List Line) : names (a ++ b) = names a ++ names b := by simp [names]

/-- Labels of the stack code of all functions. -/
def progLabs (fns : List Fn) : List Nat := fns.flatMap fun fn => labsI fn.body

/-- Conditions under which a text means one thing: every label and every name is defined once, lines have different
addresses, and functions in the text are not at the same time functions of the library. -/
structure Definite (E : Env) (A : Nat → Word) (Q : List Line) : Prop where
  labs : UniqueLabs Q
  names : ∀ (i j : Nat) (f : Int), Q[i]? = some (.nam f) → Q[j]? = some (.nam f) → i = j
  addr : ∀ i j, i ≤ Q.length → j ≤ Q.length → A i = A j → i = j
  own : ∀ f m, .nam f ∈ Q → E.fn f m = none

/-- The machine does the same thing every time. -/
theorem C60_det {E : Env} {A : Nat → Word} {Q : List Line} (hd : Definite E A Q) {a b c : TC} (h : FStep E A Q a b)
    (h' : FStep E A Q a c) : b = c := by
  cases h with
  | plain h =>
    cases h' with
    | plain h' => exact h.det hd.labs h'
    | @call pc k m f h1 h2 =>
      have := hd.own f m (List.mem_of_getElem? h2)
      cases h <;> simp_all [M.line]
    | ret h1 h2 h3 => cases h <;> simp_all [M.line]
  | @call pc k m f h1 h2 =>
    cases h' with
    | plain h' =>
      have := hd.own f m (List.mem_of_getElem? h2)
      cases h' <;> simp_all [M.line]
    | @call pc k' m f' h1' h2' =>
      rw [h1] at h1'
      cases h1'
      rw [hd.names k k' f h2 h2']
    | ret h1' => rw [h1] at h1'; cases h1'
  | ret h1 h2 h3 =>
    cases h' with
    | plain h' => cases h' <;> simp_all [M.line]
    | call h1' => rw [h1] at h1'; cases h1'
    | ret h1' h2' h3' =>
      rw [h2] at h2'
      rw [hd.addr _ _ h3 h3' h2']

theorem filterMap_pos {α β : Type} {g : α → Option β} {Q : List α} (h : (Q.filterMap g).Nodup) {i j : Nat} {a a' : α} {b : β}
    (hi : Q[i]? = some a) (hj : Q[j]? = some a') (ha : g a = some b) (ha' : g a' = some b) : i = j := by
  induction Q generalizing i j with
  | nil => simp at hi
  | cons l Q ih =>
    have tl : (Q.filterMap g).Nodup := by
      rw [List.filterMap_cons] at h
      split at h
      · exact h
      · exact (List.nodup_cons.1 h).2
    have hd : ∀ {k : Nat} {c : α}, g l = some b → Q[k]? = some c → g c = some b → False := by
      intro k c e hk hc
      rw [List.filterMap_cons, e] at h
      exact (List.nodup_cons.1 h).1 (List.mem_filterMap.2 ⟨c, List.mem_of_getElem? hk, hc⟩)
    cases i with
    | zero =>
      simp only [List.getElem?_cons_zero, Option.some.injEq] at hi
      subst hi
      cases j with
      | zero => rfl
      | succ j => exact (hd ha (by simpa using hj) ha').elim
    | succ i =>
      cases j with
      | zero =>
        simp only [List.getElem?_cons_zero, Option.some.injEq] at hj
        subst hj
        exact (hd ha' (by simpa using hi) ha).elim
      | succ j => exact congrArg Nat.succ (ih tl (by simpa using hi) (by simpa using hj))

theorem entry_labs (fn : Fn) : labs fn.entryLines = [] ∧ names fn.entryLines = [fn.f] := by
  have hp : ∀ n, labs (pushes n) = [] ∧ names (pushes n) = [] := by
    intro n
    induction n with
    | zero => exact ⟨rfl, rfl⟩
    | succ n ih =>
      have e : pushes (n + 1) = pushes n ++ [.push (.g (n + AccSIZ))] := rfl
      rw [e, labs_append, names_append, ih.1, ih.2]; exact ⟨rfl, rfl⟩
  unfold Fn.entryLines frameIn
  have e1 : ∀ l : List Line, labs (.nam fn.f :: l) = labs l := fun _ => rfl
  have e2 : ∀ l : List Line, names (.nam fn.f :: l) = fn.f :: names l := fun _ => rfl
  rw [List.cons_append, e1, e2]
  simp only [labs_append, names_append, (hp _).1, (hp _).2]
  cases fn.ker <;> by_cases h : memLocals fn.d > 0 <;> simp [h, labs, names]

theorem exit_labs (d : Nat) : labs (frameOut d ++ [.ret]) = [] ∧ names (frameOut d ++ [.ret]) = [] := by
  have hp : ∀ n, labs (pops n) = [] ∧ names (pops n) = [] := by
    intro n
    induction n with
    | zero => exact ⟨rfl, rfl⟩
    | succ n ih => 
      have e1 : labs (pops (n + 1)) = labs (pops n) := rfl
      have e2 : names (pops (n + 1)) = names (pops n) := rfl
      rw [e1, e2]; exact ih
  unfold frameOut
  simp only [labs_append, names_append, (hp _).1, (hp _).2]
  by_cases h : memLocals d > 0 <;> simp [h, labs, names]

/-- Labels and names of the text. -/
theorem C60_text {E : Env} {L : Lay} {S : Nat} (fns : List Fn) : ∀ {t0 tQ : T}, W t0 → t0.stk = [] → ProgOk E L S fns t0 →
    emitProg fns t0 = some tQ → (progLabs fns).Nodup → t0.tlab ≤ tQ.tlab ∧ ∃ c, tQ.out = t0.out ++ c ∧ names c = fns.map (·.f) ∧
      (labs c).Nodup ∧ ∀ b ∈ labs c, (∃ n, b = .T n ∧ t0.tlab ≤ n ∧ n < tQ.tlab) ∨ ∃ n ∈ progLabs fns, b = .L n := by
  induction fns with
  | nil =>
    intro t0 tQ _ _ _ h _
    cases h
    exact ⟨Nat.le_refl _, [], by simp, rfl, by simp [labs], by simp [labs]⟩
  | cons fn fns ih =>
    intro t0 tQ w hs hp h hn
    simp only [emitProg] at h
    cases h1 : emits fn.cnt (fn.code.map .i) t0 with
    | none => rw [h1] at h; cases h
    | some t1 =>
      rw [h1] at h
      obtain ⟨tB, c, k1, k2, k3, k4, k5⟩ := fn_text w hs hp.1 h1
      rw [progLabs, List.flatMap_cons, List.nodup_append] at hn
      obtain ⟨n1, n2, n3⟩ := hn
      have hx := shapesF_inExpr fn.body hp.1.shape
      obtain ⟨g1, c1, g2, g3, g4⟩ := emits_labs fn.body (b := false) (Fn.entered_w w hs).1 nofun hp.1.disc hp.1.counted hx k1 n1
      obtain ⟨c2, p1, p2, -⟩ := emits_grow (fn.body.map .i) (b := false) (Fn.entered_w w hs).1 nofun hp.1.disc hp.1.counted
        (fun v hv => by
          obtain ⟨i, hi, rfl⟩ := List.mem_map.1 hv
          exact hx i hi) k1
      rw [fn.entered_out] at g2 p1
      have e1 : c1 = c := List.append_cancel_left (g2.symm.trans k2)
      have e2 : c2 = c := List.append_cancel_left (p1.symm.trans k2)
      subst e1
      subst e2
      have htl : (fn.entered t0).tlab = t0.tlab := by unfold Fn.entered; split <;> rfl
      have ht1 : t1.tlab = tB.tlab := by
        unfold Fn.code at h1
        rw [List.map_append, List.map_append, emits_append, emits_append] at h1
        have h0 : emits fn.cnt (([.nam fn.f, if fn.ker then .entryK fn.d else .entry fn.d] : List Instr).map .i) t0 =
            some (fn.entered t0) := by
          unfold Fn.entered
          cases fn.ker <;> rfl
        rw [h0, Option.bind_some, k1, Option.bind_some] at h1
        have h1 : (vmRet tB).bind some = some t1 := h1
        unfold vmRet cancelFrame at h1
        by_cases q1 : tB.stk.length ≠ 0
        · rw [if_pos q1] at h1; cases h1
        · rw [if_neg q1] at h1
          by_cases q2 : tB.cnt ≠ 0
          · rw [if_pos q2] at h1; cases h1
          · rw [if_neg q2] at h1
            rw [← Option.some.inj h1]
            rfl
      obtain ⟨a1, c', a2, a3, a4, a5⟩ := ih k4 k5 (hp.2 t1 h1) h n2
      have hnam : names c2 = [] := by
        unfold names
        rw [List.filterMap_eq_nil_iff]
        intro l hl
        have := p2 l hl
        cases l <;> first | rfl | exact absurd this (by simp [Plain])
      refine ⟨by omega, fn.entryLines ++ c2 ++ (frameOut fn.d ++ [.ret]) ++ c', ?_, ?_, ?_, ?_⟩
      · rw [a2, k3, k2]
        simp only [List.append_assoc]
      · rw [names_append, names_append, names_append, (entry_labs fn).2, hnam, (exit_labs fn.d).2, a3]
        simp
      · rw [labs_append, labs_append, labs_append, (entry_labs fn).1, (exit_labs fn.d).1]
        simp only [List.nil_append, List.append_nil]
        refine List.nodup_append.2 ⟨g3, a4, fun a ha b hb he => ?_⟩
        subst he
        rcases g4 a ha with ⟨n, rfl, q1, q2⟩ | ⟨n, hn, rfl⟩
        · rcases a5 _ hb with ⟨k, hk, q3, q4⟩ | ⟨k, hk, hk'⟩
          · cases hk; omega
          · cases hk'
        · rcases a5 _ hb with ⟨k, hk, q3, q4⟩ | ⟨k, hk, hk'⟩
          · cases hk
          · cases hk'; exact n3 _ hn _ hk rfl
      · intro b hb
        rw [labs_append, labs_append, labs_append, (entry_labs fn).1, (exit_labs fn.d).1] at hb
        simp only [List.nil_append, List.append_nil, List.mem_append] at hb
        simp only [progLabs, List.flatMap_cons, List.mem_append]
        rcases hb with hb | hb
        · rcases g4 b hb with ⟨n, rfl, q1, q2⟩ | ⟨n, hn, rfl⟩
          · exact .inl ⟨n, rfl, by omega, by omega⟩
          · exact .inr ⟨n, .inl hn, rfl⟩
        · rcases a5 b hb with ⟨n, rfl, q1, q2⟩ | ⟨n, hn, rfl⟩
          · exact .inl ⟨n, rfl, by omega, by omega⟩
          · exact .inr ⟨n, .inr hn, rfl⟩

/-- A program whose functions have different names and whose labels are different is `Definite`. -/
theorem C60_definite {E : Env} {L : Lay} {S : Nat} {A : Nat → Word} {fns : List Fn} {tQ : T} (hp : ProgOk E L S fns T.init)
    (he : emitProg fns T.init = some tQ) (hl : (progLabs fns).Nodup) (hf : (fns.map (·.f)).Nodup)
    (hA : ∀ i j, i ≤ tQ.out.length → j ≤ tQ.out.length → A i = A j → i = j) (hown : ∀ fn ∈ fns, ∀ m, E.fn fn.f m = none) :
    Definite E A tQ.out := by
  obtain ⟨-, c, h1, h2, h3, -⟩ := C60_text fns W.init rfl hp he hl
  have h1 : tQ.out = c := h1
  rw [← h1] at h2 h3
  refine ⟨uniqueLabs_of h3, fun i j f hi hj => ?_, hA, fun f m hm => ?_⟩
  · rw [← h2] at hf
    exact filterMap_pos hf hi hj (b := f) rfl rfl
  · have : f ∈ names tQ.out := List.mem_filterMap.2 ⟨_, hm, rfl⟩
    rw [h2] at this
    obtain ⟨fn, hfn, rfl⟩ := List.mem_map.1 this
    exact hown fn hfn m

/-! ### Example: a recursive function -/

/-- `int sum(int n) { if (n == 0) return 0; return n + sum(n - 1); }` -/
def sumFn : Fn where
  f := 7
  d := 0
  np := 1
  ker := false
  cnt n := n
  body := [.ldP 0, .ldC 0, .a2 .EQ, .jf 1, .ldC 0, .mreg, .jmp 2, .lab 1,
    .ldP 0, .ldP 0, .ldC 1, .a2 .SUB, .arg, .callF 1 7, .a2 .ADD, .mreg, .jmp 2, .lab 2]

def sumEnv : Env where
  adr n := 0x100 + 2 * BitVec.ofInt 16 n
  lab n := 0x200 + 2 * BitVec.ofInt 16 n
  fn _ _ := none
  val _ := true
  chk m := some { m with g := setG m.g 0 0 }
  div := BitVec.sdiv
  mod := BitVec.srem
  v _ _ _ := false

/-- 32000 bytes of stack. -/
def sumLay : Lay := ⟨0x8000, 32000⟩

/-- Its lines. -/
example : (emitProg [sumFn] T.init).map (·.out) = some
    [.nam 7, .push .fp, .op .LD .fp (.reg .sp), .stkChk,
     .op .LD (.g 0) (.fp 4), .op .CMP (.g 0) (.imm 0), .jcc 5 (.L 1), .op .LD (.g 0) (.imm 0), .jmp (.L 2), .lab (.L 1),
     .op .LD (.g 0) (.fp 4), .op .SUB (.g 0) (.imm 1), .push (.g 0), .call 7, .op .ADD .sp (.imm 2),
     .op .ADD (.g 0) (.fp 4), .jmp (.L 2), .lab (.L 2), .pop .fp, .ret] := by
  decide +kernel

theorem sum_ok : ProgOk sumEnv sumLay 20 [sumFn] T.init := by
  refine ⟨⟨by simp [sumFn, Disc, uses, fresh], by decide, by decide +kernel, ?_, ?_, ?_, fun _ _ _ => rfl, 6, ?_, by decide⟩,
    fun _ _ => trivial⟩
  · intro n hn; simp [sumFn] at hn
  · intro n hn; simp [sumFn] at hn
  · intro n hn
    have : n = 0 := by simpa [sumFn] using hn
    subst this
    decide
  · intro n l hl
    by_cases h : n < 18
    · have : ∀ n < 18, ∀ l ∈ shapesF (sumFn.body.take n) [], 2 * l.length ≤ 6 := by decide
      exact this n h l hl
    · rw [List.take_of_length_le (by show 18 ≤ n; omega)] at hl
      have : shapesF sumFn.body [] = some [] := by decide
      rw [this] at hl
      cases hl
      exact Nat.zero_le _

theorem sum_unique : UniqueLabels sumFn.body := by
  intro i j n hi hj
  exact filterMap_pos (Q := sumFn.body) (g := fun i => match i with
    | .lab n => some n
    | _ => none) (by decide) hi hj (b := n) rfl rfl

theorem run_callF {E : Env} {L : Lay} {cnt : Int → Int} {call : Int → List Word → Mem → Option (Word × Mem)} {n : Nat} {f : Int}
    {st ar : List Word} {rg v : Word} {s : AS} {mem' : Mem} (h : call f (ar.take n) (L.clean s.mem) = some (v, mem')) :
    Gen.run (aworld E L cnt call) (.callF n f) ⟨st, ar, rg, s⟩ = some ⟨v :: st, ar.drop n, rg, { s with mem := mem' }⟩ := by
  simp only [Gen.run, aworld, h, Option.map_some]

/-- 0 + 1 + ... + k -/
def tri : Nat → Word
  | 0 => 0
  | k + 1 => BitVec.ofNat 16 (k + 1) + tri k

/-- The stack code adds up the numbers. -/
theorem sum_ev (k : Nat) : k < 65536 → ∀ mem, ev sumEnv sumLay [sumFn] (fun _ _ _ => none) (k + 1) 7 [BitVec.ofNat 16 k]
    (sumLay.clean mem) = some (tri k, sumLay.clean mem) := by
  induction k with
  | zero =>
    intro _ mem
    refine (C60_ev_iff (fn := sumFn) rfl sum_unique).2 ⟨rfl, fun loc rg =>
      ⟨⟨sumLay.clean mem, loc, fun c => [BitVec.ofNat 16 0].getD c.toNat 0⟩, rg, rfl, ?_⟩⟩
    refine (if_pos rfl).mpr ⟨5, .head (.next rfl rfl) <| .head (.next rfl rfl) <| .head (.next rfl rfl) <|
      .head (.jfT rfl (show Cmm.Tree.ofB (decide ((0 : Word) = 0)) ≠ 0 by decide)) <| .head (.next rfl rfl) .refl, rfl, .jmp rfl (k := 17) rfl <| .lab rfl .refl⟩
  | succ k ih =>
    intro hk mem
    refine (C60_ev_iff (fn := sumFn) rfl sum_unique).2 ⟨rfl, fun loc rg =>
      ⟨⟨sumLay.clean mem, loc, fun c => [BitVec.ofNat 16 (k + 1)].getD c.toNat 0⟩, rg, rfl, ?_⟩⟩
    have hne : BitVec.ofNat 16 (k + 1) ≠ 0 := by
      intro h
      have := congrArg BitVec.toNat h
      rw [BitVec.toNat_ofNat] at this
      have h0 : (0 : Word).toNat = 0 := rfl
      omega
    have hsub : BitVec.ofNat 16 (k + 1) - BitVec.ofInt 16 1 = BitVec.ofNat 16 k := by
      apply BitVec.eq_of_toNat_eq
      simp only [BitVec.toNat_sub, BitVec.toNat_ofNat]
      show (65536 - 1 + (k + 1) % 65536) % 65536 = k % 65536
      omega
    have hcl : sumLay.clean (sumLay.clean mem) = sumLay.clean mem :=
      Lay.clean_eq fun a ha => by unfold Lay.clean; rw [if_pos ha]
    have hrec : ev sumEnv sumLay [sumFn] (fun _ _ _ => none) (k + 1) 7 [BitVec.ofNat 16 (k + 1) - BitVec.ofInt 16 1]
        (sumLay.clean (sumLay.clean mem)) = some (tri k, sumLay.clean mem) := by
      rw [hsub, hcl]; exact ih (by omega) mem
    refine (if_pos rfl).mpr ⟨15, .head (.next rfl rfl) <| .head (.next rfl rfl) <| .head (.next rfl rfl) <|
      .head (.jfF (k := 7) rfl rfl ?_) <| .head (.next rfl rfl) <| .head (.next rfl rfl) <|
      .head (.next rfl rfl) <| .head (.next rfl rfl) <| .head (.next rfl rfl) <| .head (.next rfl rfl) <|
      .head (.next (d' := ⟨[tri k, BitVec.ofNat 16 (k + 1)], [], rg, ⟨sumLay.clean mem, loc, _⟩⟩) rfl ?_) <|
      .head (.next rfl rfl) .refl, rfl, .jmp rfl (k := 17) rfl <| .lab rfl .refl⟩
    · show Cmm.Tree.ofB (decide (BitVec.ofNat 16 (k + 1) = (0 : Word))) = 0
      rw [decide_eq_false hne]; rfl
    · exact run_callF (ar := [BitVec.ofNat 16 (k + 1) - BitVec.ofInt 16 1]) hrec

/-- The printed lines add up the numbers up to k, for every k there is room for on the stack. -/
example (A : Nat → Word) (tQ : T) (he : emitProg [sumFn] T.init = some tQ) (k : Nat) (m : M) (x : Int)
    (hx : 20 * (k + 1) + 2 ≤ x) (hx' : x + 2 ≤ 32000) (hsp : m.sp = ad 0x8000 x) (harg : m.mem.lw m.sp = BitVec.ofNat 16 k) :
    ∃ m', FSteps sumEnv A (tQ.out ++ [.call 7]) ⟨tQ.out.length, m⟩ ⟨tQ.out.length + 1, m'⟩ ∧ m'.g 0 = tri k ∧ m'.sp = m.sp ∧
      m'.fp = m.fp ∧ ∀ r, 3 ≤ r → r ≤ 11 → m'.g r = m.g r := by
  obtain ⟨m', h1, h2⟩ := C60 (E := sumEnv) (L := sumLay) (A := A) (S := 20) (X := 2) (n := k + 1) (rest := [.call 7])
    (pc := tQ.out.length) (x := x) (by decide) (by decide)
    (fun m x _ _ _ => ⟨_, rfl, rfl, rfl, fun r hr => by simp [setG, hr], fun _ _ _ => rfl⟩) (fun _ _ _ _ _ _ h => by cases h)
    (fun _ _ _ => ⟨rfl, rfl⟩) W.init rfl sum_ok he (sum_ev k (by omega) m.mem) (by simp)
    ⟨hsp, by show x + 2 * (1 : Int) ≤ 32000; omega, fun i w hi => (by
      cases i with
      | zero =>
        simp only [List.getElem?_cons_zero, Option.some.injEq] at hi
        rw [← hi, ← harg, hsp, show x + 2 * ((0 : Nat) : Int) = x by omega]
        rfl
      | succ i => simp at hi)⟩ (by omega)
  exact ⟨m', h1, h2.val rfl, h2.sp, h2.fp, h2.reg⟩

/-- The conditions of `C60_definite`. -/
example : (progLabs [sumFn]).Nodup ∧ ([sumFn].map (·.f)).Nodup ∧ ∀ fn ∈ [sumFn], ∀ m, sumEnv.fn fn.f m = none :=
  ⟨by decide, by decide, fun _ _ _ => rfl⟩

end Cmm.Tac
