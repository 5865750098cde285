import Verif.Parse.Front
import Verif.Parse.Names
import Verif.Props.C27
import Verif.Props.C66

/-
C67: from the characters of a source file to the characters of the assembler program. A source text is a sequence of lexemes
and gaps (`Laid`, the lexical grammar of C27); the parser gets the tokens of the lexemes, each with its own value
(`C67_tokens`), so gaps do not matter (`C67_layout`). Every name that the compiler knows is a name in the text (`C67_names`),
hence made of letters, digits and `_`, which is what C66 wants to know of names (`C67`, `C67_optimised`). A byte 202 outside
literals and comments is read as a name (`C67_byte_false`).
-/
namespace Cmm.Parse
open Cmm.Tree (Expr Stmt)
open Cmm.Gen (genSw)
open Cmm.Lex (Tk Lexeme Laid outs lexAll Letter WordChar Digit)
open Cmm.Tac
open Cmm.CText (Text)

/-! ### Tokens -/

/-- What a token of the lexical grammar is for the parser. Directives are no tokens. -/
def tokOf : Tk → Option Tok
  | .int v => some (.int v)
  | .chr v => some (.chr v)
  | .log v _ => some (.log v)
  | .name w => some (.name (text w))
  | .kw c _ => some (.c c)
  | .str _ w => some (.str (text w))
  | .op c => some (.c c)
  | .file _ _ => none

theorem kw_small {p : List Nat} {c : Nat} {w : List Nat} (h : Lexeme p (.kw c w)) : c ≤ 25 := by
  cases h with
  | kw h => exact (by decide +kernel : ∀ x ∈ Lex.keywords, x.2 ≤ 25) _ h

theorem op_small {p : List Nat} {c : Nat} (h : Lexeme p (.op c)) : c ≤ 112 ∨ p = [c] := by
  cases h with
  | opr h => exact .inl ((by decide +kernel : ∀ x ∈ Lex.operators, x.2 ≤ 112) _ h)
  | op => exact .inr rfl

theorem tok_small {c : Nat} {v : Int} {s : List Nat} (h : c < 200 ∨ 205 < c) : tok (c, v, s) = some (.c c) := by
  unfold tok
  simp only
  rw [if_neg (by omega), if_neg (by omega), if_neg (by omega), if_neg (by omega), if_neg (by omega), if_neg (by omega)]
  simp

theorem tok_out {p : List Nat} {t : Tk} (h : Lexeme p t) (hb : ∀ c, t = .op c → c < 200 ∨ 205 < c) (v : Int × List Nat) :
    tok (t.out v) = tokOf t := by
  cases t with
  | kw c w => exact tok_small (.inl (by have := kw_small h; omega))
  | op c => exact tok_small (hb c rfl)
  | _ => rfl

theorem toks_outs : ∀ {ps : List (List Nat × Tk)} (v : Int × List Nat), (∀ x ∈ ps, Lexeme x.1 x.2) →
    (∀ x ∈ ps, ∀ c, x.2 = .op c → c < 200 ∨ 205 < c) →
    (outs v (ps.map (·.2))).filterMap tok = (ps.map (·.2)).filterMap tokOf
  | [], _, _, _ => rfl
  | x :: ps, v, hl, hb => by
    have h1 := tok_out (hl x (.head _)) (hb x (.head _)) v
    have h2 := toks_outs (x.2.out v).2 (fun y hy => hl y (.tail _ hy)) (fun y hy => hb y (.tail _ hy))
    simp only [List.map_cons, outs, List.filterMap_cons, h1, h2]

/-- C67: the parser reads the tokens of the lexemes, with their values, unless one of the bytes 200 to 205 stands alone. -/
theorem C67_tokens (o : Opts) {src : List Nat} {ps : List (List Nat × Tk)} (h : Laid (10 :: src) ps)
    (hb : ∀ x ∈ ps, ∀ c, x.2 = .op c → c < 200 ∨ 205 < c) :
    accept o src = getSrc o (start ((ps.map (·.2)).filterMap tokOf)) := by
  unfold accept
  rw [Lex.C27_layout src ps h]
  simp only
  rw [toks_outs _ (Lex.laid_lexeme h) hb]

/-- Texts with the same lexemes are the same program, whatever the gaps between them are. -/
theorem C67_layout (o : Opts) {src src' : List Nat} {ps qs : List (List Nat × Tk)} (h : Laid (10 :: src) ps)
    (h' : Laid (10 :: src') qs) (e : ps.map (·.1) = qs.map (·.1)) : accept o src = accept o src' := by
  unfold accept
  rw [Lex.C27 src src' ps qs h h' e]

/-! ### Names -/

variable {o : Opts} {src : List Nat} {s : PS} {E : Env} {L : Lay} {S : Nat} {id : Label → Int} {strs : String → Nat}
  {N : Int → Option Sym} {X : Nat} {ext : Int → List Word → Mem → Option (Word × Mem)} {A : Nat → Word}

theorem laid_infix {l : List Nat} {ps : List (List Nat × Tk)} (h : Laid l ps) : ∀ x ∈ ps, x.1 <:+: l := by
  induction h with
  | nil _ => simp
  | @cons g p r t ps _ _ _ _ _ ih =>
    intro x hx
    rcases List.mem_cons.1 hx with rfl | hx
    · exact ⟨g, r, by simp⟩
    · exact (ih x hx).trans ⟨g ++ p, [], by simp⟩

theorem outs_mem {y : Int × Int × List Nat} : ∀ {ts : List Tk} {v : Int × List Nat}, y ∈ outs v ts → ∃ t ∈ ts, ∃ v, y = t.out v
  | [], _, h => by cases h
  | t :: ts, v, h => by
    rcases List.mem_cons.1 h with h | h
    · exact ⟨t, .head _, v, h⟩
    · obtain ⟨t', h1, h2⟩ := outs_mem h
      exact ⟨t', .tail _ h1, h2⟩

theorem tok_name {y : Int × Int × List Nat} {x : String} (h : tok y = some (.name x)) : y.1 = 202 ∧ x = text y.2.2 := by
  obtain ⟨c, v, w⟩ := y
  unfold tok at h
  simp only at h
  split at h
  · cases h
  split at h
  · cases h
  split at h
  · cases h
  split at h
  · rename_i hc
    cases h
    exact ⟨hc, rfl⟩
  split at h
  · cases h
  split at h <;> cases h

/-- The program is what the parser makes of tokens; those that are names are names in the source text. -/
theorem accept_names (h : accept o src = some s) (h0 : 0 ∉ src) (hb : 202 ∉ src) : ∃ toks, getSrc o (start toks) = some s ∧
    ∀ x, .name x ∈ toks → ∃ w, Lexeme w (.name w) ∧ w <:+: src ∧ x = text w := by
  unfold accept at h
  split at h
  · rename_i ts ht
    obtain ⟨ps, hp, rfl⟩ := Lex.C27_accepted src h0 _ ht
    refine ⟨_, h, ?_⟩
    intro x hx
    obtain ⟨y, hy, hx⟩ := List.mem_filterMap.1 hx
    obtain ⟨t, ht, v, rfl⟩ := outs_mem hy
    obtain ⟨⟨p, t'⟩, hq, rfl⟩ := List.mem_map.1 ht
    have hl := Lex.laid_lexeme hp _ hq
    obtain ⟨h1, h2⟩ := tok_name hx
    have hi := laid_infix hp _ hq
    simp only at hl h1 h2 hi
    cases t' with
    | name w =>
      have e : p = w := by cases hl; rfl
      subst e
      refine ⟨p, hl, ?_, h2⟩
      obtain ⟨a, b, hab⟩ := hi
      cases a with
      | nil =>
        cases hl with
        | name hc => simp at hab; rw [hab.1] at hc; exact absurd hc (by decide)
      | cons c a =>
        simp at hab
        exact ⟨a, b, by simp [hab.2]⟩
    | kw c w => have := kw_small hl; simp only [Tk.out] at h1; omega
    | op c =>
      simp only [Tk.out] at h1
      rcases op_small hl with h3 | h3
      · omega
      · have hc : c = 202 := by omega
        subst hc h3
        have := hi.subset (List.mem_singleton_self 202)
        simp [hb] at this
    | _ => simp [Tk.out] at h1
  · cases h

theorem word_char {c : Nat} (h : WordChar c) : (Char.ofNat c).isAlphanum = true ∨ Char.ofNat c = '_' := by
  have h1 : c < 123 := by simp only [WordChar, Letter, Digit] at h; omega
  revert h1
  have := (by decide +kernel : ∀ c < 123, WordChar c → (Char.ofNat c).isAlphanum = true ∨ Char.ofNat c = '_')
  exact fun h1 => this c h1 h

theorem text_letters {w : List Nat} (h : Lexeme w (.name w)) : Letters (text w).toList := by
  intro c hc
  simp only [text, String.toList_ofList, List.mem_map] at hc
  obtain ⟨b, hb, rfl⟩ := hc
  refine word_char ?_
  cases h with
  | name h1 h2 =>
    rcases List.mem_cons.1 hb with rfl | hb
    · exact .inl h1
    · exact h2 b hb

/-- C67: the names in the table of an accepted program are written in its text (but for the name of `...`, which is empty). -/
theorem C67_names (h : accept o src = some s) (h0 : 0 ∉ src) (hb : 202 ∉ src) : ∀ e ∈ s.tab, e.name = "" ∨
    ∃ w, Lexeme w (.name w) ∧ w <:+: src ∧ e.name = text w := by
  obtain ⟨toks, h1, h2⟩ := accept_names h h0 hb
  intro e he
  rcases names_written h1 e he with h3 | h3
  · exact .inl h3
  · exact .inr (h2 _ h3)

/-- Functions and global variables are printed by name. Private names do not look like labels of the compiler, and no public name
is that of the stack check. -/
def Apart (id : Label → Int) (N : Int → Option Sym) (t : Tab) : Prop :=
  ∀ e ∈ t, IsFun e.scope ∨ IsVar e.scope → N (id e.label) = some (sym e.label) ∧ Plainly (sym e.label) ∧ sym e.label ≠ chkSym

theorem spelt_of (h : accept o src = some s) (h0 : 0 ∉ src) (hb : 202 ∉ src) (hn : Apart id N s.tab) : Spelt id N s.tab := by
  intro e he hs
  obtain ⟨h1, h2, h3⟩ := hn e he hs
  refine ⟨h1, ?_, h2, h3⟩
  rcases C67_names h h0 hb e he with h4 | ⟨w, h4, -, h5⟩
  · rw [h4]; exact nofun
  · rw [h5]; exact text_letters h4

/-- C67: the assembler text that the compiler prints for a source text does what the trees of the program mean. -/
theorem C67 (h : accept o src = some s) (h0 : 0 ∉ src) (hb : 202 ∉ src) (ho : o.opt = false) (hr : Resolves E L id s.tab)
    (hn : Apart id N s.tab) (hf : ∀ fn ∈ prog id o strs s.out, Fair E S fn)
    (hz : L.size < 65535) (hX : 2 ≤ X) (hchk : ChkAt E L X) (hext : ExtOk E L X ext) (hdv : DivOk E) (k : Nat) :
    ∃ tQ, emitProg (compile (fun f => !E.val f) (prog id o strs s.out) k) T.init = some tQ ∧ (∃ x, Printed N tQ.out x) ∧
      ∀ x, Printed N tQ.out x → ∃ Q, assemble (idText id) x = some Q ∧
      ∀ {rest : List Line} {n : Nat} {f : Int} {vs : List Word} {v : Word} {mem' : Mem} {pc : Nat} {m : M} {x : Int},
      evS E L genSw (prog id o strs s.out) ext n f vs (L.clean m.mem) = some (v, mem') →
      (Q ++ rest)[pc]? = some (.call f) → Ready L vs m x → ((n * S + X : Nat) : Int) ≤ x →
      ∃ m', FSteps E A (Q ++ rest) ⟨pc, m⟩ ⟨pc + 1, m'⟩ ∧ Returns L (E.val f) v mem' (x + 2 * vs.length) m m' := by
  obtain ⟨toks, h1, -⟩ := accept_names h h0 hb
  exact C66 h1 ho hr (spelt_of h h0 hb hn) hf hz hX hchk hext hdv k

/-- C67 with the optimiser: the trees are those before they are optimised. -/
theorem C67_optimised (h : accept o src = some s) (h0 : 0 ∉ src) (hb : 202 ∉ src) (ho : o.opt = true)
    (hr : Resolves E L id s.tab) (hn : Apart id N s.tab) (hf : ∀ fn ∈ prog id o strs (s.out.map Out.written), FairO E S fn)
    (hz : L.size < 65535) (hX : 2 ≤ X) (hchk : ChkAt E L X) (hext : ExtOk E L X ext) (hdv : DivOk E) (k : Nat) :
    ∃ tQ, emitProg (compile (fun f => !E.val f) (prog id o strs s.out) k) T.init = some tQ ∧ (∃ x, Printed N tQ.out x) ∧
      ∀ x, Printed N tQ.out x → ∃ Q, assemble (idText id) x = some Q ∧
      ∀ {rest : List Line} {n : Nat} {f : Int} {vs : List Word} {v : Word} {mem' : Mem} {pc : Nat} {m : M} {x : Int},
      evS E L (fun _ _ _ => false) (prog id o strs (s.out.map Out.written)) ext n f vs (L.clean m.mem) = some (v, mem') →
      (Q ++ rest)[pc]? = some (.call f) → Ready L vs m x → ((n * S + X : Nat) : Int) ≤ x →
      ∃ m', FSteps E A (Q ++ rest) ⟨pc, m⟩ ⟨pc + 1, m'⟩ ∧ Returns L (E.val f) v mem' (x + 2 * vs.length) m m' := by
  obtain ⟨toks, h1, -⟩ := accept_names h h0 hb
  exact C66_optimised h1 ho hr (spelt_of h h0 hb hn) hf hz hX hchk hext hdv k

/-! ### Example, and what is false -/

theorem accept_ok {src : List Nat} {ts : List (Int × Int × List Nat)} (h : lexAll (Lex.start src) = .ok ts) :
    accept o src = getSrc o (start (ts.filterMap tok)) := by
  unfold accept; rw [h]

/-- The program of C64 as a text with comments. -/
def src67 : List Nat := Lex.bytes ("int total; // so far\nint sum(int n);\n" ++
  "void acc(int n) {\n  int i = 0;\n  while (i < n && total>=1) { total = sum(i)+total; i = i + 0x1; }\n}\n" ++
  "# 1 \"sum.cmm\"\nint sum(int n) { /* 1+...+n */\n  if (n==1) return 1;\n  return sum(n-1) + n;\n}\n")

theorem lex67 : ∃ ts, lexAll (Lex.start src67) = .ok ts ∧ ts.filterMap tok = prog64 := by
  have h : (lexAll (Lex.start src67)).toOption.map (·.filterMap tok) = some prog64 := by decide +kernel
  revert h
  cases lexAll (Lex.start src67) with
  | error => intro h; cases h
  | ok ts => exact fun h => ⟨ts, rfl, Option.some.inj h⟩

/-- The text is accepted, the conditions of C67 on the text and on names are met, and `text66` is printed for it. -/
example : ∃ s, accept ⟨false, false⟩ src67 = some s ∧ 0 ∉ src67 ∧ 202 ∉ src67 ∧ Apart id64 names66 s.tab ∧
    ∃ tQ, emitProg (compile (fun f => !Tac.exSrcEnv.val f) (prog id64 ⟨false, false⟩ (fun _ => 0) s.out) 0) T.init = some tQ ∧
      Printed names66 tQ.out text66.toList ∧ assemble (idText id64) text66.toList = some tQ.out := by
  obtain ⟨ts, h1, h2⟩ := lex67
  obtain ⟨s, h, hs, ht⟩ := run66
  exact ⟨s, by rw [accept_ok h1, h2]; exact h, by decide +kernel, by decide +kernel,
    fun e he h => ⟨(hs e he h).1, (hs e he h).2.2⟩, ht⟩

/-- `char[] a = "b c", ?;` where `?` is the byte 202 declares a variable with the name `b c`. -/
theorem C67_byte_false : ∃ src, 0 ∉ src ∧ ∃ s, accept ⟨false, false⟩ src = some s ∧ ∃ e ∈ s.tab, ¬ Letters e.name.toList := by
  refine ⟨Lex.bytes "char[] a=\"b c\"," ++ [202] ++ Lex.bytes ";", by decide +kernel, ?_⟩
  have h : (lexAll (Lex.start (Lex.bytes "char[] a=\"b c\"," ++ [202] ++ Lex.bytes ";"))).toOption.map (·.filterMap tok) =
      some [Lx.CHAR, Lx.lbrk, Lx.rbrk, .name "a", Lx.eq, .str "b c", Lx.comma, .name "b c", Lx.semi] := by decide +kernel
  obtain ⟨s, h2, h3⟩ := run_ok (o := ⟨false, false⟩)
    (toks := [Lx.CHAR, Lx.lbrk, Lx.rbrk, .name "a", Lx.eq, .str "b c", Lx.comma, .name "b c", Lx.semi]) 30
    (fun s => s.tab.map (·.name)) (v := ["a", "b c"]) (by decide +kernel)
  have h4 : "b c" ∈ s.tab.map (·.name) := by rw [h3]; simp
  obtain ⟨e, he, hn⟩ := List.mem_map.1 h4
  refine ⟨s, ?_, e, he, ?_⟩
  · revert h
    generalize hx : lexAll _ = r
    cases r with
    | error => intro h; cases h
    | ok ts => intro h; rw [accept_ok hx, show ts.filterMap tok = _ from Option.some.inj h]; exact h2
  · rw [hn]
    intro h
    have := h ' ' (by decide +kernel)
    revert this
    decide +kernel

end Cmm.Parse
