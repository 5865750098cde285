import Verif.Parse.DataCode
import Verif.Props.C67

/-
C69: the text of initialised and uninitialised global variables. For every source text the compiler accepts, the lines printed
for a variable are read back as directives that represent its initial value under its name.
-/
namespace Cmm.Parse
open Cmm.Tree Cmm.Gen Cmm.Tac
open Cmm.CText (Text dec decI)

/-- What the code generator makes of a variable, with the names numbered by `id` (vmCode.c:786-802). -/
def dataOf (id : Label → Int) : Out → List Dir
  | .data idx d tab k => match tab[idx]? with
    | some e => (genData (nameOf id tab idx) e.dim (renD (nameOf id tab) d) k).1
    | none => []
  | .bss idx tab => genBss (nameOf id tab idx)
  | .func .. => []

/-- What is known of a variable that is handed to the code generator. -/
def VarOk : Out → Prop
  | .data idx d tab k => ∃ e : Ent, tab[idx]? = some e ∧ IsVar e.scope ∧ Form tab (e.dim + 1) d ∧ single d = true ∧
      Dir.bug ∉ (genData idx e.dim d k).1
  | .bss idx tab => ∃ e : Ent, tab[idx]? = some e ∧ IsVar e.scope
  | .func .. => True

theorem var_ok {o : Opts} {toks : List Tok} {s : PS} (h : getSrc o (start toks) = some s) : ∀ x ∈ s.out, VarOk x := by
  refine ((out_inv (P := VarOk) (glob_inv o) ?_ ?_ ?_).final h).2
  · intro t dp out e d k _ _ _ ⟨s1, s2, h1, h2⟩ hb
    have := getInit_shape h2
    rw [h1] at this
    exact ⟨{ e with scope := ScGVAR }, by simp, .inr rfl, this.1, this.2, hb⟩
  · intro t dp out e _ _ he
    exact ⟨e, by simp, .inl he⟩
  · intros; trivial

variable {o : Opts} {src : List Nat} {s : PS} {id : Label → Int} {N : Int → Option Sym}

/-- The names in the table of a variable are printed as they are at the end. -/
theorem names_ok (h : accept o src = some s) (h0 : 0 ∉ src) (hb : 202 ∉ src) (hn : Apart id N s.tab) {x : Out} (hx : x ∈ s.out)
    {i : Nat} {e : Ent} (he : x.tab[i]? = some e) (hs : IsNam e.scope) : NameOk N (idText id) (nameOf id x.tab i) := by
  obtain ⟨toks, h1, -⟩ := accept_names h h0 hb
  have hc := ((nam_inv o).final h1).2.named x hx e (List.mem_of_getElem? he) hs
  obtain ⟨e', k1, k2, k3, -, -, k4, k5, -⟩ := hc
  have hs' : IsFun e'.scope ∨ IsVar e'.scope := hs.imp (fun h => (k4 h).1) k5
  obtain ⟨g1, g2, g3, -⟩ := spelt_of h h0 hb hn e' k1 hs'
  have hl : e'.label = e.label := by unfold Ent.label; rw [k2, k3]
  have hi : nameOf id x.tab i = id e.label := by simp [nameOf, he]
  rw [hi, ← hl]
  exact ⟨_, g1, by simp [idText, sym, Ent.label], g2, g3⟩

/-- The directives of a variable can be read. -/
theorem dirs_ok (h : accept o src = some s) (h0 : 0 ∉ src) (hb : 202 ∉ src) (hn : Apart id N s.tab) {x : Out} (hx : x ∈ s.out) :
    ∀ y ∈ dataOf id x, DirOk N (idText id) y := by
  obtain ⟨toks, h1, -⟩ := accept_names h h0 hb
  have hv := var_ok h1 x hx
  cases x with
  | func => exact nofun
  | bss idx tab =>
    obtain ⟨e, k1, k2⟩ := hv
    exact List.forall_mem_cons.2 ⟨names_ok h h0 hb hn hx k1 (.inr k2), List.forall_mem_cons.2 ⟨trivial, nofun⟩⟩
  | data idx d tab k =>
    obtain ⟨e, k1, k2, k3, -, k5⟩ := hv
    obtain ⟨c, v, c1, c2, c3⟩ := genData_fine (shape_addrs k3) idx e.dim k
    have hf : ∀ y ∈ c ++ [Dir.nam idx, v], y ≠ .bug → DirOk N (idText id) (renDir (nameOf id tab) y) := by
      intro y hy hn'
      have addr : ∀ y, Fine (fun n => Leaf tab (.addr n)) y → y ≠ .bug → DirOk N (idText id) (renDir (nameOf id tab) y) := by
        intro y hy hn'
        cases y with
        | dwNam n =>
          obtain ⟨i, e', rfl, g1, g2⟩ := hy
          exact names_ok h h0 hb hn hx g1 g2
        | bug => exact absurd rfl hn'
        | nam | str => cases hy
        | _ => trivial
      rcases List.mem_append.1 hy with hy | hy
      · exact addr y (c2 y hy) hn'
      · simp only [List.mem_cons, List.not_mem_nil, or_false] at hy
        rcases hy with rfl | rfl
        · exact names_ok h h0 hb hn hx k1 (.inr k2)
        · exact addr _ c3 hn'
    simp only [dataOf, k1, genData_ren]
    intro y hy
    obtain ⟨z, hz, rfl⟩ := List.mem_map.1 hy
    refine hf z (c1 ▸ hz) fun e => k5 (e ▸ hz)

/-- The directives of an initialised variable represent its initial value (C57), whatever data stand before and behind them. -/
theorem data_rep {toks : List Tok} (h : getSrc o (start toks) = some s) {idx k : Nat} {d : DT} {tab : Tab}
    (hx : .data idx d tab k ∈ s.out) : ∃ e c v, tab[idx]? = some e ∧
      dataOf id (.data idx d tab k) = c ++ [.nam (id e.label), v] ∧
      ∀ p q, (∀ l ∈ dataLabs p, l ≤ k) → Rep (p ++ (dataOf id (.data idx d tab k) ++ q)) (renD (nameOf id tab) d) [v] := by
  obtain ⟨e, k1, k2, k3, k4, k5⟩ := var_ok h _ hx
  have hw := wfD_ren (g := nameOf id tab) (init_wf k3 k5)
  have hi : nameOf id tab idx = id e.label := by simp [nameOf, k1]
  obtain ⟨c, v, h1, -⟩ := C57_data (nameOf id tab idx) e.dim _ k hw (single_ren k4) [] [] nofun
  refine ⟨e, c, v, k1, by simp only [dataOf, k1]; rw [h1, hi], fun p q hp => ?_⟩
  obtain ⟨c', v', h2, h3⟩ := C57_data (nameOf id tab idx) e.dim _ k hw (single_ren k4) p q hp
  have : v' = v := by
    rw [h1] at h2
    have := congrArg List.getLast? h2
    simpa using this.symm
  simp only [dataOf, k1]
  exact this ▸ h3

/-- C69 for vm2vm.c: the lines of an initialised variable are read back, and what is read represents its initial value. -/
theorem C69_vm (h : accept o src = some s) (h0 : 0 ∉ src) (hb : 202 ∉ src) (hn : Apart id N s.tab) {idx k : Nat} {d : DT} {tab : Tab}
    (hx : .data idx d tab k ∈ s.out) :
    ∃ x e c v, printAll (dirVm N) (dataOf id (.data idx d tab k)) = some x ∧ tab[idx]? = some e ∧
      readData (idText id) x = some (c ++ [.nam (id e.label), v]) ∧
      ∀ p q, (∀ l ∈ dataLabs p, l ≤ k) → Rep (p ++ (c ++ [.nam (id e.label), v] ++ q)) (renD (nameOf id tab) d) [v] := by
  obtain ⟨x, h1, h2⟩ := read_vm (dirs_ok h h0 hb hn hx)
  obtain ⟨toks, h3, -⟩ := accept_names h h0 hb
  obtain ⟨e, c, v, h4, h5, h6⟩ := data_rep (id := id) h3 hx
  exact ⟨x, e, c, v, h1, h4, by rw [h2, h5], by rw [← h5]; exact h6⟩

theorem renD_noAddr {g : Int → Int} : ∀ {t : DT}, NoAddr t → NoAddr (renD g t) := by
  intro t
  induction t with
  | semi l r ihl ihr => intro h; exact ⟨ihl h.1, ihr h.2⟩
  | list b r ih => intro h; exact ih (show NoAddr b from h)
  | addr => intro h; cases h
  | _ => intro h; trivial

/-- C69 for vm2tac.c: the same, if the initial value does not contain the address of a function or variable. -/
theorem C69_tac (h : accept o src = some s) (h0 : 0 ∉ src) (hb : 202 ∉ src) (hn : Apart id N s.tab) {idx k : Nat} {d : DT} {tab : Tab}
    (hx : .data idx d tab k ∈ s.out) (ha : NoAddr d) (t : T) :
    ∃ x e c v, printAll (dirTac N t) (dataOf id (.data idx d tab k)) = some x ∧ tab[idx]? = some e ∧
      readData (idText id) x = some (c ++ [.nam (id e.label), v]) ∧
      ∀ p q, (∀ l ∈ dataLabs p, l ≤ k) → Rep (p ++ (c ++ [.nam (id e.label), v] ++ q)) (renD (nameOf id tab) d) [v] := by
  obtain ⟨toks, h3, -⟩ := accept_names h h0 hb
  obtain ⟨e', k1, -, k3, -⟩ := var_ok h3 _ hx
  have hp : paired (dataOf id (.data idx d tab k)) = true := by
    simp only [dataOf, k1, genData_ren]
    have := genData_paired k3 ha idx e'.dim k
    obtain ⟨c, v, c1, c2, c3⟩ := genData_fine ha idx e'.dim k
    have c3' : renDir (nameOf id tab) v = v := by cases v <;> first | rfl | cases c3
    rw [c1] at this ⊢
    rw [List.map_append, map_fine c2, List.map_cons, List.map_cons, List.map_nil, c3', renDir]
    have e1 : ∀ (c : List Dir) (i j : Int), paired (c ++ [.nam i, v]) = paired (c ++ [.nam j, v]) := by
      intro c i j
      induction c with
      | nil => rfl
      | cons y c ih =>
        have : cellFirst (c ++ [.nam i, v]) = cellFirst (c ++ [.nam j, v]) := by cases c <;> rfl
        simp only [List.cons_append, paired, ih, this]
    rw [e1 c _ idx]
    exact this
  obtain ⟨x, h1, h2⟩ := read_tac (t := t) (dirs_ok h h0 hb hn hx) hp
  obtain ⟨e, c, v, h4, h5, h6⟩ := data_rep (id := id) h3 hx
  exact ⟨x, e, c, v, h1, h4, by rw [h2, h5], by rw [← h5]; exact h6⟩

/-- C69 for variables without initial value: one word under the name of the variable, with both back ends. -/
theorem C69_bss (h : accept o src = some s) (h0 : 0 ∉ src) (hb : 202 ∉ src) (hn : Apart id N s.tab) {idx : Nat} {tab : Tab}
    (hx : .bss idx tab ∈ s.out) (t : T) : ∃ e, tab[idx]? = some e ∧
      (∃ x, printAll (dirVm N) (dataOf id (.bss idx tab)) = some x ∧ readData (idText id) x = some [.nam (id e.label), .ws 1]) ∧
      ∃ x, printAll (dirTac N t) (dataOf id (.bss idx tab)) = some x ∧ readData (idText id) x = some [.nam (id e.label), .ws 1] := by
  obtain ⟨toks, h3, -⟩ := accept_names h h0 hb
  obtain ⟨e, k1, -⟩ := var_ok h3 _ hx
  have hi : nameOf id tab idx = id e.label := by simp [nameOf, k1]
  have hd := dirs_ok h h0 hb hn hx
  have e1 : dataOf id (.bss idx tab) = [.nam (id e.label), .ws 1] := by simp only [dataOf, genBss, hi]
  rw [e1] at hd ⊢
  exact ⟨e, k1, read_vm hd, read_tac hd rfl⟩

/-- C69 for strings (vmCode.c:805-810): the label and the characters are read back, with both back ends. -/
theorem C69_string (N : Int → Option Sym) (id : Sym → Int) (t : T) (x : String) (k : Nat) (hx : '\n' ∉ x.toList) :
    (∃ y, printAll (dirVm N) (genStr x k).1 = some y ∧ readData id y = some [.lab (k + 1), .str x]) ∧
    ∃ y, printAll (dirTac N t) (genStr x k).1 = some y ∧ readData id y = some [.lab (k + 1), .str x] := by
  have hd : ∀ d ∈ (genStr x k).1, DirOk N id d := List.forall_mem_cons.2 ⟨trivial, List.forall_mem_cons.2 ⟨hx, nofun⟩⟩
  exact ⟨read_vm hd, read_tac hd rfl⟩

/-- C69 is false of vm2tac.c for addresses: the text of `DW name` does not depend on the name. -/
theorem C69_addr_false (N : Int → Option Sym) (id : Sym → Int) (t : T) {i j : Int} (hij : i ≠ j) :
    ¬ ((∃ x, printAll (dirTac N t) [.dwNam i] = some x ∧ readData id x = some [.dwNam i]) ∧
       ∃ x, printAll (dirTac N t) [.dwNam j] = some x ∧ readData id x = some [.dwNam j]) := by
  rintro ⟨⟨x, h1, h2⟩, y, h3, h4⟩
  have : printAll (dirTac N t) [.dwNam i] = printAll (dirTac N t) [.dwNam j] := rfl
  rw [h1, h3] at this
  cases this
  rw [h2] at h4
  cases h4
  exact hij rfl

/-! ### Examples -/

def src69 : List Nat := Lex.bytes ("int[][] m = {{1,2},{-3}};\nchar[] s = \"ab\";\nchar[] b = {'A','B'};\nint n;\nint[][] z = array(2,3);\n" ++
  "void f() {;}\nint v = addrof(f);\n")

def toks69 : List Tok := ((Lex.lexAll (Lex.start src69)).toOption.getD []).filterMap tok

theorem lex69 : ∃ ts, Lex.lexAll (Lex.start src69) = .ok ts ∧ ts.filterMap tok = toks69 := by
  have h : (Lex.lexAll (Lex.start src69)).toOption.isSome := by decide +kernel
  unfold toks69
  revert h
  cases Lex.lexAll (Lex.start src69) with
  | error => intro h; cases h
  | ok ts => exact fun h => ⟨ts, rfl, rfl⟩

def id69 (x : Label) : Int := ["", "m", "s", "b", "n", "z", "f", "v"].idxOf x.2

def names69 (i : Int) : Option Sym := (["", "m", "s", "b", "n", "z", "f", "v"][i.toNat]?).map fun x => (false, x.toList)

def vm69 : List (Option String) := [
   some ".L1\n\tDW\t1\n\tDW\t2\n.L2\n\tDW\t65533\n.L3\n\tDW\t.L1\n\tDW\t.L2\n.m\n\tDW\t.L3\n",
   some ".s\n\tDW\t.L4\n", some ".L5\n\tDB\t65\n\tDB\t66\n.b\n\tDW\t.L5\n", some ".n\n\tWS\t1\n",
   some ".L6\n\tWS\t3\n.L7\n\tWS\t3\n.L8\n\tDW\t.L6\n\tDW\t.L7\n.z\n\tDW\t.L8\n", some "",
   some ".v\n\tDW\t.f\n"]

def tac69 : List (Option String) := [
   some ".L1\tDW\t1\n\tDW\t2\n.L2\tDW\t65533\n.L3\tDW\t.L1\n\tDW\t.L2\n.m\tDW\t.L3\n",
   some ".s\tDW\t.L4\n", some ".L5\tDB\t65\n\tDB\t66\n.b\tDW\t.L5\n", some ".n\tWS\t1\n",
   some ".L6\tWS\t3\n.L7\tWS\t3\n.L8\tDW\t.L6\n\tDW\t.L7\n.z\tDW\t.L8\n", some "", none]

/-- The text is accepted, the conditions of C69 are met, and these are the lines printed for its variables (in the order of the
program, the function has none). vm2tac prints no name for `addrof(f)`. -/
example : ∃ s, accept ⟨false, false⟩ src69 = some s ∧ 0 ∉ src69 ∧ 202 ∉ src69 ∧ Apart id69 names69 s.tab ∧
    (s.out.reverse.map fun x => (printAll (dirVm names69) (dataOf id69 x)).map String.ofList) = vm69 ∧
    (s.out.reverse.map fun x => (printAll (dirTac names69 T.init) (dataOf id69 x)).map String.ofList) = tac69 := by
  obtain ⟨ts, h1, h2⟩ := lex69
  obtain ⟨s, h, hs⟩ := run_ok (o := ⟨false, false⟩) (toks := toks69) 60 (fun s => (s.tab.map Ent.label,
    (s.out.reverse.map fun x => (printAll (dirVm names69) (dataOf id69 x)).map String.ofList),
    s.out.reverse.map fun x => (printAll (dirTac names69 T.init) (dataOf id69 x)).map String.ofList))
    (v := (["m", "s", "b", "n", "z", "f", "v"].map (fun x => (false, x)), vm69, tac69)) (by decide +kernel)
  obtain ⟨g1, g2⟩ := Prod.mk.inj hs
  obtain ⟨g2, g3⟩ := Prod.mk.inj g2
  refine ⟨s, by rw [accept_ok h1, h2]; exact h, by decide +kernel, by decide +kernel, fun e he _ => ?_, g2, g3⟩
  have : e.label ∈ s.tab.map Ent.label := List.mem_map_of_mem he
  rw [g1] at this
  revert this
  generalize e.label = l
  intro h
  have hh : ∀ l ∈ ["m", "s", "b", "n", "z", "f", "v"].map (fun x => (false, x)),
      names69 (id69 l) = some (sym l) ∧ ((sym l).2.head? ≠ some 'L' ∧ (sym l).2.head? ≠ some 'T') ∧ sym l ≠ chkSym := by
    decide +kernel
  exact ⟨(hh l h).1, plainly_of (hh l h).2.1, (hh l h).2.2⟩

end Cmm.Parse
