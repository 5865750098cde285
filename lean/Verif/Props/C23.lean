import Verif.Lib.EnvInit

/-!
C23: the environment is a finite map from names to values.

The map is a function on byte strings and is not part of the model. `EHist` are the histories: _environInit,
then setEnv(..., true), putEnv, unsetEnv and the program's own malloc, free and writes to its own
memory, in any order. Strings passed to the functions lie in memory of the program (`CStr`), that is
not in the environment's own blocks.
-/
namespace Cmm.Environ
open Cmm.Crt0 Cmm.Err Cmm.Heap Cmm.Str

/-- The map of names to values. -/
abbrev Env := List Byte → Option (List Byte)

/-- The map changed at one name. -/
def Env.upd (f : Env) (n : List Byte) (v : Option (List Byte)) : Env := fun x => if x = n then v else f x

/-- A name which can be set: not empty, without '='. -/
def GoodName (n : List Byte) : Prop := n ≠ [] ∧ 61#8 ∉ n

/-- The entries define the map: "name=value", no name twice. -/
def Defines (ts : List (List Byte)) (f : Env) : Prop :=
  (∀ n v, f n = some v ↔ 61#8 ∉ n ∧ n ++ 61#8 :: v ∈ ts) ∧
  ts.Pairwise fun s t => ¬ ∃ n v w, s = n ++ 61#8 :: v ∧ t = n ++ 61#8 :: w ∧ 61#8 ∉ n

/-- What is fixed during a run: the heap, memPool and the constant "=" outside the heap. -/
structure Setup (c : Cfg) (m0 : Mem) (k : Cst) : Prop where
  hz : c.lo + 4 ≤ c.hi
  h0 : ld m0 (c.pool + 2) = 0
  pool : k.pool = W c.pool
  eqo : ∀ x, InEq k x → Outside c x

/-- Histories. -/
inductive EHist (c : Cfg) (m0 : Mem) (k : Cst) : ESt → List (Nat × Nat) → Env → Prop
  | init {e client env ws ts f sp e'} : Hist c m0 e.heap client → IsStr e.mem k.eq [61#8] →
      Envp c client e.mem env ws ts → Defines ts f → environInit k sp e (W env) = some (.ok e') → EHist c m0 k e' client f
  | setEnv {e client f name value n v sp r e'} : EHist c m0 k e client f → CStr c client e.mem name n →
      CStr c client e.mem value v → name ≠ 0 → GoodName n → n.length + 1 < 32768 → n.length + v.length + 2 ≤ 65530 →
      setEnv k sp e name value true = some (.ok (r, e')) → EHist c m0 k e' client (f.upd n (some v))
  | putEnv {e client f string n v sp r e'} : EHist c m0 k e client f → CStr c client e.mem string (n ++ 61#8 :: v) →
      string ≠ 0 → GoodName n → n.length + 1 < 32768 → n.length + v.length + 2 ≤ 65530 →
      putEnv k sp e string = some (.ok (r, e')) → EHist c m0 k e' client (f.upd n (some v))
  | unsetEnv {e client f name n r e'} : EHist c m0 k e client f → IsStr e.mem name n → n.length < 32768 →
      unsetEnv k e name = some (.ok (r, e')) → EHist c m0 k e' client (f.upd n none)
  | poke {e client f x v} : EHist c m0 k e client f → Owned c client x → ¬ InEq k x →
      EHist c m0 k (e.setMem (e.mem.set (W x) v)) client f
  | malloc {e client f sp siz p h'} : EHist c m0 k e client f → siz ≤ 65530 →
      malloc k.pool sp e.heap (W siz) = some (.ok (p, h')) → EHist c m0 k { e with heap := h' } ((p.toNat, siz) :: client) f
  | free {e client f b h'} : EHist c m0 k e client f → b ∈ client → free k.pool e.heap (W b.1) = some (.ok h') →
      EHist c m0 k { e with heap := h' } (client.erase b) f

/-! ### Entries and the map -/

theorem key_unique {n n' v v' : List Byte} (h : n ++ 61#8 :: v = n' ++ 61#8 :: v') (h1 : 61#8 ∉ n) (h2 : 61#8 ∉ n') :
    n = n' ∧ v = v' := by
  induction n generalizing n' with
  | nil =>
    cases n' with
    | nil => simpa using h
    | cons a n' => simp at h h2; exact absurd h.1 h2.1
  | cons a n ih =>
    cases n' with
    | nil => simp at h h1; exact absurd h.1.symm h1.1
    | cons b n' =>
      simp only [List.cons_append, List.cons.injEq] at h
      simp only [List.mem_cons, not_or] at h1 h2
      obtain ⟨h3, h4⟩ := ih h.2 h1.2 h2.2
      exact ⟨by rw [h.1, h3], h4⟩

theorem found_split {vars : List Var} {n : List Byte} {j : Nat} (h : Found vars n j) (hj : j < vars.length) :
    ∃ v, 61#8 ∉ n ∧ vars.map Var.text = (vars.map Var.text).take j ++ (n ++ 61#8 :: v) :: (vars.map Var.text).drop (j + 1) := by
  obtain ⟨h1, v, h2⟩ := h.here hj
  refine ⟨v, h1, ?_⟩
  have : n ++ 61#8 :: v = (vars.map Var.text)[j]'(by simpa using hj) := by simp [h2]
  rw [this, ← List.drop_eq_getElem_cons, List.take_append_drop]

theorem pairwise_drop {α : Type} {R : α → α → Prop} {l r : List α} {x : α} (h : (l ++ x :: r).Pairwise R) :
    (l ++ r).Pairwise R := by
  refine h.sublist ?_
  exact List.Sublist.append_left (List.sublist_cons_self _ _) _

/-- The map after the first entry of a name is removed. -/
theorem defines_erase {vars : List Var} {f : Env} {n : List Byte} {j : Nat} (hd : Defines (vars.map Var.text) f)
    (hF : Found vars n j) :
    Defines ((vars.map Var.text).take j ++ (vars.map Var.text).drop (j + 1)) (f.upd n none) := by
  obtain ⟨h1, h2⟩ := hd
  by_cases hj : j < vars.length
  · obtain ⟨v, hn, hs⟩ := found_split hF hj
    set l := (vars.map Var.text).take j
    set r := (vars.map Var.text).drop (j + 1)
    rw [hs] at h1 h2
    refine ⟨?_, pairwise_drop h2⟩
    intro x y
    unfold Env.upd
    by_cases hx : x = n
    · subst hx
      simp only [if_true]
      constructor
      · intro h; cases h
      · rintro ⟨_, hm⟩
        exfalso
        rw [List.pairwise_append] at h2
        rcases List.mem_append.1 hm with hm | hm
        · exact h2.2.2 _ hm (x ++ 61#8 :: v) (by simp) ⟨x, y, v, rfl, rfl, hn⟩
        · exact (List.pairwise_cons.1 h2.2.1).1 _ hm ⟨x, v, y, rfl, rfl, hn⟩
    · rw [if_neg hx, h1]
      constructor
      · rintro ⟨g1, g2⟩
        refine ⟨g1, ?_⟩
        have g2 : x ++ 61#8 :: y ∈ l ∨ x ++ 61#8 :: y = n ++ 61#8 :: v ∨ x ++ 61#8 :: y ∈ r := by simpa using g2
        rcases g2 with g | g | g
        · simp [g]
        · exact absurd (key_unique g g1 hn).1 hx
        · simp [g]
      · rintro ⟨g1, g2⟩
        refine ⟨g1, ?_⟩
        rcases List.mem_append.1 g2 with g | g <;> simp [g]
  · have hje : j = vars.length := by have := hF.le; omega
    subst hje
    have e : (vars.map Var.text).take vars.length ++ (vars.map Var.text).drop (vars.length + 1) = vars.map Var.text := by
      rw [List.take_of_length_le (by simp), List.drop_eq_nil_of_le (by simp), List.append_nil]
    rw [e]
    refine ⟨?_, h2⟩
    intro x y
    unfold Env.upd
    by_cases hx : x = n
    · subst hx
      simp only [if_true]
      constructor
      · intro h; cases h
      · rintro ⟨g1, g2⟩
        exfalso
        obtain ⟨w, hw, hwt⟩ := List.mem_map.1 g2
        obtain ⟨i, hi, hie⟩ := List.getElem_of_mem hw
        exact hF.before i hi hi ⟨g1, y, by rw [hie, hwt]⟩
    · rw [if_neg hx, h1]

theorem defines_perm {ts ts' : List (List Byte)} {f : Env} (hd : Defines ts f) (hp : ts.Perm ts') : Defines ts' f := by
  refine ⟨fun n v => by rw [hd.1, hp.mem_iff], ?_⟩
  refine (hp.pairwise_iff ?_).1 hd.2
  intro s t h h'
  obtain ⟨n, v, w, h1, h2, h3⟩ := h'
  exact h ⟨n, w, v, h2, h1, h3⟩

/-- The map after an entry of a new name is added. -/
theorem defines_cons {ts : List (List Byte)} {f : Env} {n v : List Byte} (hn : 61#8 ∉ n) (hd : Defines ts (f.upd n none)) :
    Defines ((n ++ 61#8 :: v) :: ts) (f.upd n (some v)) := by
  obtain ⟨h1, h2⟩ := hd
  have hno : ∀ y, n ++ 61#8 :: y ∉ ts := by
    intro y hy
    have := (h1 n y).2 ⟨hn, hy⟩
    simp [Env.upd] at this
  constructor
  · intro x y
    by_cases hx : x = n
    · subst hx
      simp only [Env.upd, if_true, Option.some.injEq, List.mem_cons]
      constructor
      · rintro rfl; exact ⟨hn, Or.inl rfl⟩
      · rintro ⟨_, g | g⟩
        · exact (key_unique g hn hn).2.symm
        · exact absurd g (hno y)
    · have := h1 x y
      simp only [Env.upd, if_neg hx] at this ⊢
      rw [this, List.mem_cons]
      constructor
      · rintro ⟨g1, g2⟩; exact ⟨g1, Or.inr g2⟩
      · rintro ⟨g1, g | g⟩
        · exact absurd (key_unique g g1 hn).1 hx
        · exact ⟨g1, g⟩
  · refine List.Pairwise.cons ?_ h2
    rintro t ht ⟨x, y, w, g1, g2, g3⟩
    have := (key_unique g1 hn g3).1
    subst this
    exact hno w (g2 ▸ ht)

theorem defines_set {vars : List Var} {f : Env} {n v : List Byte} {j : Nat} (hd : Defines (vars.map Var.text) f) (hn : 61#8 ∉ n)
    (hF : Found vars n j) :
    Defines ((vars.map Var.text).take j ++ (n ++ 61#8 :: v) :: (vars.map Var.text).drop (j + 1)) (f.upd n (some v)) :=
  defines_perm (defines_cons hn (defines_erase hd hF)) List.perm_middle.symm

/-! ### setEnv and putEnv -/

variable {c : Cfg} {m0 : Mem} {k : Cst} {e : ESt} {client : List (Nat × Nat)} {vars : List Var} {a cap : Nat}

theorem setEnv_good {m : ESt} {name : Word} {n : List Byte} (hn : IsStr m.mem name n) (h61 : 61#8 ∉ n) (sp value : Word) (ow : Bool) :
    setEnv k sp m name value ow = setNEnv k sp m name (W n.length) value ow := by
  unfold setEnv
  rw [(C05_strChr m.mem name n 61#8 hn (by decide)).1 h61, lift_some, bnd_ok]
  have : ile 0 (-1 : Word) = false := by decide
  rw [this, strLen_eq hn, lift_some, bnd_ok]
  simp

theorem putEnv_good {m : ESt} {string : Word} {n v : List Byte} (hs : IsStr m.mem string (n ++ 61#8 :: v)) (h61 : 61#8 ∉ n)
    (sp : Word) :
    putEnv k sp m string = setNEnv k sp m string (W n.length) (off string (n.length + 1)) true := by
  unfold putEnv
  obtain ⟨j, hj, h1, h2, h3⟩ := (C05_strChr m.mem string _ 61#8 hs (by decide)).2 (by simp)
  have hjn : j = n.length := by
    rcases Nat.lt_trichotomy j n.length with h | h | h
    · exfalso
      rw [List.getElem_append_left h] at h2
      exact h61 (h2 ▸ List.getElem_mem _)
    · exact h
    · exfalso
      apply h3 n.length h
      simp
  subst hjn
  rw [h1, lift_some, bnd_ok]
  congr 1
  rw [add_ofNat_succ]
  rfl

theorem tail_cstr {m : Mem} {p : Word} {n v : List Byte} (h : CStr c client m p (n ++ 61#8 :: v)) :
    CStr c client m (off p (n.length + 1)) v := by
  have hfit := h.1.fits
  simp at hfit
  refine ⟨⟨?_, ?_, ?_, by omega⟩, ?_⟩
  · intro i hi
    rw [off_off, h.1.get (by simp; omega), List.getElem_append_right (by omega)]
    simp [show n.length + 1 + i - n.length = i + 1 by omega]
  · intro b hb
    exact h.1.nz b (by simp [hb])
  · have := h.1.nul
    rw [off_off, ← this]
    congr 2
    simp; omega
  · intro i hi
    rw [off_off]
    exact h.2 _ (by simp; omega)

/-- Every history satisfies the invariant. -/
theorem EHist.inv (hs : Setup c m0 k) {f : Env} (h : EHist c m0 k e client f) :
    ∃ vars, Inv c m0 k e client vars ∧ Defines (vars.map Var.text) f := by
  induction h with
  | init hh heq hE hd hm =>
    have hp : HP c m0 k _ _ := ⟨hs.hz, hs.h0, hs.pool, ⟨_, hh, List.Perm.refl _⟩, heq, hs.eqo⟩
    rcases environInit_spec _ hp hE with ⟨he, _⟩ | ⟨e1, vars, he, hI, ht, _, _⟩
    · rw [hm] at he; cases he
    · rw [hm] at he
      injection he with he; injection he with he
      subst he
      exact ⟨vars, hI, by rw [ht]; exact hd⟩
  | setEnv _ hn hv hz hg hl hsz hm ih =>
    obtain ⟨vars, ⟨a, cap, hi⟩, hd⟩ := ih
    rw [setEnv_good hn.1 hg.2] at hm
    rcases setNEnv_spec hi _ hn hv hz (le_refl _) (List.length_pos_of_ne_nil hg.1) hl hsz true with ⟨he, _⟩ | ⟨e1, vars', j, he, hI, hF, ht, _⟩
    · rw [hm] at he; cases he
    · rw [hm] at he
      injection he with he; injection he with he; injection he with _ he
      subst he
      rw [List.take_length] at hF ht
      exact ⟨vars', hI, by rw [ht]; exact defines_set hd hg.2 hF⟩
  | putEnv _ hn hz hg hl hsz hm ih =>
    obtain ⟨vars, ⟨a, cap, hi⟩, hd⟩ := ih
    rw [putEnv_good hn.1 hg.2] at hm
    rcases setNEnv_spec hi _ hn (tail_cstr hn) hz (by simp) (List.length_pos_of_ne_nil hg.1) hl hsz true with
      ⟨he, _⟩ | ⟨e1, vars', j, he, hI, hF, ht, _⟩
    · rw [hm] at he; cases he
    · rw [hm] at he
      injection he with he; injection he with he; injection he with _ he
      subst he
      rw [List.take_left] at hF ht
      exact ⟨vars', hI, by rw [ht]; exact defines_set hd hg.2 hF⟩
  | unsetEnv _ hn hl hm ih =>
    obtain ⟨vars, ⟨a, cap, hi⟩, hd⟩ := ih
    obtain ⟨e1, vars', j, he, hI, hF, ht, _⟩ := unsetEnv_spec hi hn hl
    rw [hm] at he
    injection he with he; injection he with he; injection he with _ he
    subst he
    exact ⟨vars', hI, by rw [ht]; exact defines_erase hd hF⟩
  | poke _ ho hq ih =>
    obtain ⟨vars, ⟨a, cap, hi⟩, hd⟩ := ih
    exact ⟨vars, ⟨a, cap, hi.poke ho hq _⟩, hd⟩
  | malloc _ hsz hm ih =>
    obtain ⟨vars, ⟨a, cap, hi⟩, hd⟩ := ih
    exact ⟨vars, ⟨a, cap, (hi.cmalloc hsz hm).1⟩, hd⟩
  | free _ hb hm ih =>
    obtain ⟨vars, ⟨a, cap, hi⟩, hd⟩ := ih
    exact ⟨vars, ⟨a, cap, (hi.cfree hb hm).1⟩, hd⟩

/-- After every history getEnv returns a pointer to the value of the name, null if it has none. -/
theorem C23 (hs : Setup c m0 k) {f : Env} (h : EHist c m0 k e client f) {name : Word} {n : List Byte}
    (hn : IsStr e.mem name n) (hl : n.length < 32768) :
    ∃ p, getEnv e name = some p ∧
      match f n with
      | none => p = 0
      | some v => p ≠ 0 ∧ IsStr e.mem p v := by
  obtain ⟨vars, ⟨a, cap, hi⟩, hd⟩ := h.inv hs
  obtain ⟨j, hF, hr⟩ := getEnv_spec hi hn hl
  rcases hr with ⟨hj, hg⟩ | ⟨v, hj, ht, hg, hz, hv⟩
  · refine ⟨0, hg, ?_⟩
    have : f n = none := by
      cases hf : f n with
      | none => rfl
      | some v =>
        exfalso
        obtain ⟨g1, g2⟩ := (hd.1 n v).1 hf
        obtain ⟨w, hw, hwt⟩ := List.mem_map.1 g2
        obtain ⟨i, hi', hie⟩ := List.getElem_of_mem hw
        exact hF.before i hi' (by omega) ⟨g1, v, by rw [hie, hwt]⟩
    rw [this]
  · refine ⟨_, hg, ?_⟩
    have : f n = some v := (hd.1 n v).2 ⟨(hF.here hj).1, by rw [← ht]; exact List.mem_map_of_mem (List.getElem_mem hj)⟩
    rw [this]
    exact ⟨hz, hv⟩

/-- setEnv of a good name returns false, or ends the program for want of memory; it changes nothing of the
program's own memory. It succeeds when some free block has the stated size. -/
theorem C23_setEnv (hs : Setup c m0 k) {f : Env} (h : EHist c m0 k e client f) (sp : Word) {name value : Word} {n v : List Byte}
    (hn : CStr c client e.mem name n) (hv : CStr c client e.mem value v) (hz : name ≠ 0) (hg : GoodName n)
    (hl : n.length + 1 < 32768) (hsz : n.length + v.length + 2 ≤ 65530) (ow : Bool) :
    (setEnv k sp e name value ow = some (.error EUNOMEM) ∧
      (c.hi < (sp - 10).toNat → ¬ Room c e.mem (2 * e.capacity.toNat + n.length + v.length + 30))) ∨
    ∃ e', setEnv k sp e name value ow = some (.ok (false, e')) ∧ e'.errno = e.errno ∧
      ∀ x, Owned c client x → e'.mem (W x) = e.mem (W x) := by
  obtain ⟨vars, ⟨a, cap, hi⟩, hd⟩ := h.inv hs
  rw [setEnv_good hn.1 hg.2]
  rcases setNEnv_spec hi sp hn hv hz (le_refl _) (List.length_pos_of_ne_nil hg.1) hl hsz ow with hF | ⟨e1, vars', j, he, _, _, _, hf, h1, _⟩
  · refine Or.inl ⟨hF.1, fun hsp hr => ?_⟩
    have h1 := hF.2 hsp _ hr
    have h2 := hi.room
    have h3 := hi.bound
    rw [hi.capE, W_toNat (by omega)] at h1
    omega
  · exact Or.inr ⟨e1, he, h1.1, hf⟩

/-- The same for putEnv. -/
theorem C23_putEnv (hs : Setup c m0 k) {f : Env} (h : EHist c m0 k e client f) (sp : Word) {string : Word} {n v : List Byte}
    (hn : CStr c client e.mem string (n ++ 61#8 :: v)) (hz : string ≠ 0) (hg : GoodName n)
    (hl : n.length + 1 < 32768) (hsz : n.length + v.length + 2 ≤ 65530) :
    (putEnv k sp e string = some (.error EUNOMEM) ∧
      (c.hi < (sp - 10).toNat → ¬ Room c e.mem (2 * e.capacity.toNat + n.length + v.length + 30))) ∨
    ∃ e', putEnv k sp e string = some (.ok (false, e')) ∧ e'.errno = e.errno ∧
      ∀ x, Owned c client x → e'.mem (W x) = e.mem (W x) := by
  obtain ⟨vars, ⟨a, cap, hi⟩, hd⟩ := h.inv hs
  rw [putEnv_good hn.1 hg.2]
  rcases setNEnv_spec hi sp hn (tail_cstr hn) hz (by simp) (List.length_pos_of_ne_nil hg.1) hl hsz true with
    hF | ⟨e1, vars', j, he, _, _, _, hf, h1, _⟩
  · refine Or.inl ⟨hF.1, fun hsp hr => ?_⟩
    have h1 := hF.2 hsp _ hr
    have h2 := hi.room
    have h3 := hi.bound
    rw [hi.capE, W_toNat (by omega)] at h1
    omega
  · exact Or.inr ⟨e1, he, h1.1, hf⟩

/-- unsetEnv always returns false and changes nothing of the program's own memory. -/
theorem C23_unsetEnv (hs : Setup c m0 k) {f : Env} (h : EHist c m0 k e client f) {name : Word} {n : List Byte}
    (hn : IsStr e.mem name n) (hl : n.length < 32768) :
    ∃ e', unsetEnv k e name = some (.ok (false, e')) ∧ e'.errno = e.errno ∧
      ∀ x, Owned c client x → e'.mem (W x) = e.mem (W x) := by
  obtain ⟨vars, ⟨a, cap, hi⟩, hd⟩ := h.inv hs
  obtain ⟨e1, vars', j, he, _, _, _, hf, h1, _⟩ := unsetEnv_spec hi hn hl
  exact ⟨e1, he, h1.1, hf⟩

/-- An empty name or one with '=' is refused: errno is EINVAL, nothing else changes. -/
theorem C23_setEnv_bad (k : Cst) (sp : Word) (e : ESt) (name value : Word) (n : List Byte) (hn : IsStr e.mem name n)
    (hl : n.length < 32768) (hbad : ¬ GoodName n) (ow : Bool) :
    setEnv k sp e name value ow = some (.ok (true, { e with errno := EINVAL })) := by
  by_cases h61 : (61#8 : Byte) ∈ n
  · obtain ⟨j, hj, h1, _⟩ := (C05_strChr e.mem name n 61#8 hn (by decide)).2 h61
    unfold setEnv
    have : ile 0 (BitVec.ofNat 16 j) = true := by
      rw [show (0 : Word) = BitVec.ofNat 16 0 from rfl, ile_ofNat (by omega) (by omega)]; simp
    rw [h1, lift_some, bnd_ok, if_pos this]
  · have : n = [] := by
      by_contra hc
      exact hbad ⟨hc, h61⟩
    subst this
    rw [setEnv_good hn h61]
    unfold setNEnv
    rw [if_pos (Or.inr (by decide))]

/-- putEnv refuses a string without '=' or beginning with it. -/
theorem C23_putEnv_bad (k : Cst) (sp : Word) (e : ESt) (string : Word) (t : List Byte) (hn : IsStr e.mem string t)
    (hbad : 61#8 ∉ t ∨ t.head? = some 61#8) :
    putEnv k sp e string = some (.ok (true, { e with errno := EINVAL })) := by
  by_cases h61 : (61#8 : Byte) ∈ t
  · have hh : t.head? = some 61#8 := hbad.resolve_left (fun h => h h61)
    obtain ⟨r, rfl⟩ : ∃ r, t = 61#8 :: r := by
      cases t with
      | nil => cases hh
      | cons a r => simp at hh; exact ⟨r, by rw [hh]⟩
    rw [putEnv_good (n := []) hn (by simp)]
    unfold setNEnv
    rw [if_pos (Or.inr (by decide))]
  · unfold putEnv
    rw [(C05_strChr e.mem string t 61#8 hn (by decide)).1 h61, lift_some, bnd_ok]
    unfold setNEnv
    rw [if_pos (Or.inr (by decide))]

theorem bnd_eq_ok {α β : Type} {x : Res α} {f : α → Res β} {b : β} (h : bnd x f = some (.ok b)) :
    ∃ a, x = some (.ok a) ∧ f a = some (.ok b) := by
  unfold bnd at h
  split at h
  · cases h
  · cases h
  · exact ⟨_, rfl, h⟩

/-! ### A concrete history

"A=1" is in the environment of the process; then setEnv("A", "2", ...). -/

/-- Bytes below the heap: "=", "A=1", "A", "2", "B" and the array of the environment. -/
def dMem : Mem := fun a =>
  if a = 0x10#16 then 61#8 else if a = 0x20#16 then 65#8 else if a = 0x21#16 then 61#8 else if a = 0x22#16 then 49#8
  else if a = 0x30#16 then 65#8 else if a = 0x40#16 then 50#8 else if a = 0x48#16 then 66#8 else if a = 0x51#16 then 0x20#8 else 0#8

def dCst : Cst := ⟨W exCfg.pool, 0x10, 0, 0⟩

theorem dSetup : Setup exCfg dMem dCst := by
  refine ⟨by decide, by rfl, rfl, ?_⟩
  rintro x (rfl | rfl) <;> exact ⟨by decide, by decide, by decide⟩

def dSt : ESt := ⟨Heap.init (W exCfg.pool) (W exCfg.lo) (W exCfg.hi) dMem, 0, 0, 0, 0⟩

theorem dOwned {x : Nat} (h : x < 0x100) : Owned exCfg [] x := by
  refine ⟨by omega, Or.inr ?_⟩
  simp only [exCfg]
  omega

theorem dLow {x : Nat} (h : x < 0x100) : dSt.mem (W x) = dMem (W x) := by
  have e1 : next (setNext dMem (W exCfg.pool) (W exCfg.lo)) (W exCfg.pool) = W 0x200 := by
    rw [setNext_eq, next_eq, ld_sw_same]; rfl
  have e2 : next (setSize (setNext dMem (W exCfg.pool) (W exCfg.lo)) (W 0x200) (W exCfg.hi - W exCfg.lo)) (W exCfg.pool) = W 0x200 := by
    rw [setSize_eq, setNext_eq, next_eq, ld_sw_ne _ _ (by decide) (by decide) (by decide), ld_sw_same]; rfl
  have h1 : dSt.mem = ((dMem.sw (W 0x100) (W 0x200)).sw (W 0x202) (W exCfg.hi - W exCfg.lo)).sw (W 0x200) 0 := by
    show (Heap.init _ _ _ _).mem = _
    unfold Heap.init
    simp only
    rw [e1, e2, setSize_eq]
    rfl
  show dSt.mem (W x) = _
  rw [h1, sw_frame _ _ (by decide) (by omega) (by omega), sw_frame _ _ (by decide) (by omega) (by omega),
    sw_frame _ _ (by decide) (by omega) (by omega)]

theorem dStr {a : Nat} {t : List Byte} (ha : a + t.length < 0x100)
    (h : ∀ i, i < t.length → dMem (W (a + i)) = t[i]?.getD 0) (hz : ∀ b ∈ t, b ≠ 0) (hn : dMem (W (a + t.length)) = 0#8) :
    CStr exCfg [] dSt.mem (W a) t := by
  refine ⟨⟨?_, hz, ?_, by omega⟩, ?_⟩
  · intro i hi
    rw [off_W, dLow (by omega), h i hi]
    simp [hi]
  · rw [off_W, dLow (by omega)]; exact hn
  · intro i hi
    rw [off_W, W_toNat (by omega)]
    exact dOwned (by omega)

theorem dEq : CStr exCfg [] dSt.mem (W 0x10) [61#8] :=
  dStr (by decide) (by decide) (by decide) (by decide)
theorem dA1 : CStr exCfg [] dSt.mem (W 0x20) [65#8, 61#8, 49#8] :=
  dStr (by decide) (by decide) (by decide) (by decide)
theorem dA : CStr exCfg [] dSt.mem (W 0x30) [65#8] :=
  dStr (by decide) (by decide) (by decide) (by decide)
theorem d2 : CStr exCfg [] dSt.mem (W 0x40) [50#8] :=
  dStr (by decide) (by decide) (by decide) (by decide)
theorem dB : CStr exCfg [] dSt.mem (W 0x48) [66#8] :=
  dStr (by decide) (by decide) (by decide) (by decide)

theorem dEnvp : Envp exCfg [] dSt.mem 0x50 [W 0x20] [[65#8, 61#8, 49#8]] := by
  refine ⟨by decide, ?_, ?_, by intro w hw; rw [List.mem_singleton] at hw; subst hw; decide, rfl, ?_⟩
  · have h0 : ld dSt.mem 0x50 = W 0x20 := by
      rw [ld_keep (a := 0x50) (dLow (by decide)) (dLow (by decide))]; decide
    have h1 : ld dSt.mem 0x52 = 0 := by
      rw [ld_keep (a := 0x52) (dLow (by decide)) (dLow (by decide))]; decide
    intro i hi
    have : i = 0 ∨ i = 1 := by simp at hi; omega
    rcases this with rfl | rfl
    · exact h0
    · exact h1
  · intro x _ h2
    exact dOwned (by simp at h2; omega)
  · intro i h1 h2
    have : i = 0 := by simp at h1; omega
    subst this
    exact ⟨dA1, by simp⟩

/-- The map of the first environment. -/
def dEnv : Env := fun n => if n = [65#8] then some [49#8] else none

theorem dDefines : Defines [[65#8, 61#8, 49#8]] dEnv := by
  refine ⟨?_, by simp⟩
  intro n v
  have key : n ++ 61#8 :: v ∈ [[65#8, 61#8, 49#8]] ↔ n ++ 61#8 :: v = [65#8] ++ 61#8 :: [49#8] := by simp
  rw [key]
  unfold dEnv
  constructor
  · intro h
    by_cases hn : n = [65#8]
    · subst hn; simp at h; subst h; simp
    · rw [if_neg hn] at h; cases h
  · rintro ⟨h1, h2⟩
    obtain ⟨rfl, rfl⟩ := key_unique h2 h1 (by decide)
    simp

theorem dRoom : Room exCfg dSt.mem 0xDE00 := by
  have hr := Rep.init exCfg dMem (by decide) (by rfl)
  have : Room exCfg (Heap.init (W exCfg.pool) (W exCfg.lo) (W exCfg.hi) dMem).mem 0xDE00 := by
    rw [hr.room_iff]
    exact ⟨_, List.mem_singleton.2 rfl, rfl, by decide⟩
  exact this

/-- The history: _environInit succeeds, and memory is left. -/
theorem dHist : ∃ e, EHist exCfg dMem dCst e [] dEnv ∧ Room exCfg e.mem 0xD000 ∧ e.capacity.toNat < 100 ∧
    (∀ x, Owned exCfg [] x → e.mem (W x) = dSt.mem (W x)) := by
  have hh : Hist exCfg dMem dSt.heap [] := Hist.init
  have hp : HP exCfg dMem dCst dSt.heap [] := ⟨dSetup.hz, dSetup.h0, dSetup.pool, ⟨_, hh, List.Perm.refl _⟩, dEq.1, dSetup.eqo⟩
  rcases environInit_spec 0xF000#16 hp dEnvp with ⟨_, hF⟩ | ⟨e', vars, he, hI, ht, hf, hL⟩
  · have := hF (by decide) _ dRoom
    simp [need] at this
  · have hc : e'.capacity = 2#16 := by
      unfold environInit at he
      rw [show countLoop dSt.mem (W 0x50) 0 = some (W [W 0x20].length) from countLoop_spec dEnvp.arr dEnvp.nz 1 0 rfl, lift_some, bnd_ok] at he
      obtain ⟨⟨a, h1⟩, _, he⟩ := bnd_eq_ok he
      obtain ⟨h2, _, he⟩ := bnd_eq_ok he
      injection he with he; injection he with he
      subst he
      rfl
    refine ⟨e', EHist.init hh dEq.1 dEnvp dDefines he, ?_, by rw [hc]; decide, hf⟩
    have := hL _ dRoom (by simp [need])
    exact this.mono (by simp [need])

/-- getEnv("A") after setEnv("A", "2", true) is "2"; getEnv("B") is null. -/
example : ∃ e p q, EHist exCfg dMem dCst e [] (dEnv.upd [65#8] (some [50#8])) ∧
    getEnv e (W 0x30) = some p ∧ IsStr e.mem p [50#8] ∧ getEnv e (W 0x48) = some q ∧ q = 0 := by
  obtain ⟨e, h, hr, hc, hf⟩ := dHist
  rcases C23_setEnv dSetup h 0xF000#16 (dA.keep hf) (d2.keep hf) (by decide) ⟨by decide, by decide⟩ (by decide) (by decide) true with
    ⟨_, hn⟩ | ⟨e', he, _, hf'⟩
  · exact absurd (hr.mono (by simp; omega)) (hn (by decide))
  · have h' := EHist.setEnv h (dA.keep hf) (d2.keep hf) (by decide) ⟨by decide, by decide⟩ (by decide) (by decide) he
    obtain ⟨p, h1, h2⟩ := C23 dSetup h' ((dA.keep hf).keep hf').1 (by decide)
    obtain ⟨q, h3, h4⟩ := C23 dSetup h' ((dB.keep hf).keep hf').1 (by decide)
    exact ⟨e', p, q, h', h1, h2.2, h3, h4⟩

/-- The last clause of C23 does not hold: setEnv(name, value, false) changes a variable which exists. -/
theorem C23_false : ¬ ∀ (c : Cfg) (m0 : Mem) (k : Cst) (e e' : ESt) (client : List (Nat × Nat)) (f : Env) (sp name value : Word)
    (n v old : List Byte), Setup c m0 k → EHist c m0 k e client f → CStr c client e.mem name n → CStr c client e.mem value v →
    f n = some old → setEnv k sp e name value false = some (.ok (false, e')) →
    ∃ p, getEnv e' name = some p ∧ IsStr e'.mem p old := by
  intro hall
  obtain ⟨e, h, hr, hc, hf⟩ := dHist
  rcases C23_setEnv dSetup h 0xF000#16 (dA.keep hf) (d2.keep hf) (by decide) ⟨by decide, by decide⟩ (by decide) (by decide) false with
    ⟨_, hn⟩ | ⟨e', he, _, hf'⟩
  · exact absurd (hr.mono (by simp; omega)) (hn (by decide))
  · obtain ⟨p, h1, h2⟩ := hall _ _ _ e e' _ _ 0xF000#16 _ _ [65#8] [50#8] [49#8] dSetup h (dA.keep hf) (d2.keep hf) rfl he
    have he' : setEnv dCst 0xF000#16 e (W 0x30) (W 0x40) true = some (.ok (false, e')) := he
    have h' := EHist.setEnv h (dA.keep hf) (d2.keep hf) (by decide) ⟨by decide, by decide⟩ (by decide) (by decide) he'
    obtain ⟨q, h3, h4⟩ := C23 dSetup h' ((dA.keep hf).keep hf').1 (by decide)
    rw [h1] at h3
    injection h3 with h3
    subst h3
    have := h2.unique h4.2
    simp at this

end Cmm.Environ
