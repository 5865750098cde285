import Verif.Lib.AbsPath
import Mathlib.Tactic.IntervalCases

/-
C24 absPath yields the canonical absolute path.

`comps` splits a path at the slashes, `step` walks one component, `walk` walks all of them from the root, and
`pathOf` is the path of a directory given by the names on the way from the root. The theorem says that absPath,
when it returns false, has stored the path of the directory reached by walking the components of its argument
from the root or from the working directory. Conditions: the buffer has 2 bytes or more and is apart from the strings,
all lengths are below 32768, and the working directory is an absolute path.
-/
namespace Cmm.Environ
open Cmm.Str Cmm.Err

/-- Where absPath starts: at the root, or at the working directory if the path `t` is relative. -/
def Start (c : Cst) (e : ESt) (buf : Word) (bufSiz : Nat) (t : List Byte) (d : List (List Byte)) (n : Nat) : Prop :=
  (t.head? = some 47#8 ∧ d = [] ∧ n = 0) ∨
  (t.head? ≠ some 47#8 ∧ ∃ pw P, getWd c e = some pw ∧ IsStr e.mem pw P ∧ P.head? = some 47#8 ∧
    Apart buf bufSiz pw (P.length + 1) ∧ d = walk (comps P) ∧ n = P.length)

/-- The conditions on a call of absPath. -/
structure Call (c : Cst) (e : ESt) (path buf : Word) (bufSiz : Nat) (t : List Byte) (n : Nat) : Prop where
  size : 2 ≤ bufSiz
  size_lt : bufSiz < 32768
  str : IsStr e.mem path t
  apart : Apart buf bufSiz path (t.length + 1)
  slash : IsStr e.mem c.slash [47#8]
  slash_apart : Apart buf bufSiz c.slash 2
  len : n + t.length + 1 < 32768

theorem comps_append (a b : List Byte) : comps (a ++ 47#8 :: b) = comps a ++ comps b := by
  induction a with
  | nil => simp [comps]
  | cons c a ih =>
    rw [List.cons_append, comps, comps, ih]
    split
    · rfl
    · cases h : comps a with
      | nil => exact absurd h (comps_ne a)
      | cons w ws => rfl

/-- The full text and the walk from the start. -/
theorem Start.full {c : Cst} {e : ESt} {path buf : Word} {bufSiz : Nat} {t : List Byte} {d n}
    (hc : Call c e path buf bufSiz t n) (h : Start c e buf bufSiz t d n) :
    ∃ full, FullText c e bufSiz buf path t full ∧ full.length = n + 1 + t.length ∧ full.head? = some 47#8 ∧
      walk (comps full) = (comps t).foldl step d := by
  have hl := hc.len
  rcases h with ⟨h1, rfl, rfl⟩ | ⟨h1, pw, P, h2, h3, h4, h5, rfl, rfl⟩
  · refine ⟨47#8 :: t, .inl ⟨h1, rfl⟩, by simp; omega, rfl, ?_⟩
    rw [comps, if_pos rfl, walk, List.foldl_cons]
    rfl
  · refine ⟨P ++ 47#8 :: t, .inr ⟨h1, pw, P, h2, h3, h5, by omega, rfl⟩, by simp; omega, ?_, ?_⟩
    · cases P with
      | nil => simp at h4
      | cons x P => simpa using h4
    · rw [comps_append, walk, List.foldl_append]
      rfl

/-- When absPath succeeds, the buffer holds the path of the directory reached. -/
theorem C24 (c : Cst) (stat : Mem → Word → Word × Word) (e e' : ESt) (path buf : Word) (bufSiz : Nat) (t : List Byte)
    (d : List (List Byte)) (n : Nat) (hc : Call c e path buf bufSiz t n) (hs : Start c e buf bufSiz t d n)
    (h : absPath c stat e path buf (BitVec.ofNat 16 bufSiz) = some (false, e')) :
    IsStr e'.mem buf (pathOf ((comps t).foldl step d)) := by
  obtain ⟨full, h1, h2, h3, h4⟩ := hs.full hc
  have hl := hc.len
  rcases absPath_spec (stat := stat) hc.size hc.size_lt hc.str hc.apart hc.slash hc.slash_apart h1 (by omega) h3 with
    ⟨_, m, e1, _⟩ | ⟨_, m1, a, b, _, _, _, _, ⟨_, e1⟩ | ⟨_, _, e1⟩ | ⟨_, _, m, e1, _, e3⟩⟩
  · rw [h] at e1; simp at e1
  · rw [h] at e1; simp at e1
  · rw [h] at e1; simp at e1
  · rw [h] at e1
    simp at e1
    rw [e1, ← h4]
    exact e3

/-- absPath does succeed if there is room and the system finds the directories. -/
theorem C24_success (c : Cst) (stat : Mem → Word → Word × Word) (e : ESt) (path buf : Word) (bufSiz : Nat)
    (t : List Byte) (d : List (List Byte)) (n : Nat) (hc : Call c e path buf bufSiz t n)
    (hs : Start c e buf bufSiz t d n) (hroom : n + t.length + 2 < bufSiz)
    (hstat : ∀ m, ilt (stat m buf).1 0 = false ∧ (stat m buf).2 &&& 0x10#16 ≠ 0) :
    ∃ e', absPath c stat e path buf (BitVec.ofNat 16 bufSiz) = some (false, e') := by
  obtain ⟨full, h1, h2, h3, h4⟩ := hs.full hc
  have hl := hc.len
  rcases absPath_spec (stat := stat) hc.size hc.size_lt hc.str hc.apart hc.slash hc.slash_apart h1 (by omega) h3 with
    ⟨h5, _⟩ | ⟨_, m1, a, b, _, _, _, _, ⟨h5, e1⟩ | ⟨_, h5, e1⟩ | ⟨_, _, m, e1, _, e3⟩⟩
  · omega
  · rw [(hstat m1).1] at h5; simp at h5
  · exact absurd h5 (hstat m1).2
  · exact ⟨_, e1⟩

/-- The directory whose existence the system is asked for: what is before the last slash of the path
(in which ".." is still a component). -/
theorem C24_asked (c : Cst) (stat : Mem → Word → Word × Word) (e e' : ESt) (path buf : Word) (bufSiz : Nat)
    (t : List Byte) (d : List (List Byte)) (n : Nat) (hc : Call c e path buf bufSiz t n)
    (hs : Start c e buf bufSiz t d n)
    (h : absPath c stat e path buf (BitVec.ofNat 16 bufSiz) = some (false, e')) :
    ∃ m a b full, FullText c e bufSiz buf path t full ∧ IsStr m buf (a ++ [47#8]) ∧ 47#8 ∉ b ∧
      a ++ 47#8 :: b = pathOf ((comps full).filter fun w => w ≠ [] ∧ w ≠ [46#8]) ∧
      ilt (stat m buf).1 0 = false ∧ (stat m buf).2 &&& 0x10#16 ≠ 0 ∧ e'.attr = (stat m buf).2 := by
  obtain ⟨full, h1, h2, h3, h4⟩ := hs.full hc
  have hl := hc.len
  rcases absPath_spec (stat := stat) hc.size hc.size_lt hc.str hc.apart hc.slash hc.slash_apart h1 (by omega) h3 with
    ⟨_, m, e1, _⟩ | ⟨_, m1, a, b, _, f1, f2, f3, ⟨_, e1⟩ | ⟨_, _, e1⟩ | ⟨g1, g2, m, e1, _, e3⟩⟩
  · rw [h] at e1; simp at e1
  · rw [h] at e1; simp at e1
  · rw [h] at e1; simp at e1
  · rw [h] at e1
    simp at e1
    refine ⟨m1, a, b, full, h1, f1, f3, ?_, by simpa using g1, g2, by rw [e1]⟩
    rw [f2]
    congr 1
    generalize comps full = ws
    induction ws with
    | nil => rfl
    | cons w ws ih =>
      rw [List.map_cons, List.filter_cons, List.filter_cons, ih]
      unfold undot
      by_cases h1 : w = [46#8]
      · simp [h1]
      · by_cases h2 : w = []
        · simp [h2]
        · simp [h1, h2]

/-! The path of a directory reached is canonical. -/

/-- A name: not empty, "." or "..", without slash. -/
def Name (w : List Byte) : Prop := w ≠ [] ∧ w ≠ [46#8] ∧ w ≠ [46#8, 46#8] ∧ 47#8 ∉ w

theorem foldl_names (ws : List (List Byte)) (d : List (List Byte)) (h : ∀ w ∈ ws, 47#8 ∉ w) (hd : ∀ w ∈ d, Name w) :
    ∀ w ∈ ws.foldl step d, Name w := by
  induction ws generalizing d with
  | nil => exact hd
  | cons w ws ih =>
    rw [List.foldl_cons]
    apply ih _ (fun v hv => h v (by simp [hv]))
    intro v hv
    unfold step at hv
    split at hv
    · exact hd v hv
    · split at hv
      · exact hd v (List.dropLast_subset _ hv)
      · rename_i h1 h2
        rcases List.mem_append.1 hv with hv | hv
        · exact hd v hv
        · simp at hv
          subst hv
          exact ⟨fun e => h1 (.inl e), fun e => h1 (.inr e), h2, h v (by simp)⟩

/-- What absPath stores begins with a slash, its components are names (the root has none), it does
not end with a slash unless it is the root, and walking it leads to the same directory. -/
theorem C24_canonical (t : List Byte) (P : List Byte) (d : List (List Byte)) (hd : d = [] ∨ d = walk (comps P)) :
    let r := (comps t).foldl step d
    (pathOf r).head? = some 47#8 ∧
    (comps (pathOf r) = [] :: r ∨ (r = [] ∧ pathOf r = [47#8])) ∧ (∀ w ∈ r, Name w) ∧
    (r ≠ [] → (pathOf r).getLast? ≠ some 47#8) ∧
    walk (comps (pathOf r)) = r := by
  intro r
  have hd' : ∀ w ∈ d, Name w := by
    rcases hd with rfl | rfl
    · simp
    · exact foldl_names _ _ (fun w hw => comps_noSlash P w hw) (by simp)
  have hr : ∀ w ∈ r, Name w := foldl_names _ _ (fun w hw => comps_noSlash t w hw) hd'
  generalize r = r at hr
  have hcomp : comps (pathOf r) = [] :: r ∨ (r = [] ∧ pathOf r = [47#8]) := by
    cases r with
    | nil => exact .inr ⟨rfl, rfl⟩
    | cons w ws => exact .inl (comps_of_render (fun v hv => (hr v hv).2.2.2))
  refine ⟨?_, hcomp, hr, ?_, ?_⟩
  · obtain ⟨x, hx⟩ := pathOf_head r
    rw [hx]
    rfl
  · intro hne h
    rcases List.eq_nil_or_concat r with rfl | ⟨q, v, rfl⟩
    · exact hne rfl
    · have hv := hr v (by simp)
      have e : pathOf (q.concat v) = render q ++ 47#8 :: v := by
        rw [List.concat_eq_append]
        have : pathOf (q ++ [v]) = render (q ++ [v]) := by
          cases q <;> rfl
        rw [this, render_append]
        simp
      rw [e, List.getLast?_append] at h
      have hvl : (47#8 :: v).getLast? = v.getLast? := by
        cases v with
        | nil => exact absurd rfl hv.1
        | cons a b => exact List.getLast?_cons_cons
      rw [hvl] at h
      cases hx : v.getLast? with
      | none => exact hv.1 (List.getLast?_eq_none_iff.1 hx)
      | some x =>
        rw [hx] at h
        simp at h
        subst h
        exact hv.2.2.2 (List.mem_of_getLast? hx)
  · have key : ∀ (ws d : List (List Byte)), (∀ w ∈ ws, Name w) → ws.foldl step d = d ++ ws := by
      intro ws
      induction ws with
      | nil => simp
      | cons w ws ih =>
        intro d h
        have hw := h w (by simp)
        rw [List.foldl_cons, ih _ (fun v hv => h v (by simp [hv]))]
        simp [step, hw.1, hw.2.1, hw.2.2.1]
    rcases hcomp with h | ⟨rfl, _⟩
    · rw [h, walk, List.foldl_cons]
      have : step [] [] = [] := rfl
      rw [this, key r [] hr]
      simp
    · rfl

/-! "/a//./b/../c" -/

def demoPath : List Byte := [47#8, 97#8, 47#8, 47#8, 46#8, 47#8, 98#8, 47#8, 46#8, 46#8, 47#8, 99#8]

def demoMem : Mem := fun a => if a = 50#16 then 47#8 else if a.toNat < 100 then 0#8 else (demoPath[a.toNat - 100]?).getD 0#8

def demoSt : ESt := ⟨⟨demoMem, 0⟩, 0, 0, 0, 0⟩

def demoCst : Cst := ⟨0, 0, 0, 50#16⟩

theorem demoCall : Call demoCst demoSt 100#16 200#16 80 demoPath 0 where
  size := by decide
  size_lt := by decide
  str := ⟨by
    intro k hk
    have : k < 12 := hk
    interval_cases k <;> rfl, by decide, by decide, by decide⟩
  apart := by
    intro i j hi hj e
    exact apart_of_nat 100 13 200 80 (by decide) (by decide) j i hj hi e.symm
  slash := ⟨by
    intro k hk
    have : k < 1 := hk
    interval_cases k
    rfl, by decide, by decide, by decide⟩
  slash_apart := by
    intro i j hi hj e
    exact apart_of_nat 50 2 200 80 (by decide) (by decide) j i hj hi e.symm
  len := by decide

example : ∃ e', absPath demoCst (fun _ _ => (0, 0x10)) demoSt 100#16 200#16 80#16 = some (false, e') ∧
    IsStr e'.mem 200#16 [47#8, 97#8, 47#8, 99#8] := by
  have hs : Start demoCst demoSt 200#16 80 demoPath [] 0 := .inl ⟨rfl, rfl, rfl⟩
  obtain ⟨e', h⟩ := C24_success demoCst (fun _ _ => (0, 0x10)) demoSt 100#16 200#16 80 demoPath [] 0 demoCall hs
    (by decide) (fun m => ⟨by decide, by decide⟩)
  exact ⟨e', h, C24 _ _ _ _ _ _ _ _ _ _ demoCall hs h⟩

end Cmm.Environ
