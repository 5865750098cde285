import Verif.Lib.WrapSys
import Verif.Props.C24

/-
C85 The system calls with paths (exec, creat, remove, mkDir, rmDir, open, stat) ask the system once, with the canonical
absolute path, or fail with an error and ask nothing; the buffer they get is freed once and last.

The path is the one C24 reaches; `Asked` and `Failed` are the two outcomes a caller and the system can see.
-/
namespace Cmm.WrapSys
open Cmm.Str Cmm.Err Cmm.Environ

/-- The call was made: once, between getting and freeing the buffer, with the text `p` as its path, the other arguments as given and
the rest of memory as it was; its result is returned, its memory kept, and errno is as before. -/
def Asked (w : World) (e : ESt) (s : Sys) (args : List Word) (p : List Byte) (o : Option (Word × ESt × List Ev)) : Prop :=
  ∃ m e', o = some ((w.sys s (w.buf :: args) m).1, e', [.alloc w.buf, .call s (w.buf :: args) m, .free w.buf]) ∧
    IsStr m w.buf p ∧ SameExcept e.mem m w.buf 80 ∧ e'.mem = (w.sys s (w.buf :: args) m).2 ∧ e'.errno = e.errno

/-- No call was made: the buffer was got and freed; the result is an error (negative), also in errno; memory outside is as it was. -/
def Failed (w : World) (e : ESt) (r : Word) (o : Option (Word × ESt × List Ev)) : Prop :=
  ∃ e', o = some (r, e', [.alloc w.buf, .free w.buf]) ∧ e'.errno = r ∧ r.toInt < 0 ∧ SameExcept e.mem e'.mem w.buf 80

/-- The system, asked by absPath, says there is a directory. -/
def IsDir (w : World) (m : Mem) : Prop := 0 ≤ (w.stat m w.buf).1.toInt ∧ (w.stat m w.buf).2 &&& 0x10#16 ≠ 0

theorem ilt_zero (a : Word) : ilt a 0 = true ↔ a.toInt < 0 := by
  simp [ilt, BitVec.slt]

/-- The path the system is asked about first: all up to the last slash of the path (below the working directory if relative), without
empty components and ".". -/
def Asks (w : World) (e : ESt) (path : Word) (t : List Byte) (m : Mem) : Prop :=
  ∃ full a b, FullText w.c e 80 w.buf path t full ∧ IsStr m w.buf (a ++ [47#8]) ∧ 47#8 ∉ b ∧
    a ++ 47#8 :: b = pathOf ((comps full).filter fun v => v ≠ [] ∧ v ≠ [46#8])

/-- The outcome `o` of system call `s` for the path `t` walked from `d`, a directory with a path of `n` characters: paths that are too
long are invalid; else the directory is looked for, and errors of the system and what is no directory are reported; else the system is
asked for the path reached. -/
def Outcome (w : World) (e : ESt) (s : Sys) (path : Word) (args : List Word) (t : List Byte) (d : List (List Byte)) (n : Nat)
    (o : Option (Word × ESt × List Ev)) : Prop :=
  (78 ≤ n + t.length ∧ Failed w e (BitVec.ofInt 16 (-12)) o) ∨
  (n + t.length < 78 ∧ ∃ m1, SameExcept e.mem m1 w.buf 80 ∧ Asks w e path t m1 ∧
    (((w.stat m1 w.buf).1.toInt < 0 ∧ Failed w e (w.stat m1 w.buf).1 o) ∨
     (0 ≤ (w.stat m1 w.buf).1.toInt ∧ (w.stat m1 w.buf).2 &&& 0x10#16 = 0 ∧ Failed w e (BitVec.ofInt 16 (-2)) o) ∨
     (IsDir w m1 ∧ Asked w e s args (pathOf ((comps t).foldl step d)) o)))

theorem filter_undot (ws : List (List Byte)) :
    (ws.map undot).filter (· ≠ []) = ws.filter fun v => v ≠ [] ∧ v ≠ [46#8] := by
  induction ws with
  | nil => rfl
  | cons w ws ih =>
    rw [List.map_cons, List.filter_cons, List.filter_cons, ih]
    unfold undot
    by_cases h1 : w = [46#8]
    · simp [h1]
    · by_cases h2 : w = []
      · simp [h2]
      · simp [h1, h2]

theorem wrap_outcome (w : World) (e : ESt) (s : Sys) (path : Word) (args : List Word) (t : List Byte) (d : List (List Byte)) (n : Nat)
    (hb : w.buf ≠ 0#16) (hc : Call w.c e path w.buf 80 t n) (hs : Start w.c e w.buf 80 t d n) :
    Outcome w e s path args t d n (wrap s w e path args) := by
  obtain ⟨full, h1, h2, h3, h4⟩ := hs.full hc
  have hl := hc.len
  rcases absPath_spec (stat := w.stat) hc.size hc.size_lt hc.str hc.apart hc.slash hc.slash_apart h1 (by omega) h3 with
    ⟨h5, m, e1, e2⟩ | ⟨h5, m1, a, b, e2, k1, k2, k3, hh⟩
  · refine .inl ⟨by omega, { e.setMem m with errno := EINVAL }, ?_, rfl, by decide, e2⟩
    unfold wrap newAbsPath
    simp only [e1]; rfl
  refine .inr ⟨by omega, m1, e2, ⟨full, a, b, h1, k1, k3, by rw [k2, filter_undot]⟩, ?_⟩
  rcases hh with ⟨g, e1⟩ | ⟨g, g', e1⟩ | ⟨g, g', m, e1, e3, e4⟩
  · refine .inl ⟨(ilt_zero _).1 g, { e.setMem m1 with attr := (w.stat m1 w.buf).2, errno := (w.stat m1 w.buf).1 }, ?_, rfl,
      (ilt_zero _).1 g, e2⟩
    unfold wrap newAbsPath
    simp only [e1]; rfl
  · rw [ilt_zero] at g
    refine .inr (.inl ⟨by omega, g', { e.setMem m1 with attr := (w.stat m1 w.buf).2, errno := ENOENT }, ?_, rfl, by decide, e2⟩)
    unfold wrap newAbsPath
    simp only [e1]; rfl
  · rw [ilt_zero] at g
    rw [h4] at e4
    refine .inr (.inr ⟨⟨by omega, g'⟩, m,
      ESt.setMem { e.setMem m with attr := (w.stat m1 w.buf).2 } (w.sys s (w.buf :: args) m).2, ?_, e4, e3, rfl, rfl⟩)
    unfold wrap newAbsPath
    simp only [e1, Option.bind_eq_bind, Option.bind_some]
    simp [hb]
    exact ⟨rfl, rfl, rfl⟩

/-- C85: each of the seven functions has that outcome with the system call of its name and its own arguments. -/
theorem C85 (w : World) (e : ESt) (path x y : Word) (t : List Byte) (d : List (List Byte)) (n : Nat)
    (hb : w.buf ≠ 0#16) (hc : Call w.c e path w.buf 80 t n) (hs : Start w.c e w.buf 80 t d n) :
    Outcome w e .exec path [x, y] t d n (exec w e path x y) ∧
    Outcome w e .creat path [] t d n (creat w e path) ∧
    Outcome w e .remove path [] t d n (remove w e path) ∧
    Outcome w e .mkDir path [] t d n (mkDir w e path) ∧
    Outcome w e .rmDir path [] t d n (rmDir w e path) ∧
    Outcome w e .open_ path [x] t d n (open_ w e path x) ∧
    Outcome w e .stat path [x] t d n (stat w e path x) :=
  ⟨wrap_outcome _ _ _ _ _ _ _ _ hb hc hs, wrap_outcome _ _ _ _ _ _ _ _ hb hc hs, wrap_outcome _ _ _ _ _ _ _ _ hb hc hs,
    wrap_outcome _ _ _ _ _ _ _ _ hb hc hs, wrap_outcome _ _ _ _ _ _ _ _ hb hc hs, wrap_outcome _ _ _ _ _ _ _ _ hb hc hs,
    wrap_outcome _ _ _ _ _ _ _ _ hb hc hs⟩

/-- The buffers got and not yet freed after a trace; none if one is freed that is not in use. -/
def live : List Ev → List Word → Option (List Word)
  | [], l => some l
  | .alloc p :: t, l => live t (p :: l)
  | .call _ _ _ :: t, l => live t l
  | .free p :: t, l => if p ∈ l then live t (l.erase p) else none

/-- C85: whatever happens, no buffer is lost and none is freed twice. -/
theorem C85_leak (w : World) (e : ESt) (s : Sys) (path : Word) (args : List Word) (t : List Byte) (d : List (List Byte)) (n : Nat)
    (o : Option (Word × ESt × List Ev)) (h : Outcome w e s path args t d n o) (l : List Word) :
    ∃ r e' tr, o = some (r, e', tr) ∧ live tr l = some l := by
  rcases h with ⟨_, e', h, _⟩ | ⟨_, m1, _, _, ⟨_, e', h, _⟩ | ⟨_, _, e', h, _⟩ | ⟨_, m, e', h, _⟩⟩ <;>
    exact ⟨_, _, _, h, by simp [live]⟩

/-- "A path that names an existing file can be removed" is false: a path that is too long before it is made canonical is refused, though
the path reached is short: 39 times "/." and "/a". -/
theorem C85_long_false : pathOf (walk (comps ((List.replicate 39 [47#8, 46#8]).flatten ++ [47#8, 97#8]))) = [47#8, 97#8] ∧
    ∀ (w : World) (e : ESt) (path : Word), w.buf ≠ 0#16 →
      Call w.c e path w.buf 80 ((List.replicate 39 [47#8, 46#8]).flatten ++ [47#8, 97#8]) 0 →
      ∃ e', remove w e path = some (BitVec.ofInt 16 (-12), e', [.alloc w.buf, .free w.buf]) := by
  refine ⟨by decide +kernel, fun w e path hb hc => ?_⟩
  rcases (C85 w e path 0 0 _ [] 0 hb hc (.inl ⟨by decide, rfl, rfl⟩)).2.2.1 with ⟨_, e', h, _⟩ | ⟨h, _⟩
  · exact ⟨e', h⟩
  · exact absurd h (by decide)

/-! open("/a//./b/../c", 1) asks the system to open "/a/c". -/

def demoWorld : World := ⟨demoCst, fun _ _ => (0, 0x10), fun _ _ m => (5, m), 200#16⟩

example : Asked demoWorld demoSt .open_ [1#16] [47#8, 97#8, 47#8, 99#8] (open_ demoWorld demoSt 100#16 1#16) := by
  rcases (C85 demoWorld demoSt 100#16 1#16 0 demoPath [] 0 (by decide) demoCall (.inl ⟨rfl, rfl, rfl⟩)).2.2.2.2.2.1 with
    ⟨h, _⟩ | ⟨_, m1, _, _, ⟨h, _⟩ | ⟨_, h, _⟩ | ⟨_, h⟩⟩
  · exact absurd h (by decide)
  · exact absurd h (by show ¬ (0#16 : Word).toInt < 0; decide)
  · exact absurd h (by show ¬ (0x10#16 &&& 0x10#16 = 0); decide)
  · exact h

/-! If it says that there is no such directory (-2), nothing is opened. -/

example : ∃ e', open_ { demoWorld with stat := fun _ _ => (-2, 0) } demoSt 100#16 1#16 =
    some (-2#16, e', [.alloc 200#16, .free 200#16]) := by
  rcases (C85 { demoWorld with stat := fun _ _ => (-2, 0) } demoSt 100#16 1#16 0 demoPath [] 0 (by decide) demoCall
      (.inl ⟨rfl, rfl, rfl⟩)).2.2.2.2.2.1 with ⟨h, _⟩ | ⟨_, m1, _, _, ⟨_, e', h, _⟩ | ⟨h, _⟩ | ⟨⟨h, _⟩, _⟩⟩
  · exact absurd h (by decide)
  · exact ⟨e', h⟩
  · exact absurd h (by show ¬ 0 ≤ (-2#16 : Word).toInt; decide)
  · exact absurd h (by show ¬ 0 ≤ (-2#16 : Word).toInt; decide)

end Cmm.WrapSys
