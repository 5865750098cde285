import Verif.Lib.CEnv

/-
C89: absPath, getenv and feof of translated programs.
-/
namespace Cmm.CLib

/-- Specification: an array holds the string `s`. -/
def Holds (buf : List Nat) (s : List Nat) : Prop := ∃ more, buf = s ++ 0 :: more

/-- C89: absPath reports that there is no such path and leaves the array; or it succeeds, and if the path is shorter than the array, the
array holds it. Nothing behind `bufSiz` bytes is written. -/
theorem C89_path_partial (abs : Option (List Nat)) (buf : List Nat) (n : Nat) (hn : n ≤ buf.length) :
    ((cAbsPath abs buf n).1 = 1 ↔ abs = none) ∧ (abs = none → (cAbsPath abs buf n).2 = buf) ∧
    (∀ s, abs = some s → s.length < n → Holds (cAbsPath abs buf n).2 s) ∧
    (cAbsPath abs buf n).2.length = buf.length ∧ (cAbsPath abs buf n).2.drop n = buf.drop n := by
  refine ⟨by cases abs <;> simp [cAbsPath], by rintro rfl; rfl, ?_, ?_, ?_⟩
  · rintro s rfl h
    refine ⟨List.replicate (n - s.length - 1) 0 ++ buf.drop n, ?_⟩
    show strncpy buf s n = _
    have e : List.replicate (n - s.length) 0 = 0 :: List.replicate (n - s.length - 1) (0 : Nat) := by
      rw [← List.replicate_succ]; congr 1; omega
    have m : min (n - s.length) n = n - s.length := by omega
    rw [strncpy, List.take_append, List.take_of_length_le (by omega), List.take_replicate, m, e]
    simp
  · cases abs with
    | none => rfl
    | some s => simp [cAbsPath, strncpy]; omega
  · cases abs with
    | none => rfl
    | some s =>
      show (strncpy buf s n).drop n = _
      rw [strncpy, List.drop_append, List.drop_of_length_le (by simp), List.nil_append]
      simp

/-- The full claim is false: of a path that is not shorter absPath reports success and stores the beginning without a NUL. (On TaC, C24, it
fails.) -/
theorem C89_path_false (s buf : List Nat) (n : Nat) (hs : 0 ∉ s) (hl : n ≤ s.length) :
    (cAbsPath (some s) buf n).1 = 0 ∧ (cAbsPath (some s) buf n).2.take n = s.take n ∧ 0 ∉ (cAbsPath (some s) buf n).2.take n := by
  have e : (strncpy buf s n).take n = s.take n := by
    have l : ((s ++ List.replicate n 0).take n).length = n := by simp
    rw [strncpy, List.take_append_of_le_length (by omega), List.take_take, Nat.min_self, List.take_append_of_le_length hl]
  refine ⟨rfl, e, ?_⟩
  show 0 ∉ (strncpy buf s n).take n
  rw [e]
  exact fun h => hs (List.mem_of_mem_take h)

/-- Calls of getenv, each with what the getenv of C gives. -/
def getenvs : GState → List (Option (List Nat)) → Option (List (Option Nat) × GState)
  | g, [] => some ([], g)
  | g, v :: vs => do
    let (r, g) ← cGetenv g v
    let (rs, g) ← getenvs g vs
    return (r :: rs, g)

/-- The last value found, if any. -/
def lastFound : List (Option (List Nat)) → Option (List Nat) → Option (List Nat)
  | [], d => d
  | v :: vs, d => lastFound vs (v.or d)

/-- The block of the last value found is the only one in use. -/
def One (g : GState) (v : Option (List Nat)) : Prop :=
  (v = none ∧ g.last = none ∧ g.live = []) ∨
  ∃ s b, v = some s ∧ g.last = some b ∧ b < g.next ∧ g.live = [⟨b, s.length + 1, s⟩]

theorem cGetenv_step (g : GState) (d v : Option (List Nat)) (h : One g d) :
    ∃ r g', cGetenv g v = some (r, g') ∧ One g' (v.or d) ∧ (r = none ↔ v = none) ∧ g'.last = r.or g.last := by
  cases v with
  | none => exact ⟨none, g, rfl, by simpa using h, by simp, by simp⟩
  | some s =>
    rcases h with ⟨_, h1, h2⟩ | ⟨t, b, _, h1, h2, h3⟩
    · exact ⟨some g.next, ⟨some g.next, [⟨g.next, s.length + 1, s⟩], g.next + 1⟩, by simp [cGetenv, h1, h2],
        .inr ⟨s, g.next, by simp, rfl, by simp, rfl⟩, by simp, by simp⟩
    · exact ⟨some g.next, ⟨some g.next, [⟨g.next, s.length + 1, s⟩], g.next + 1⟩, by simp [cGetenv, h1, h3],
        .inr ⟨s, g.next, by simp, rfl, by simp, rfl⟩, by simp, by simp⟩

/-- The last pointer returned that is not NULL. -/
def lastPtr : List (Option Nat) → Option Nat → Option Nat
  | [], d => d
  | r :: rs, d => lastPtr rs (r.or d)

theorem getenvs_spec (vs : List (Option (List Nat))) : ∀ g d, One g d →
    ∃ rs g', getenvs g vs = some (rs, g') ∧ One g' (lastFound vs d) ∧ rs.map Option.isSome = vs.map Option.isSome ∧
      g'.last = lastPtr rs g.last := by
  induction vs with
  | nil => intro g d h; exact ⟨[], g, rfl, h, rfl, rfl⟩
  | cons v vs ih =>
    intro g d h
    obtain ⟨r, g1, e1, e2, e3, e4⟩ := cGetenv_step g d v h
    obtain ⟨rs, g2, f1, f2, f3, f4⟩ := ih g1 _ e2
    refine ⟨r :: rs, g2, by simp [getenvs, e1, f1], f2, ?_, by rw [f4, e4]; rfl⟩
    rw [List.map_cons, List.map_cons, f3]
    congr 1
    cases r <;> cases v <;> simp at e3 ⊢

/-- C89: any number of calls of getenv frees no block twice and keeps one block only, the one returned last: it has the text of the last
value found and the checked length of its bytes and the NUL. NULL is returned exactly for variables that do not exist. -/
theorem C89_getenv (vs : List (Option (List Nat))) :
    ∃ rs g, getenvs ⟨none, [], 0⟩ vs = some (rs, g) ∧ rs.map Option.isSome = vs.map Option.isSome ∧
      g.live.map (fun b => (b.l, b.text)) = (lastFound vs none).toList.map (fun s => (s.length + 1, s)) ∧
      g.live.map (·.id) = (lastPtr rs none).toList := by
  obtain ⟨rs, g, h1, h2, h3, h4⟩ := getenvs_spec vs ⟨none, [], 0⟩ none (.inl ⟨rfl, rfl, rfl⟩)
  refine ⟨rs, g, h1, h3, ?_⟩
  rw [← h4]
  rcases h2 with ⟨e, e', h⟩ | ⟨s, b, e, e', _, h⟩ <;> simp [e, e', h]

/-- "The value of a variable stays as long as the environment" is false: the next variable found frees it. -/
theorem C89_stale_false (s t : List Nat) : ∃ a b g, getenvs ⟨none, [], 0⟩ [some s, some t] = some ([some a, some b], g) ∧
    ∀ x ∈ g.live, x.id ≠ a := by
  refine ⟨0, 1, ⟨some 1, [⟨1, t.length + 1, t⟩], 2⟩, by simp [getenvs, cGetenv], by simp⟩

/-- C89: feof says whether no byte is to come, and takes none. -/
theorem C89_feof (f : Stream) : (cFeof f).1 = f.rest.isEmpty ∧ (cFeof f).2.rest = f.rest := by
  rcases f with ⟨_ | ⟨c, r⟩, e⟩
  · exact ⟨rfl, rfl⟩
  · have : ¬ ((c : Int) = -1) := by omega
    simp [cFeof, fgetc, ungetc, this]

/-- C89: a program that reads while feof is false reads all bytes and no EOF, as on TaC. -/
theorem C89_loop (f : Stream) : ∀ n, f.rest.length ≤ n → readAll n f = f.rest.map (fun c : Nat => (c : Int)) := by
  rcases f with ⟨r, e⟩
  induction r generalizing e with
  | nil => intro n _; cases n <;> rfl
  | cons c r ih =>
    intro n hn
    obtain ⟨n, rfl⟩ : ∃ k, n = k + 1 := ⟨n - 1, by simp at hn; omega⟩
    have h : ¬ ((c : Int) = -1) := by omega
    have := ih false n (by simpa using hn)
    simp [readAll, cFeof, fgetc, ungetc, h, this]

/-! "/a" in an array of 4 bytes; a path of 3 bytes in an array of 2; three calls of getenv; a stream of two bytes. -/

example : Holds (cAbsPath (some [47, 97]) [1, 1, 1, 1] 4).2 [47, 97] :=
  (C89_path_partial (some [47, 97]) [1, 1, 1, 1] 4 (by decide)).2.2.1 _ rfl (by decide)

example : 0 ∉ (cAbsPath (some [47, 97, 98]) [0, 0] 2).2.take 2 := (C89_path_false [47, 97, 98] [0, 0] 2 (by decide) (by decide)).2.2

example : ∃ rs g, getenvs ⟨none, [], 0⟩ [some [65], none, some [66, 67], none] = some (rs, g) ∧
    rs.map Option.isSome = [true, false, true, false] ∧ g.live.map (fun b => (b.l, b.text)) = [(3, [66, 67])] ∧
    g.live.map (·.id) = (lastPtr rs none).toList :=
  C89_getenv [some [65], none, some [66, 67], none]

example : readAll 5 ⟨[65, 255], false⟩ = [65, 255] := C89_loop ⟨[65, 255], false⟩ 5 (by decide)

end Cmm.CLib
