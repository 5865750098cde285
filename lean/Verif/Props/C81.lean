import Verif.Lex.Main

/-
C81: the arguments of the compiler and the name of the source.
-/
namespace Cmm.Lex

/-! ### Specification -/

/-- Arguments that are accepted: at most one of `-O` and `-O1`, then perhaps `-O0`, then perhaps `-K`, then perhaps a file. An argument that may be
an option is one. The tree is optimised unless `-O0` is there. -/
structure Line (args : List String) (opt krn : Bool) (file : Option String) : Prop where
  parts : ∃ o z k f, args = o ++ z ++ k ++ f ∧ o ∈ [[], ["-O"], ["-O1"]] ∧ z ∈ [[], ["-O0"]] ∧ k ∈ [[], ["-K"]] ∧ f = file.toList ∧
    (opt = true ↔ z = []) ∧ (krn = true ↔ k ≠ []) ∧
    (o = [] → args.head? ∉ [some "-O", some "-O1"]) ∧ (z = [] → (k ++ f).head? ≠ some "-O0") ∧ (k = [] → f.head? ≠ some "-K")
  help : args.head? ∉ [some "-v", some "-h"]

theorem argO_spec (a : List String) : ∃ o, a = o ++ argO a ∧ o ∈ [[], ["-O"], ["-O1"]] ∧ (o = [] → a.head? ∉ [some "-O", some "-O1"]) := by
  cases a with
  | nil => exact ⟨[], rfl, by simp, by simp⟩
  | cons x r =>
    by_cases h : x = "-O" ∨ x = "-O1"
    · refine ⟨[x], by simp [argO, h], ?_, nofun⟩
      rcases h with rfl | rfl <;> simp
    · exact ⟨[], by simp [argO, h], by simp, by simpa using h⟩

theorem argO0_spec (a : List String) : ∃ z, a = z ++ (argO0 a).2 ∧ z ∈ [[], ["-O0"]] ∧ ((argO0 a).1 = true ↔ z = []) ∧ (z = [] → a.head? ≠ some "-O0") := by
  cases a with
  | nil => exact ⟨[], rfl, by simp, by simp [argO0], by simp⟩
  | cons x r =>
    by_cases h : x = "-O0"
    · exact ⟨["-O0"], by simp [argO0, h], by simp, by simp [argO0, h], nofun⟩
    · exact ⟨[], by simp [argO0, h], by simp, by simp [argO0, h], by simpa using h⟩

theorem argK_spec (a : List String) : ∃ k, a = k ++ (argK a).2 ∧ k ∈ [[], ["-K"]] ∧ ((argK a).1 = true ↔ k ≠ []) ∧ (k = [] → a.head? ≠ some "-K") := by
  cases a with
  | nil => exact ⟨[], rfl, by simp, by simp [argK], by simp⟩
  | cons x r =>
    by_cases h : x = "-K"
    · exact ⟨["-K"], by simp [argK, h], by simp, by simp [argK, h], nofun⟩
    · exact ⟨[], by simp [argK, h], by simp, by simp [argK, h], by simpa using h⟩

theorem main_eq {args : List String} (h : args.head? ∉ [some "-v", some "-h"]) :
    mainArgs args = argFile (argO0 (argO args)).1 (argK (argO0 (argO args)).2).1 (argK (argO0 (argO args)).2).2 := by
  unfold mainArgs
  split
  · simp at h
  · simp at h
  · rfl

theorem main_help {args : List String} : mainArgs args = .usage 0 ↔ args.head? ∈ [some "-v", some "-h"] := by
  constructor
  · intro h
    by_cases hh : args.head? ∈ [some "-v", some "-h"]
    · exact hh
    · rw [main_eq hh] at h
      unfold argFile at h
      split at h <;> simp at h
  · intro h
    unfold mainArgs
    split
    · rfl
    · rfl
    · next h1 h2 =>
      cases args with
      | nil => simp at h
      | cons x r =>
        simp at h
        rcases h with rfl | rfl
        · exact absurd rfl (h1 r)
        · exact absurd rfl (h2 r)

theorem argO_of {o r : List String} (ho : o ∈ [[], ["-O"], ["-O1"]]) (hn : o = [] → (o ++ r).head? ∉ [some "-O", some "-O1"]) : argO (o ++ r) = r := by
  simp only [List.mem_cons, List.not_mem_nil, or_false] at ho
  rcases ho with rfl | rfl | rfl
  · have := hn rfl
    cases r with
    | nil => rfl
    | cons x r => simp at this; simp [argO, this]
  · simp [argO]
  · simp [argO]

theorem argO0_of {z r : List String} (hz : z ∈ [[], ["-O0"]]) (hn : z = [] → r.head? ≠ some "-O0") : argO0 (z ++ r) = (decide (z = []), r) := by
  simp only [List.mem_cons, List.not_mem_nil, or_false] at hz
  rcases hz with rfl | rfl
  · have := hn rfl
    cases r with
    | nil => rfl
    | cons x r => simp at this; simp [argO0, this]
  · simp [argO0]

theorem argK_of {k r : List String} (hk : k ∈ [[], ["-K"]]) (hn : k = [] → r.head? ≠ some "-K") : argK (k ++ r) = (decide (k ≠ []), r) := by
  simp only [List.mem_cons, List.not_mem_nil, or_false] at hk
  rcases hk with rfl | rfl
  · have := hn rfl
    cases r with
    | nil => rfl
    | cons x r => simp at this; simp [argK, this]
  · simp [argK]

/-- C81: which arguments make the compiler read a source, with which flags and from where. -/
theorem C81 (args : List String) (opt krn : Bool) (file : Option String) : mainArgs args = .run opt krn file ↔ Line args opt krn file := by
  constructor
  · intro h
    have hh : args.head? ∉ [some "-v", some "-h"] := by
      intro hh
      rw [main_help.mpr hh] at h
      cases h
    refine ⟨?_, hh⟩
    rw [main_eq hh] at h
    obtain ⟨o, e1, o1, o2⟩ := argO_spec args
    obtain ⟨z, e2, z1, z2, z3⟩ := argO0_spec (argO args)
    obtain ⟨k, e3, k1, k2, k3⟩ := argK_spec (argO0 (argO args)).2
    generalize (argK (argO0 (argO args)).2).2 = f at *
    have hf : f = file.toList ∧ (argO0 (argO args)).1 = opt ∧ (argK (argO0 (argO args)).2).1 = krn := by
      unfold argFile at h
      split at h <;> simp at h
      · exact ⟨by rw [← h.2.2]; rfl, h.1, h.2.1⟩
      · exact ⟨by rw [← h.2.2]; rfl, h.1, h.2.1⟩
    obtain ⟨hf, rfl, rfl⟩ := hf
    refine ⟨o, z, k, f, ?_, o1, z1, k1, hf, z2, k2, o2, ?_, ?_⟩
    · rw [List.append_assoc, List.append_assoc, ← e3, ← e2, ← e1]
    · intro hz
      have := z3 hz
      rw [e2, hz, e3] at this
      exact this
    · intro hk
      have := k3 hk
      rw [e3, hk] at this
      exact this
  · rintro ⟨⟨o, z, k, f, rfl, o1, z1, k1, hf, z2, k2, o2, z3, k3⟩, hh⟩
    rw [main_eq hh]
    have e : o ++ z ++ k ++ f = o ++ (z ++ (k ++ f)) := by simp
    rw [e] at o2 ⊢
    rw [argO_of o1 o2, argO0_of z1 z3, argK_of k1 k3]
    simp only
    have h1 : decide (z = []) = opt := by rw [Bool.eq_iff_iff, decide_eq_true_iff]; exact z2.symm
    have h2 : decide (k ≠ []) = krn := by rw [Bool.eq_iff_iff, decide_eq_true_iff]; exact k2.symm
    rw [h1, h2, hf]
    cases file <;> rfl

/-- C81: otherwise the usage is printed; with status 0 only if the first argument asks for it. -/
theorem C81_usage (args : List String) : (mainArgs args = .usage 0 ↔ args.head? ∈ [some "-v", some "-h"]) ∧
    (mainArgs args = .usage 1 ↔ args.head? ∉ [some "-v", some "-h"] ∧ ∀ opt krn file, ¬ Line args opt krn file) := by
  refine ⟨main_help, ?_, ?_⟩
  · intro h
    refine ⟨fun hh => ?_, fun opt krn file hl => ?_⟩
    · rw [main_help.mpr hh] at h; cases h
    · rw [(C81 args opt krn file).mpr hl] at h; cases h
  · rintro ⟨hh, hl⟩
    rw [main_eq hh]
    cases hm : argFile (argO0 (argO args)).1 (argK (argO0 (argO args)).2).1 (argK (argO0 (argO args)).2).2 with
    | run o k f => exact absurd ((C81 args o k f).mp (by rw [main_eq hh, hm])) (hl o k f)
    | usage n =>
      unfold argFile at hm
      split at hm <;> simp at hm
      rw [hm]

/-- C81: options in another order are not options: `-K -O0 x.cmm` is refused, and so is `-O0 -O x.cmm`, the order in which the usage shows them (main.c:44);
`-O0 -O` reads the file `-O`. -/
theorem C81_order_false : ¬ (∀ a b f : String, a ∈ ["-O0", "-K"] → b ∈ ["-O0", "-K"] → mainArgs [a, b, f] = mainArgs [b, a, f]) ∧
    mainArgs ["-O0", "-O", "x.cmm"] = .usage 1 ∧ mainArgs ["-O0", "-O"] = .run false false (some "-O") := by
  refine ⟨fun h => ?_, by decide, by decide⟩
  have := h "-K" "-O0" "x.cmm" (by simp) (by simp)
  revert this
  decide

theorem nameLoop_short {s : List Nat} : ∀ {n buf}, s.length < n → nameLoop buf s n = (buf ++ s, true) := by
  induction s with
  | nil => intro n buf h; cases n with
    | zero => simp at h
    | succ n => simp [nameLoop]
  | cons c s ih => intro n buf h; cases n with
    | zero => simp at h
    | succ n => rw [nameLoop, ih (by simp at h; omega)]; simp

theorem nameLoop_long {s : List Nat} : ∀ {n buf}, n ≤ s.length → (nameLoop buf s n).2 = false := by
  induction s with
  | nil => intro n buf h; cases n with
    | zero => rfl
    | succ n => simp at h
  | cons c s ih => intro n buf h; cases n with
    | zero => rfl
    | succ n => rw [nameLoop]; exact ih (by simpa using h)

/-- C81: a name is stored as it is if it has at most StrMAX bytes. -/
theorem C81_name_partial {s : List Nat} (h : s.length ≤ StrMAX) : setFname s = .ok s := by
  unfold setFname
  rw [nameLoop_short (by omega)]
  rfl

/-- C81: longer names are not refused by error(): the byte behind the array decides. -/
theorem C81_name_false {s : List Nat} (h : StrMAX < s.length) : setFname s = .error .oob ∧ setFname s ≠ .error .err := by
  have : setFname s = .error .oob := by
    unfold setFname
    have := nameLoop_long (s := s) (n := StrMAX + 1) (buf := []) h
    split
    · next e => rw [e] at this; cases this
    · rfl
  exact ⟨this, by rw [this]; nofun⟩

/-- C81: the names of directives are never too long. -/
theorem C81_directive {l w r : List Nat} {v : Int} (h : getSharp l = .ok (v, w, r)) : setFname w = .ok w := by
  refine C81_name_partial ?_
  unfold getSharp at h
  simp only at h
  split at h
  · cases h
  · split at h
    · cases h
    · split at h
      · simp only [bind_ok] at h
        obtain ⟨buf, h1, h2⟩ := h
        unfold finish at h1
        split at h1
        · next hl =>
          cases h1
          split at h2
          · cases h2; exact hl
          · cases h2
        · cases h1
      · cases h

/-! ### Examples -/

example : Line ["-O", "-O0", "-K", "x.cmm"] false true (some "x.cmm") := (C81 _ _ _ _).mp (by decide)
example : mainArgs [] = .run true false none ∧ mainArgs ["-K"] = .run true true none ∧ mainArgs ["x", "y"] = .usage 1 ∧ mainArgs ["-h", "x"] = .usage 0 := by decide
example : (bytes "x.cmm").length ≤ StrMAX ∧ StrMAX < (List.replicate 200 97).length := by decide +kernel
example : (match getSharp (bytes " 1 \"a.cmm\"\n") with | .ok r => some r | .error _ => none) = some (1, bytes "a.cmm", [10]) := by decide +kernel

end Cmm.Lex
