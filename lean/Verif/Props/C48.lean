import Verif.Gen.DataLemmas
import Mathlib.Tactic.Ring
import Mathlib.Algebra.BigOperators.Group.List.Basic

/-
C48: array(n1,...,nk) generates n1*...*n(k-1) leaf areas of nk elements and pointer tables such
that following indices (i1,...,ik) with every ij < nj leads to distinct elements, each inside
its area.
-/
namespace Cmm.Gen

/- Specification: following indices through the generated data. -/

/-- The element reached from label `l` by the indices: the last index selects an element of an
area of bytes or words, the others an entry of a table, which must be a label. The result is
the label of the area and the number of the element; `none` if an index is outside. -/
def follow (c : List Dir) : Int → List Nat → Option (Int × Nat)
  | _, [] => none
  | l, [i] =>
    match area c l with
    | some [.bs n] => if (i : Int) < n then some (l, i) else none
    | some [.ws n] => if (i : Int) < n then some (l, i) else none
    | _ => none
  | l, i :: is =>
    match (area c l).bind (·[i]?) with
    | some (.dwLab l') => follow c l' is
    | _ => none

/-- All indices are inside. -/
def InB : List Nat → List Nat → Prop
  | [], [] => True
  | n :: ns, i :: is => i < n ∧ InB ns is
  | _, _ => False

/-- The number of areas and the sizes: product of all dimensions but the last. -/
def leaves : List Nat → Nat
  | [] => 1
  | [_] => 1
  | n :: ns => n * leaves ns

/-- The last dimension. -/
def lastDim : List Nat → Nat
  | [] => 0
  | [n] => n
  | _ :: ns => lastDim ns

def isArea : Dir → Bool
  | .bs _ | .ws _ => true
  | _ => false

/- Proof. -/

/-- Number of the area reached by the indices, counted over all `j`. -/
def leafNo : Nat → List Nat → List Nat → Nat
  | j, n :: n' :: ns, i :: is => leafNo (j * n + i) (n' :: ns) is
  | j, _, _ => j

theorem leafNo_lt : ∀ (ns is : List Nat) (j k : Nat), j < k → InB ns is →
    leafNo j ns is < k * leaves ns := by
  intro ns
  induction ns with
  | nil => intro is j k h _; simpa [leafNo, leaves] using h
  | cons n ns ih =>
    intro is j k h hb
    cases ns with
    | nil => simpa [leafNo, leaves] using h
    | cons n' ns =>
      cases is with
      | nil => exact absurd hb (by simp [InB])
      | cons i is =>
        rw [leafNo, leaves, ← Nat.mul_assoc]
        · refine ih is _ _ ?_ hb.2
          calc j * n + i < j * n + n := by have := hb.1; omega
            _ = (j + 1) * n := by ring
            _ ≤ k * n := Nat.mul_le_mul_right _ h
        · simp

/-- The data of `n` arrays with the dimensions `ns`. -/
structure Good (ns : List Nat) (n : Nat) (d : Int) (m : Nat) (r : List Dir × Int × Nat) : Prop where
  up : m + n ≤ r.2.2
  first : 0 < n → r.2.1 = (r.2.2 : Int) - n + 1
  nb : NB r.1
  labs : dataLabs r.1 = List.range' (m + 1) (r.2.2 - m)
  count : r.1.countP isArea = n * leaves ns
  get : ∀ (p q : List Dir), (∀ k ∈ dataLabs p, k ≤ m) → NB q → ∀ j < n, ∀ is, InB ns is →
    follow (p ++ (r.1 ++ q)) ((r.2.2 : Int) - n + 1 + j) is =
      some ((m : Int) + 1 + leafNo j ns is, is.getLastD 0)
  leaf : ∀ (p q : List Dir), (∀ k ∈ dataLabs p, k ≤ m) → NB q → ∀ j < n * leaves ns,
    area (p ++ (r.1 ++ q)) ((m : Int) + 1 + j) =
      some [if d = ns.length then .bs (lastDim ns) else .ws (lastDim ns)]
  out : ∀ (p q : List Dir), (∀ k ∈ dataLabs p, k ≤ m) → NB q → ∀ j < n, ∀ is, ¬ InB ns is →
    follow (p ++ (r.1 ++ q)) ((r.2.2 : Int) - n + 1 + j) is = none

theorem tabs_countP (x : Nat) : ∀ (n : Nat) (ln : Int) (m : Nat),
    (tabs x n ln m).countP isArea = 0 := by
  intro n
  induction n with
  | zero => intro _ _; rfl
  | succ n ih =>
    intro ln m
    rw [tabs, List.countP_cons, if_neg (by simp [isArea]), List.countP_append, ih,
      List.countP_eq_zero.2]
    intro a ha
    obtain ⟨i, _, rfl⟩ := tab_mem ha
    simp [isArea]

theorem genArray0_good (ns : List Nat) (h0 : ns ≠ []) : ∀ (n : Nat) (d : Int) (m : Nat),
    Good ns n d m (genArray0 (dimTree ns) n d m) := by
  induction ns with
  | nil => exact absurd rfl h0
  | cons x ns ih =>
    intro n d m
    cases ns with
    | nil =>
      simp only [dimTree, genArray0]
      generalize hD : (if d = 1 then Dir.bs (x : Int) else Dir.ws (x : Int)) = D
      have hc : D.isCell := by rw [← hD]; split <;> rfl
      have ha : isArea D := by rw [← hD]; split <;> rfl
      have key : ∀ (p q : List Dir), (∀ k ∈ dataLabs p, k ≤ m) → NB q → ∀ j < n,
          area (p ++ (areas D n m ++ q)) (((m + n : Nat) : Int) - n + 1 + j) = some [D] := by
        intro p q hp hq j hj
        rw [show (((m + n : Nat) : Int) - n + 1 + j) = (m : Int) + 1 + j by push_cast; omega]
        exact area_mid (areas_area hc n m j hj)
          (fun k hk => by have := hp k hk; omega) hq
      refine ⟨le_refl _, ?_, areas_nb _ _ _, ?_, ?_, ?_, ?_, ?_⟩
      · intro hn; simp only [firstLab]; rw [if_neg (by omega)]; push_cast; omega
      · simp only; rw [areas_labs hc]; congr 1; omega
      · simp only [leaves, Nat.mul_one]
        clear key
        induction n generalizing m with
        | zero => rfl
        | succ n ihn =>
          rw [areas, List.countP_cons, List.countP_cons, ihn, if_pos ha, if_neg (by simp [isArea])]
      · intro p q hp hq j hj is hb
        cases is with
        | nil => exact absurd hb (by simp [InB])
        | cons i is =>
          cases is with
          | cons _ _ => exact absurd hb.2 (by simp [InB])
          | nil =>
            have hi : (i : Int) < x := by have := hb.1; omega
            rw [follow, key p q hp hq j hj, ← hD]
            simp only [leafNo, List.getLastD]
            rw [show (((m + n : Nat) : Int) - n + 1 + j) = (m : Int) + 1 + j by push_cast; omega]
            split <;> rename_i he
            · split at he
              · simp only [Option.some.injEq, List.cons.injEq, Dir.bs.injEq, and_true] at he
                rw [if_pos (he ▸ hi)]; rfl
              · simp at he
            · split at he
              · simp at he
              · simp only [Option.some.injEq, List.cons.injEq, Dir.ws.injEq, and_true] at he
                rw [if_pos (he ▸ hi)]; rfl
            · exfalso
              rename_i hbs
              by_cases hd1 : d = 1
              · exact hbs x (by rw [if_pos hd1])
              · exact he x (by rw [if_neg hd1])
      · intro p q hp hq j hj
        have := key p q hp hq j (by simpa [leaves] using hj)
        rw [show (((m + n : Nat) : Int) - n + 1 + j) = (m : Int) + 1 + j by push_cast; omega] at this
        rw [this, ← hD]
        rfl
      · intro p q hp hq j hj is hb
        cases is with
        | nil => rfl
        | cons i is =>
          cases is with
          | cons i' is =>
            rw [follow, key p q hp hq j hj, Option.bind_some]
            · cases i with
              | zero =>
                rw [← hD]
                split <;> first | rfl | (rename_i he; exfalso; split at he <;> simp at he)
              | succ i => simp
            · simp
          | nil =>
            have hi : ¬ ((i : Int) < x) := fun h => hb ⟨by omega, trivial⟩
            rw [follow, key p q hp hq j hj, ← hD]
            split <;> rename_i he
            · split at he
              · simp only [Option.some.injEq, List.cons.injEq, Dir.bs.injEq, and_true] at he
                rw [if_neg (he ▸ hi)]
              · simp at he
            · split at he
              · simp at he
              · simp only [Option.some.injEq, List.cons.injEq, Dir.ws.injEq, and_true] at he
                rw [if_neg (he ▸ hi)]
            · rfl
    | cons y ns =>
      have G := ih (by simp) (n * x) (d - 1) m
      rw [dimTree, genArray0, Int.toNat_natCast]
      · generalize genArray0 (dimTree (y :: ns)) (n * x) (d - 1) m = r at G
        obtain ⟨c, ln, m1⟩ := r
        obtain ⟨up, first, nb, labs, count, get, leaf, out⟩ := G
        simp only at up first nb labs count get leaf out
        have hmm : m ≤ m1 := by omega
        have key : ∀ (p q : List Dir), (∀ k ∈ dataLabs p, k ≤ m) → NB q → ∀ j < n,
            area (p ++ (c ++ (tabs x n ln m1 ++ q))) (((m1 + n : Nat) : Int) - n + 1 + j) =
              some (tab (ln + j * x) x) := by
          intro p q hp hq j hj
          rw [show (((m1 + n : Nat) : Int) - n + 1 + j) = (m1 : Int) + 1 + j by
            push_cast; omega, ← List.append_assoc]
          refine area_mid (tabs_area x n ln m1 j hj) (fun k hk => ?_) hq
          rw [dataLabs_append, List.mem_append, labs, List.mem_range'_1] at hk
          rcases hk with hk | hk
          · have := hp k hk; omega
          · omega
        have fol : ∀ (p q : List Dir), (∀ k ∈ dataLabs p, k ≤ m) → NB q → ∀ j < n,
            ∀ i i' is, follow (p ++ (c ++ (tabs x n ln m1 ++ q)))
                (((m1 + n : Nat) : Int) - n + 1 + j) (i :: i' :: is) =
              if i < x then follow (p ++ (c ++ (tabs x n ln m1 ++ q)))
                ((m1 : Int) - (n * x : Nat) + 1 + (j * x + i : Nat)) (i' :: is) else none := by
          intro p q hp hq j hj i i' is
          rw [follow, key p q hp hq j hj, Option.bind_some]
          · by_cases hi : i < x
            · rw [if_pos hi, tab_get _ _ _ hi]
              simp only
              have : 0 < n * x := Nat.mul_pos (by omega) (by omega)
              rw [first this]
              congr 1
              push_cast; omega
            · rw [if_neg hi, List.getElem?_eq_none (by rw [tab_length]; omega)]
          · simp
        have hjx : ∀ j < n, ∀ i < x, j * x + i < n * x := by
          intro j hj i hi
          calc j * x + i < j * x + x := by omega
            _ = (j + 1) * x := by ring
            _ ≤ n * x := Nat.mul_le_mul_right _ hj
        refine ⟨by simp only; omega, ?_, NB.append nb (tabs_nb _ _ _ _), ?_, ?_, ?_, ?_, ?_⟩
        · intro hn; simp only [firstLab]; rw [if_neg (by omega)]; push_cast; omega
        · simp only
          rw [dataLabs_append, labs, tabs_labs,
            show m1 + 1 = (m + 1) + 1 * (m1 - m) by omega, List.range'_append]
          congr 1; omega
        · simp only
          show _ = n * (x * leaves (y :: ns))
          rw [List.countP_append, count, tabs_countP]
          ring
        · intro p q hp hq j hj is hb
          cases is with
          | nil => exact absurd hb (by simp [InB])
          | cons i is =>
            cases is with
            | nil => exact absurd hb.2 (by simp [InB])
            | cons i' is =>
              simp only [List.append_assoc]
              rw [fol p q hp hq j hj, if_pos hb.1,
                get p (tabs x n ln m1 ++ q) hp (NB.append (tabs_nb _ _ _ _) hq) _
                  (hjx j hj i hb.1) _ hb.2, leafNo]
              · rfl
        · intro p q hp hq j hj
          simp only [List.append_assoc]
          have hj' : j < n * (x * leaves (y :: ns)) := hj
          rw [← Nat.mul_assoc] at hj'
          rw [leaf p (tabs x n ln m1 ++ q) hp (NB.append (tabs_nb _ _ _ _) hq) j hj']
          rw [show lastDim (x :: y :: ns) = lastDim (y :: ns) from rfl]
          have : d - 1 = ((y :: ns).length : Int) ↔ d = ((x :: y :: ns).length : Int) := by
            simp only [List.length_cons]; push_cast; omega
          simp only [this]
        · intro p q hp hq j hj is hb
          simp only [List.append_assoc]
          cases is with
          | nil => rfl
          | cons i is =>
            cases is with
            | nil =>
              rw [follow, key p q hp hq j hj]
              split
              · rename_i he
                simp only [Option.some.injEq] at he
                have : Dir.bs _ ∈ tab (ln + j * x) x := he ▸ List.mem_singleton_self _
                obtain ⟨_, _, h⟩ := tab_mem this; simp at h
              · rename_i he
                simp only [Option.some.injEq] at he
                have : Dir.ws _ ∈ tab (ln + j * x) x := he ▸ List.mem_singleton_self _
                obtain ⟨_, _, h⟩ := tab_mem this; simp at h
              · rfl
            | cons i' is =>
              rw [fol p q hp hq j hj]
              split
              · rename_i hi
                exact out p (tabs x n ln m1 ++ q) hp (NB.append (tabs_nb _ _ _ _) hq) _
                  (hjx j hj i hi) _ fun h => hb ⟨hi, h⟩
              · rfl
      · simp

theorem leafNo_inj : ∀ (ns : List Nat) (is js : List Nat) (a b : Nat), InB ns is → InB ns js →
    leafNo a ns is = leafNo b ns js → is.getLastD 0 = js.getLastD 0 → a = b ∧ is = js := by
  intro ns
  induction ns with
  | nil =>
    intro is js a b h1 h2 h _
    cases is <;> cases js <;> first | exact ⟨h, rfl⟩ | (exfalso; simp_all [InB])
  | cons n ns ih =>
    intro is js a b h1 h2 h hl
    cases is with
    | nil => exact absurd h1 (by simp [InB])
    | cons i is =>
    cases js with
    | nil => exact absurd h2 (by simp [InB])
    | cons j js =>
    cases ns with
    | nil =>
      cases is with
      | cons _ _ => exact absurd h1.2 (by simp [InB])
      | nil =>
      cases js with
      | cons _ _ => exact absurd h2.2 (by simp [InB])
      | nil =>
        refine ⟨h, ?_⟩
        simp only [List.getLastD] at hl
        simpa using hl
    | cons n' ns =>
      cases is with
      | nil => exact absurd h1.2 (by simp [InB])
      | cons i' is =>
      cases js with
      | nil => exact absurd h2.2 (by simp [InB])
      | cons j' js =>
        rw [leafNo, leafNo] at h
        have hl' : (i' :: is).getLastD 0 = (j' :: js).getLastD 0 := by
          simpa using hl
        obtain ⟨e, e'⟩ := ih _ _ _ _ h1.2 h2.2 h hl'
        have hi := h1.1
        have hj := h2.1
        have ei : i = j := by
          have h3 : (a * n + i) % n = (b * n + j) % n := by rw [e]
          rw [Nat.mul_add_mod', Nat.mul_add_mod', Nat.mod_eq_of_lt hi, Nat.mod_eq_of_lt hj] at h3
          exact h3
        subst ei
        have : a * n = b * n := by omega
        exact ⟨Nat.eq_of_mul_eq_mul_right (by omega) this, by rw [e']⟩

theorem inB_last : ∀ (ns : List Nat), ns ≠ [] → ∀ is, InB ns is →
    is.getLastD 0 < lastDim ns ∧ is.getLast? = some (is.getLastD 0) := by
  intro ns
  induction ns with
  | nil => intro h; exact absurd rfl h
  | cons n ns ih =>
    intro _ is hb
    cases is with
    | nil => exact absurd hb (by simp [InB])
    | cons i is =>
      cases ns with
      | nil =>
        cases is with
        | cons _ _ => exact absurd hb.2 (by simp [InB])
        | nil => exact ⟨hb.1, rfl⟩
      | cons n' ns =>
        cases is with
        | nil => exact absurd hb.2 (by simp [InB])
        | cons i' is =>
          have := ih (by simp) _ hb.2
          refine ⟨?_, ?_⟩
          · simpa [lastDim] using this.1
          · simp [List.getLast?_cons]

/-- The elements of an array of the dimensions `ns`, wherever its data stand in the program:
indices inside the bounds lead to an element, other indices (or a wrong number of them) do not.
`p` is the code before, whose labels are smaller; `q` the code behind. -/
theorem C48_inside (ns : List Nat) (h0 : ns ≠ []) (d : Int) (m : Nat) (p q : List Dir)
    (hp : ∀ k ∈ dataLabs p, k ≤ m) (hq : NB q) (is : List Nat) :
    (follow (p ++ ((genArray (dimTree ns) d m).1 ++ q)) (genArray (dimTree ns) d m).2.1
      is).isSome ↔ InB ns is := by
  have G := genArray0_good ns h0 1 d m
  unfold genArray
  rw [G.first (by omega)]
  have e : ((genArray0 (dimTree ns) 1 d m).2.2 : Int) - (1 : Nat) + 1 =
    ((genArray0 (dimTree ns) 1 d m).2.2 : Int) - (1 : Nat) + 1 + (0 : Nat) := by omega
  rw [e]
  by_cases hb : InB ns is
  · rw [G.get p q hp hq 0 (by omega) is hb]; simp [hb]
  · rw [G.out p q hp hq 0 (by omega) is hb]; simp [hb]

/-- Different indices lead to different elements. -/
theorem C48_distinct (ns : List Nat) (h0 : ns ≠ []) (d : Int) (m : Nat) (p q : List Dir)
    (hp : ∀ k ∈ dataLabs p, k ≤ m) (hq : NB q) (is js : List Nat) (hi : InB ns is)
    (hj : InB ns js)
    (h : follow (p ++ ((genArray (dimTree ns) d m).1 ++ q)) (genArray (dimTree ns) d m).2.1 is =
      follow (p ++ ((genArray (dimTree ns) d m).1 ++ q)) (genArray (dimTree ns) d m).2.1 js) :
    is = js := by
  have G := genArray0_good ns h0 1 d m
  unfold genArray at h
  rw [G.first (by omega)] at h
  have e : ((genArray0 (dimTree ns) 1 d m).2.2 : Int) - (1 : Nat) + 1 =
    ((genArray0 (dimTree ns) 1 d m).2.2 : Int) - (1 : Nat) + 1 + (0 : Nat) := by omega
  rw [e, G.get p q hp hq 0 (by omega) is hi, G.get p q hp hq 0 (by omega) js hj] at h
  simp only [Option.some.injEq, Prod.mk.injEq] at h
  exact (leafNo_inj ns is js 0 0 hi hj (by omega) h.2).2

/-- The element is in an area of nk elements, bytes if the declared depth `d` is the number
of dimensions and words otherwise, and the index in it is the last one. -/
theorem C48_area (ns : List Nat) (h0 : ns ≠ []) (d : Int) (m : Nat) (p q : List Dir)
    (hp : ∀ k ∈ dataLabs p, k ≤ m) (hq : NB q) (is : List Nat) (l : Int) (i : Nat)
    (h : follow (p ++ ((genArray (dimTree ns) d m).1 ++ q)) (genArray (dimTree ns) d m).2.1 is =
      some (l, i)) :
    area (p ++ ((genArray (dimTree ns) d m).1 ++ q)) l =
      some [if d = ns.length then .bs (lastDim ns) else .ws (lastDim ns)] ∧
    i < lastDim ns ∧ is.getLast? = some i := by
  have hb : InB ns is := (C48_inside ns h0 d m p q hp hq is).1 (by rw [h]; rfl)
  have G := genArray0_good ns h0 1 d m
  unfold genArray at h ⊢
  rw [G.first (by omega)] at h
  have e : ((genArray0 (dimTree ns) 1 d m).2.2 : Int) - (1 : Nat) + 1 =
    ((genArray0 (dimTree ns) 1 d m).2.2 : Int) - (1 : Nat) + 1 + (0 : Nat) := by omega
  rw [e, G.get p q hp hq 0 (by omega) is hb] at h
  simp only [Option.some.injEq, Prod.mk.injEq] at h
  obtain ⟨rfl, rfl⟩ := h
  obtain ⟨h1, h2⟩ := inB_last ns h0 is hb
  exact ⟨G.leaf p q hp hq _ (leafNo_lt ns is 0 1 (by omega) hb), h1, h2⟩

/-- There are n1*...*n(k-1) areas. -/
theorem C48_count (ns : List Nat) (h0 : ns ≠ []) (d : Int) (m : Nat) :
    (genArray (dimTree ns) d m).1.countP isArea = leaves ns := by
  have := (genArray0_good ns h0 1 d m).count
  rw [Nat.one_mul] at this
  exact this

/-- Labels are new and different. -/
theorem C48_labels (ns : List Nat) (h0 : ns ≠ []) (d : Int) (m : Nat) :
    (dataLabs (genArray (dimTree ns) d m).1).Nodup ∧
    ∀ k ∈ dataLabs (genArray (dimTree ns) d m).1, m < k ∧ k ≤ (genArray (dimTree ns) d m).2.2 := by
  have G := genArray0_good ns h0 1 d m
  unfold genArray
  rw [G.labs]
  refine ⟨List.nodup_range', fun k hk => ?_⟩
  rw [List.mem_range'_1] at hk
  have := G.up
  omega

/-- char x[][][] = array(2,3,4): 6 areas of 4 bytes; element [1][2][3] is the last byte of the
last one. -/
example : leaves [2, 3, 4] = 6 ∧ InB [2, 3, 4] [1, 2, 3] ∧
    follow ((genArray (dimTree [2, 3, 4]) 3 10).1 ++ [.nam 0]) (genArray (dimTree [2, 3, 4]) 3 10).2.1
      [1, 2, 3] = some (16, 3) ∧
    area ((genArray (dimTree [2, 3, 4]) 3 10).1 ++ [.nam 0]) 16 = some [.bs 4] := by
  refine ⟨rfl, ⟨by decide, by decide, by decide, trivial⟩, ?_, ?_⟩ <;> decide +kernel

end Cmm.Gen
