import Verif.Parse.Stat
import Verif.Parse.Sound

/-
A successful run of the statement parser as a derivation: `Run o ty dim none s r s'` if getStat
leads from `s` to `s'` with the tree `r`, and `Run o ty dim (some l) s r s'` if the loop of getBlock
does so having read the list `l`. The relation is a tool for induction; it is shown to contain the
runs of the functions of Parse/Stat.lean.
-/
namespace Cmm.Parse
open Cmm.Tree

/-- Statements without a statement inside. -/
inductive Simple (o : Opts) (ty : Int) (dim : Nat) : PS → Option Stmt → PS → Prop
  | ret {s r s'} : s.toks.head? = some Lx.RETURN → getReturn ty dim s.mark.next = some (r, s') →
      Simple o ty dim s (some r) s'
  | brk {s s'} : s.toks.head? = some Lx.BREAK → s.depth ≠ 0 → chkTok Lx.semi s.mark.next = some s' →
      Simple o ty dim s (some .brk) s'
  | cnt {s s'} : s.toks.head? = some Lx.CONTINUE → s.depth ≠ 0 →
      chkTok Lx.semi s.mark.next = some s' → Simple o ty dim s (some .cnt) s'
  | semi {s} : s.toks.head? = some Lx.semi → Simple o ty dim s none s.mark.next
  | exp {s w s1 s'} : s.toks.head? ≠ some Lx.RETURN → lev 13 s.mark = some (w, s1) →
      chkTok Lx.semi s1 = some s' → Simple o ty dim s (some (.exp w.tree)) s'

inductive Run (o : Opts) (ty : Int) (dim : Nat) :
    Option (Option Stmt) → PS → Option Stmt → PS → Prop
  | simple {s r s'} : Simple o ty dim s r s' →
      Run o ty dim none s r { s' with lastStat := s.toks.head? }
  | ifs {s c s1 a s2} : s.toks.head? = some Lx.IF → getCond s.mark.next = some (c, s1) →
      Run o ty dim none s1 a s2 →
      Run o ty dim none s (some (.ifs c (orEmpty a))) { s2 with lastStat := s.toks.head? }
  | els {s c s1 a s2 b s3} : s.toks.head? = some Lx.IF → getCond s.mark.next = some (c, s1) →
      Run o ty dim none s1 a s2 → s2.toks.head? = some Lx.ELSE → Run o ty dim none s2.next b s3 →
      Run o ty dim none s (some (.els c (orEmpty a) (orEmpty b))) { s3 with lastStat := s.toks.head? }
  | whl {s c s1 a s2} : s.toks.head? = some Lx.WHILE → getCond s.mark.next = some (c, s1) →
      Run o ty dim none { s1 with depth := s1.depth + 1 } a s2 →
      Run o ty dim none s (some (.whl (some c) (orEmpty a) none))
        { s2 with depth := s2.depth - 1, lastStat := s.toks.head? }
  | dos {s a s1 s2 c s3 s4} : s.toks.head? = some Lx.DO →
      Run o ty dim none { s.mark.next with depth := s.depth + 1 } a s1 →
      chkTok Lx.WHILE { s1 with depth := s1.depth - 1 } = some s2 → getCond s2 = some (c, s3) →
      chkTok Lx.semi s3 = some s4 →
      Run o ty dim none s (some (.dos (orEmpty a) c)) { s4 with lastStat := s.toks.head? }
  | for {s s1 ini s2 cnd s3 rini s4 a s5} : s.toks.head? = some Lx.FOR →
      chkTok Lx.lpar s.mark.next = some s1 → getIni o s1 = some (ini, s2) →
      getForCond s2 = some (cnd, s3) → getRini s3 = some (rini, s4) →
      Run o ty dim none { s4 with depth := s4.depth + 1 } a s5 →
      Run o ty dim none s (some (.seq true (orEmpty ini) (.whl cnd (orEmpty a) rini)))
        { { s5 with depth := s5.depth - 1 }.close s.tab.length s.curCnt with lastStat := s.toks.head? }
  | blk {s l s'} : s.toks.head? = some Lx.lbrc → Run o ty dim (some none) s.mark.next l s' →
      Run o ty dim none s (toBlk l)
        { s'.close s.tab.length s.curCnt with lastStat := s.toks.head? }
  | done {l s} : s.toks.head? = some Lx.rbrc → Run o ty dim (some l) s l s.next
  | decl {l s d s1 s2 r s'} : getLVars o s = some (d, s1) → chkTok Lx.semi s1 = some s2 →
      Run o ty dim (some (catS l (some d))) s2 r s' → Run o ty dim (some l) s r s'
  | stat {l s d s1 r s'} : Run o ty dim none s d s1 → Run o ty dim (some (catS l d)) s1 r s' →
      Run o ty dim (some l) s r s'

theorem run_all (o : Opts) (ty : Int) (dim : Nat) :
    (∀ s r, getStat o ty dim s = some r → Run o ty dim none s r.1 r.2) ∧
    (∀ s0 r, getStat1 o ty dim s0 = some r → ∀ s, s0 = s.mark →
      Run o ty dim none s r.1 { r.2 with lastStat := s.toks.head? }) ∧
    (∀ s r, getBlock o ty dim s = some r → ∃ l s', Run o ty dim (some none) s l s' ∧
      r = (toBlk l, s'.close s.tab.length s.curCnt)) ∧
    (∀ l s r, items o ty dim l s = some r → Run o ty dim (some l) s r.1 r.2) := by
  refine getStat.mutual_partial_correctness o ty dim
    (fun s r => Run o ty dim none s r.1 r.2)
    (fun s0 r => ∀ s, s0 = s.mark → Run o ty dim none s r.1 { r.2 with lastStat := s.toks.head? })
    (fun s r => ∃ l s', Run o ty dim (some none) s l s' ∧
      r = (toBlk l, s'.close s.tab.length s.curCnt))
    (fun l s r => Run o ty dim (some l) s r.1 r.2) ?_ ?_ ?_ ?_
  · intro getStat1 ih s r h
    simp only [Option.bind_eq_bind, Option.bind_eq_some_iff] at h
    obtain ⟨⟨r0, s0⟩, h, h'⟩ := h
    cases h'
    exact ih _ _ h s rfl
  · intro getStat getBlock ih1 ih2 s0 r h s hs0
    subst hs0
    have key : s.mark.toks = s.toks := rfl
    split at h
    · rename_i tl hs
      have hd : s.toks.head? = some Lx.IF := by rw [← key, hs]; rfl
      simp only [Option.bind_eq_bind, Option.bind_eq_some_iff] at h
      obtain ⟨⟨c, s1⟩, h1, ⟨a, s2⟩, h2, h⟩ := h
      split at h
      · rename_i hs2
        simp only [Option.bind_eq_bind, Option.bind_eq_some_iff] at h
        obtain ⟨⟨b, s3⟩, h3, h⟩ := h
        cases h
        exact .els hd h1 (ih1 _ _ h2) (by rw [hs2]; rfl) (ih1 _ _ h3)
      · cases h
        exact .ifs hd h1 (ih1 _ _ h2)
    · rename_i tl hs
      have hd : s.toks.head? = some Lx.WHILE := by rw [← key, hs]; rfl
      simp only [Option.bind_eq_bind, Option.bind_eq_some_iff] at h
      obtain ⟨⟨c, s1⟩, h1, ⟨a, s2⟩, h2, h⟩ := h
      cases h
      exact .whl hd h1 (ih1 _ _ h2)
    · rename_i tl hs
      have hd : s.toks.head? = some Lx.DO := by rw [← key, hs]; rfl
      simp only [Option.bind_eq_bind, Option.bind_eq_some_iff] at h
      obtain ⟨⟨a, s1⟩, h1, s2, h2, ⟨c, s3⟩, h3, s4, h4, h⟩ := h
      cases h
      exact .dos hd (ih1 _ _ h1) h2 h3 h4
    · rename_i tl hs
      have hd : s.toks.head? = some Lx.FOR := by rw [← key, hs]; rfl
      simp only [Option.bind_eq_bind, Option.bind_eq_some_iff] at h
      obtain ⟨s1, h1, ⟨ini, s2⟩, h2, ⟨cnd, s3⟩, h3, ⟨rini, s4⟩, h4, ⟨a, s5⟩, h5, h⟩ := h
      cases h
      exact .for hd h1 h2 h3 h4 (ih1 _ _ h5)
    · rename_i tl hs
      have hd : s.toks.head? = some Lx.RETURN := by rw [← key, hs]; rfl
      simp only [Option.map_eq_some_iff] at h
      obtain ⟨⟨a, s1⟩, h1, h⟩ := h
      cases h
      exact .simple (.ret hd h1)
    · rename_i tl hs
      have hd : s.toks.head? = some Lx.BREAK := by rw [← key, hs]; rfl
      split at h
      · cases h
      · rename_i hk
        simp only [Option.map_eq_some_iff] at h
        obtain ⟨s1, h1, h⟩ := h
        cases h
        exact .simple (.brk hd hk h1)
    · rename_i tl hs
      have hd : s.toks.head? = some Lx.CONTINUE := by rw [← key, hs]; rfl
      split at h
      · cases h
      · rename_i hk
        simp only [Option.map_eq_some_iff] at h
        obtain ⟨s1, h1, h⟩ := h
        cases h
        exact .simple (.cnt hd hk h1)
    · rename_i tl hs
      have hd : s.toks.head? = some Lx.lbrc := by rw [← key, hs]; rfl
      obtain ⟨l, s', h1, h2⟩ := ih2 _ _ h
      cases h2
      exact .blk hd h1
    · rename_i tl hs
      have hd : s.toks.head? = some Lx.semi := by rw [← key, hs]; rfl
      cases h
      exact .simple (.semi hd)
    · rename_i hr _ _ _ _
      simp only [Option.bind_eq_bind, Option.bind_eq_some_iff] at h
      obtain ⟨⟨w, s1⟩, h1, s2, h2, h⟩ := h
      cases h
      refine .simple (.exp ?_ h1 h2)
      intro hd
      rw [key] at hr
      cases ht : s.toks with
      | nil => rw [ht] at hd; cases hd
      | cons a b =>
        rw [ht] at hd
        cases hd
        exact hr b ht
  · intro items ih s r h
    simp only [Option.bind_eq_bind, Option.bind_eq_some_iff] at h
    obtain ⟨⟨l, s1⟩, h1, h⟩ := h
    cases h
    exact ⟨l, s1, ih _ _ _ h1, rfl⟩
  · intro getStat items ih1 ih2 l s r h
    split at h
    · cases h
    · rename_i tl hs
      cases h
      exact .done (by rw [hs]; rfl)
    · split at h
      · simp only [Option.bind_eq_bind, Option.bind_eq_some_iff] at h
        obtain ⟨⟨d, s1⟩, h1, s2, h2, h⟩ := h
        exact .decl h1 h2 (ih2 _ _ _ h)
      · simp only [Option.bind_eq_bind, Option.bind_eq_some_iff] at h
        obtain ⟨⟨d, s1⟩, h1, h⟩ := h
        exact .stat (ih1 _ _ h1) (ih2 _ _ _ h)

end Cmm.Parse
