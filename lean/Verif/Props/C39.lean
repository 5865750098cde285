import Verif.Parse.Eval
import Verif.Parse.Glob

/-! C39: local variables that are visible at the same time have different slots. -/
namespace Cmm.Parse
open Cmm.Tree

/-- The indices of the local variables of an expression. -/
def locs : Expr → List Int
  | .leaf .loc n => [n]
  | .assV .loc n r => n :: locs r
  | .assV _ _ r => locs r
  | .func _ a => locs a
  | .un _ a => locs a
  | .bin _ a b => locs a ++ locs b
  | .assM _ a b c => locs a ++ locs b ++ locs c
  | _ => []

/-- The expressions of a statement. -/
def exprs : Stmt → List Expr
  | .exp e => [e]
  | .ifs c a => c :: exprs a
  | .els c a b => c :: (exprs a ++ exprs b)
  | .whl c a r => c.toList ++ exprs a ++ r.toList
  | .dos a c => exprs a ++ [c]
  | .ret e => e.toList
  | .seq _ a b => exprs a ++ exprs b
  | _ => []

/-- The local variables of the expression are visible in the table. -/
def SeenAt (p : Tab) (x : Expr) : Prop :=
  ∀ n ∈ locs x, 0 ≤ n ∧ ∃ e : Ent, p[n.toNat]? = some e ∧ e.scope = ScLVAR

theorem Ty.seen {R : Rules} {T : Tab} {m : Nat} {x : SX} {ts : List (Int × Nat)} {e : Expr}
    (h : Ty R T m x ts e) : SeenAt T e := by
  have two : ∀ {a b : Expr} {op : Bin}, SeenAt T a → SeenAt T b → SeenAt T (.bin op a b) := by
    intro a b op ha hb n hn
    rcases List.mem_append.1 hn with h | h
    · exact ha n h
    · exact hb n h
  have none : ∀ {a : Expr}, locs a = [] → SeenAt T a := by
    intro a ha n hn
    rw [ha] at hn
    cases hn
  induction h with
  | int => exact none rfl
  | chr => exact none rfl
  | log => exact none rfl
  | str => exact none rfl
  | nul => exact none rfl
  | sizeof => exact none rfl
  | addrof => exact none rfl
  | @var m x n e k hs hk =>
    cases hk' : k with
    | loc =>
      subst hk'
      intro i hi
      rw [show locs (.leaf .loc (n : Int)) = [(n : Int)] from rfl, List.mem_singleton] at hi
      subst hi
      refine ⟨Int.natCast_nonneg n, e, hs.1, ?_⟩
      generalize hc : e.scope = c at hk
      cases hk
      rfl
    | _ => exact none rfl
  | call0 => exact none rfl
  | call _ _ _ _ _ ih => exact ih
  | args _ _ ih1 ih2 => exact two ih1 ih2
  | par _ ih => exact ih
  | conv hc _ ih => cases hc <;> exact ih
  | idx _ _ _ ih1 ih2 => exact two ih1 ih2
  | fld _ _ _ _ ih => exact two ih (none rfl)
  | pre hp _ ih => cases hp <;> exact ih
  | bin _ _ _ _ ih1 ih2 => exact two ih1 ih2
  | ass _ _ _ _ hs ih1 ih2 =>
    cases hs with
    | @var k n =>
      cases k with
      | loc =>
        intro i hi
        rcases List.mem_cons.1 hi with h | h
        · subst h
          exact ih1 _ (List.mem_singleton.2 rfl)
        · exact ih2 _ h
      | _ => exact ih2
    | mem =>
      intro i hi
      rcases List.mem_append.1 hi with h | h
      · exact ih1 _ h
      · exact ih2 _ h
  | com _ _ ih1 ih2 => exact two ih1 ih2

theorem lev_seen {k : Nat} {s s' : PS} {w : W} (h : lev k s = some (w, s')) (hk : k ≤ 13 := by decide) :
    SeenAt s.tab w.tree := by
  obtain ⟨x, hx⟩ := lev_sound h hk
  exact hx.ty.seen

/-- At some of the points all local variables of the expression are visible. -/
def Seen (P : List Tab) (x : Expr) : Prop := ∃ p ∈ P, SeenAt p x

theorem Seen.mono {P Q : List Tab} {x : Expr} (h : Seen P x) (hs : ∃ R, Q = R ++ P) : Seen Q x := by
  obtain ⟨p, hp, hx⟩ := h
  obtain ⟨R, rfl⟩ := hs
  exact ⟨p, List.mem_append_right _ hp, hx⟩

theorem Eff.grow {s s' : PS} (h : Eff s s') : ∃ R, s'.pts = R ++ s.pts := by
  obtain ⟨P, hP, -⟩ := h.pts
  exact ⟨P, hP⟩

theorem SeenAt.void {p x : Tab} {e : Expr} (h : SeenAt (p ++ x) e) (hx : ∀ e ∈ x, e.scope = ScVOID) :
    SeenAt p e := by
  intro n hn
  obtain ⟨h0, d, h1, h2⟩ := h n hn
  refine ⟨h0, d, ?_, h2⟩
  rw [List.getElem?_append] at h1
  split at h1
  · exact h1
  · have := hx d (List.mem_of_getElem? h1)
    rw [h2] at this
    exact absurd this (by decide)

theorem getCond_seen {s s' : PS} {c : Expr} (h : getCond s = some (c, s')) : SeenAt s.tab c := by
  simp only [getCond, Option.bind_eq_bind, Option.bind_eq_some_iff] at h
  obtain ⟨s1, h1, ⟨w, s2⟩, h2, w', h3, s3, h4, h⟩ := h
  cases h
  rw [(chkType_bool h3).2, ← (chkTok_fr h1).tab]
  exact lev_seen h2

theorem getForCond_seen {s s' : PS} {c : Option Expr} (h : getForCond s = some (c, s')) :
    ∀ x ∈ c.toList, SeenAt s.tab x := by
  simp only [getForCond, Option.bind_eq_bind, Option.bind_eq_some_iff] at h
  obtain ⟨⟨c, s1⟩, h1, s2, h2, h⟩ := h
  cases h
  unfold getForCond0 at h1
  split at h1
  · cases h1; simp
  · simp only [Option.bind_eq_bind, Option.bind_eq_some_iff] at h1
    obtain ⟨⟨w, s3⟩, h3, w', h4, h1⟩ := h1
    cases h1
    intro x hx
    rw [Option.toList_some, List.mem_singleton] at hx
    subst hx
    rw [(chkType_bool h4).2]
    exact lev_seen h3

theorem getRini_seen {s s' : PS} {c : Option Expr} (h : getRini s = some (c, s')) :
    ∀ x ∈ c.toList, SeenAt s.tab x := by
  simp only [getRini, Option.bind_eq_bind, Option.bind_eq_some_iff] at h
  obtain ⟨⟨c, s1⟩, h1, s2, h2, h⟩ := h
  cases h
  unfold getRini0 at h1
  split at h1
  · cases h1; simp
  · rw [Option.map_eq_some_iff] at h1
    obtain ⟨⟨w, s3⟩, h3, h1⟩ := h1
    cases h1
    intro x hx
    rw [Option.toList_some, List.mem_singleton] at hx
    subst hx
    exact lev_seen h3

theorem getReturn_seen {s s' : PS} {ty : Int} {dim : Nat} {r : Stmt}
    (h : getReturn ty dim s = some (r, s')) : ∀ x ∈ exprs r, SeenAt s.tab x := by
  simp only [getReturn, Option.bind_eq_bind, Option.bind_eq_some_iff] at h
  obtain ⟨⟨c, s1⟩, h1, s2, h2, h⟩ := h
  cases h
  unfold getRetVal at h1
  split at h1
  · simp only [Option.bind_eq_bind, Option.bind_eq_some_iff] at h1
    obtain ⟨⟨w, s3⟩, h3, w', h4, h1⟩ := h1
    cases h1
    intro x hx
    rw [show exprs (.ret (some w'.tree)) = [w'.tree] from rfl, List.mem_singleton] at hx
    subst hx
    rw [chkCmpat_tree h4]
    exact lev_seen h3
  · cases h1
    intro x hx
    cases hx

theorem getLVar_seen {o : Opts} {ty : Int} {s s' : PS} {d : Stmt}
    (h : getLVar o ty s = some (d, s')) : ∀ x ∈ exprs d, Seen s'.pts x := by
  obtain ⟨⟨e, he⟩, ht⟩ := getLVar_some h
  intro x hx
  refine ⟨s'.tab, by rw [he.pts]; exact List.mem_cons_self, ?_⟩
  have hl := (defName_some he.tab).1
  generalize hT : s'.tab = T at ht hl
  cases ht with
  | none => cases hx
  | @init n w s1 s2 h1 h2 h3 =>
    rw [show exprs (.seq false .empty (.exp (.assV .loc (n : Nat) w.tree))) =
      [.assV .loc (n : Nat) w.tree] from rfl, List.mem_singleton] at hx
    subst hx
    intro i hi
    rcases List.mem_cons.1 hi with h | h
    · subst h
      refine ⟨Int.natCast_nonneg n, e, ?_, by rw [he.ent]⟩
      rw [hl] at h3 ⊢
      rw [List.length_append, List.length_singleton, Nat.add_right_cancel_iff] at h3
      rw [Int.toNat_natCast, h3]
      simp
    · rw [← h2]
      exact (lev_seen h1) _ h

theorem getLVar_grow {o : Opts} {ty : Int} {s s' : PS} {d : Stmt}
    (h : getLVar o ty s = some (d, s')) : ∃ R, s'.pts = R ++ s.pts := by
  obtain ⟨⟨e, he⟩, -⟩ := getLVar_some h
  exact ⟨[s'.tab], he.pts⟩

/-- The expressions of the list have been seen. -/
def AllSeen (s : PS) (r : Option Stmt) : Prop := ∀ x ∈ exprs (orEmpty r), Seen s.pts x

theorem lvarLoop_seen {o : Opts} {ty : Int} {d0 : Stmt} {s : PS} {r : Stmt × PS}
    (h : lvarLoop o ty d0 s = some r) : AllSeen s (some d0) → AllSeen r.2 (some r.1) := by
  revert h
  refine lvarLoop.partial_correctness o ty
    (fun d0 s r => AllSeen s (some d0) → AllSeen r.2 (some r.1)) ?_ d0 s r
  intro loop ih d0 s r h hd
  split at h
  · simp only [Option.bind_eq_bind, Option.bind_eq_some_iff] at h
    obtain ⟨⟨d, s1⟩, h1, h⟩ := h
    refine ih _ _ _ h fun x hx => ?_
    rcases List.mem_append.1 hx with hx | hx
    · obtain ⟨R, hR⟩ := getLVar_grow h1
      exact (hd x hx).mono ⟨R, hR⟩
    · exact getLVar_seen h1 x hx
  · cases h
    exact hd

theorem getLVars_seen {o : Opts} {s s' : PS} {d : Stmt} (h : getLVars o s = some (d, s')) :
    AllSeen s' (some d) := by
  simp only [getLVars, Option.bind_eq_bind, Option.bind_eq_some_iff] at h
  obtain ⟨⟨ty, s1⟩, h1, ⟨d1, s2⟩, h2, ⟨d2, s3⟩, h3, h⟩ := h
  cases h
  exact lvarLoop_seen (r := (_, s3)) h3 (getLVar_seen h2)

theorem AllSeen.cat {s s' : PS} {a b : Option Stmt} (h : AllSeen s a) (hs : ∃ R, s'.pts = R ++ s.pts)
    (g : AllSeen s' b) : AllSeen s' (catS a b) := by
  have h' : AllSeen s' a := fun x hx => (h x hx).mono hs
  cases a with
  | none => exact g
  | some a =>
    cases b with
    | none => exact h'
    | some b =>
      intro x hx
      rcases List.mem_append.1 hx with hx | hx
      · exact h' x hx
      · exact g x hx

theorem AllSeen.blk {s : PS} {a : Option Stmt} (h : AllSeen s a) : AllSeen s (toBlk a) := by
  unfold toBlk
  split
  · exact h
  · exact h

theorem Simple.seen {o : Opts} {ty : Int} {dim : Nat} {s s' : PS} {r : Option Stmt}
    (h : Simple o ty dim s r s') : ∀ x ∈ exprs (orEmpty r), SeenAt s.tab x := by
  cases h with
  | ret _ h => exact fun x hx => getReturn_seen h x hx
  | brk => intro x hx; cases hx
  | cnt => intro x hx; cases hx
  | semi => intro x hx; cases hx
  | @exp w s1 _ _ h1 h2 =>
    intro x hx
    rw [show exprs (orEmpty (some (.exp w.tree))) = [w.tree] from rfl, List.mem_singleton] at hx
    subst hx
    exact (lev_seen h1 : SeenAt s.mark.tab w.tree)

/-- The table after a `for (ini;` is that of a point, or that before it. -/
theorem getIni_seen {o : Opts} {s s' : PS} {i : Option Stmt} (h : getIni o s = some (i, s')) :
    (∀ x ∈ exprs (orEmpty i), Seen s'.pts x ∨ SeenAt s.tab x) ∧ (s'.tab = s.tab ∨ s'.tab ∈ s'.pts) := by
  simp only [getIni, Option.bind_eq_bind, Option.bind_eq_some_iff] at h
  obtain ⟨⟨i, s1⟩, h1, s2, h2, h⟩ := h
  cases h
  have f := chkTok_fr h2
  rw [f.pts, f.tab]
  unfold getIni0 at h1
  split at h1
  · cases h1
    exact ⟨fun x hx => by (cases hx), .inl rfl⟩
  · split at h1
    · rw [Option.map_eq_some_iff] at h1
      obtain ⟨⟨d, s3⟩, h3, h1⟩ := h1
      cases h1
      refine ⟨fun x hx => .inl (getLVars_seen h3 x hx), .inr ?_⟩
      obtain ⟨d, ty, s4, s5, g1, g2, g3, rfl⟩ := (getLVars_some h3).run
      show s5.tab ∈ s5.pts
      rw [g2.tab, g2.pts]
      cases g1 with
      | nil => exact (g3 rfl).elim
      | snoc _ _ d => rw [d.pts]; exact List.mem_cons_self
    · rw [Option.map_eq_some_iff] at h1
      obtain ⟨⟨w, s3⟩, h3, h1⟩ := h1
      cases h1
      refine ⟨fun x hx => .inr ?_, .inl (lev_fr h3).tab⟩
      rw [show exprs (orEmpty (some (.exp w.tree))) = [w.tree] from rfl, List.mem_singleton] at hx
      subst hx
      exact lev_seen h3

theorem Run.seen {o : Opts} {ty : Int} {dim : Nat} {k : Option (Option Stmt)} {s s' : PS}
    {r : Option Stmt} (h : Run o ty dim k s r s') :
    (∀ l, k = some l → AllSeen s l) → AllSeen s' r := by
  have grow : ∀ {a b : PS} {n : Option Tok} {d : Nat}, Eff a b →
      ∃ R, ({ b with depth := d, lastStat := n } : PS).pts = R ++ a.pts := fun h => h.grow
  have nn : ∀ {s : PS} (l : Option Stmt), (none : Option (Option Stmt)) = some l → AllSeen s l :=
    fun l hl => by cases hl
  have memMark : ∀ (s : PS), s.tab ∈ s.mark.pts := fun s => List.mem_cons_self
  induction h with
  | @simple s r s' h =>
    intro _ x hx
    refine ⟨s.tab, ?_, h.seen x hx⟩
    have : ∃ R, s'.pts = R ++ s.mark.pts := by
      cases h with
      | ret _ h => exact ⟨[], (getReturn_fr h).1.pts⟩
      | brk _ _ h => exact ⟨[], (chkTok_fr h).pts⟩
      | cnt _ _ h => exact ⟨[], (chkTok_fr h).pts⟩
      | semi => exact ⟨[], rfl⟩
      | exp _ h1 h2 => exact ⟨[], ((lev_fr h1).trans (chkTok_fr h2)).pts⟩
    obtain ⟨R, hR⟩ := this
    show s.tab ∈ s'.pts
    rw [hR]
    exact List.mem_append_right _ (memMark s)
  | @ifs s c s1 a s2 _ h1 h2 ih =>
    intro _ x hx
    have f := getCond_fr h1
    rcases List.mem_cons.1 hx with hx | hx
    · subst hx
      have : Seen s1.pts x := ⟨s.tab, by rw [f.pts]; exact memMark s, (getCond_seen h1 : SeenAt s.mark.next.tab _)⟩
      exact this.mono h2.eff.1.grow
    · exact ih nn x hx
  | @els s c s1 a s2 b s3 _ h1 h2 _ h3 ih1 ih2 =>
    intro _ x hx
    have f := getCond_fr h1
    rcases List.mem_cons.1 hx with hx | hx
    · subst hx
      have : Seen s1.pts x := ⟨s.tab, by rw [f.pts]; exact memMark s, (getCond_seen h1 : SeenAt s.mark.next.tab _)⟩
      exact (this.mono h2.eff.1.grow).mono h3.eff.1.grow
    · rcases List.mem_append.1 hx with hx | hx
      · exact (ih1 nn x hx).mono h3.eff.1.grow
      · exact ih2 nn x hx
  | @whl s c s1 a s2 _ h1 h2 ih =>
    intro _ x hx
    have f := getCond_fr h1
    rw [show exprs (orEmpty (some (.whl (some c) (orEmpty a) none))) = [c] ++ exprs (orEmpty a) ++ [] from rfl,
      List.append_nil] at hx
    rcases List.mem_append.1 hx with hx | hx
    · rw [List.mem_singleton] at hx
      subst hx
      have : Seen s1.pts x := ⟨s.tab, by rw [f.pts]; exact memMark s, (getCond_seen h1 : SeenAt s.mark.next.tab _)⟩
      exact this.mono h2.eff.1.grow
    · exact ih nn x hx
  | @dos s a s1 s2 c s3 s4 _ h1 h2 h3 h4 ih =>
    intro _ x hx
    have f := (chkTok_fr h2).trans ((getCond_fr h3).trans (chkTok_fr h4))
    have hb := h1.eff.2 rfl
    show Seen s4.pts x
    rw [f.pts]
    rcases List.mem_append.1 hx with hx | hx
    · exact ih nn x hx
    · rw [List.mem_singleton] at hx
      subst hx
      have g := getCond_seen h3
      rw [(chkTok_fr h2).tab] at g
      obtain ⟨y, hy, hy'⟩ := hb.void
      change SeenAt s1.tab x at g
      rw [hy] at g
      have : Seen s.mark.pts x := ⟨s.tab, memMark s, g.void hy'⟩
      exact this.mono hb.grow
  | @«for» s s1 ini s2 cnd s3 rini s4 a s5 _ h1 h2 h3 h4 h5 ih =>
    intro _ x hx
    obtain ⟨g1, g2⟩ := getIni_seen h2
    have f1 := chkTok_fr h1
    have f3 := getForCond_fr h3
    have f4 := getRini_fr h4
    have m1 : s.tab ∈ s1.pts := by rw [f1.pts]; exact memMark s
    have m2 : s.tab ∈ s2.pts := by
      obtain ⟨R, hR⟩ := (getIni_eff h2).grow
      rw [hR]
      exact List.mem_append_right _ m1
    have m3 : s2.tab ∈ s2.pts := by
      rcases g2 with g | g
      · rw [g, f1.tab]; exact m2
      · exact g
    have up : ∀ {x : Expr}, Seen s2.pts x → Seen s5.pts x := by
      intro x hx
      obtain ⟨R, hR⟩ := h5.eff.1.grow
      refine hx.mono ⟨R, ?_⟩
      rw [hR]
      show R ++ s4.pts = _
      rw [f4.pts, f3.pts]
    change x ∈ exprs (orEmpty ini) ++ (cnd.toList ++ exprs (orEmpty a) ++ rini.toList) at hx
    show Seen s5.pts x
    rcases List.mem_append.1 hx with hx | hx
    · rcases g1 x hx with h | h
      · exact up h
      · exact up ⟨s.tab, m2, by rw [← show s1.tab = s.tab from f1.tab]; exact h⟩
    rcases List.mem_append.1 hx with hx | hx
    · rcases List.mem_append.1 hx with hx | hx
      · exact up ⟨s2.tab, m3, getForCond_seen h3 x hx⟩
      · exact ih nn x hx
    · exact up ⟨s2.tab, m3, by rw [← f3.tab]; exact getRini_seen h4 x hx⟩
  | blk _ _ ih =>
    intro _
    have := (ih (fun l hl => by cases hl; intro x hx; cases hx)).blk
    exact this
  | done => exact fun h => h _ rfl
  | @decl l s d s1 s2 r s' h1 h2 _ ih =>
    intro hl
    refine ih fun l' h' => ?_
    cases h'
    have e2 := (chkTok_fr h2).pts
    refine (hl _ rfl).cat (s' := s2) ?_ ?_
    · rw [e2]
      exact (getLVars_some h1).eff.grow
    · unfold AllSeen
      rw [e2]
      exact getLVars_seen h1
  | @stat l s d s1 r s' h1 _ ih1 ih2 =>
    intro hl
    refine ih2 fun l' h' => ?_
    cases h'
    exact (hl _ rfl).cat h1.eff.1.grow (ih1 nn)

/-- What the theorem says about a function: at every point the visible local variables have
distinct slots within the frame, and the code generator finds the same slots in its table; each
expression refers to variables that are visible at one point. -/
def SlotsOk : Out → Prop
  | .func _ frame src _ tab pts =>
    (∀ p ∈ pts,
      (∀ (i : Nat) (e : Ent), p[i]? = some e → ∃ e' : Ent, tab[i]? = some e' ∧ e'.name = e.name ∧ e'.type = e.type ∧
        e'.dim = e.dim ∧ e'.cnt = e.cnt) ∧
      (∀ (i : Nat) (e : Ent), p[i]? = some e → e.scope = ScLVAR → 1 ≤ e.cnt ∧ e.cnt ≤ frame) ∧
      ∀ (i j : Nat) (e d : Ent), p[i]? = some e → p[j]? = some d → e.scope = ScLVAR → d.scope = ScLVAR → i ≠ j →
        e.cnt ≠ d.cnt) ∧
    ∀ x ∈ exprs src, ∃ p ∈ pts, SeenAt p x
  | _ => True

theorem slots_glob {t : Tab} (h : ∀ e ∈ t, e.scope ≠ ScLVAR) : slots t = [] := by
  simp only [slots, List.map_eq_nil_iff, List.filter_eq_nil_iff]
  intro e he
  simpa using h e he

theorem slots_mem {t : Tab} {i : Nat} {e : Ent} (h : t[i]? = some e) (hs : e.scope = ScLVAR) :
    e.cnt ∈ slots t := by
  refine List.mem_map.2 ⟨e, List.mem_filter.2 ⟨List.mem_of_getElem? h, ?_⟩, rfl⟩
  rw [hs]; rfl

theorem slots_inj {t : Tab} (h : (slots t).Nodup) {i j : Nat} {e d : Ent} (hi : t[i]? = some e)
    (hj : t[j]? = some d) (he : e.scope = ScLVAR) (hd : d.scope = ScLVAR) (hij : i < j) :
    e.cnt ≠ d.cnt := by
  have hlt := (List.getElem?_eq_some_iff.1 hj).1
  have hsplit : t = t.take j ++ t.drop j := (List.take_append_drop j t).symm
  rw [hsplit, slots_app] at h
  have h1 : e.cnt ∈ slots (t.take j) := by
    refine slots_mem (i := i) ?_ he
    rw [List.getElem?_take]
    simp [hij, hi]
  have h2 : d.cnt ∈ slots (t.drop j) := by
    refine slots_mem (i := 0) ?_ hd
    simpa using hj
  intro heq
  have := (List.nodup_append.1 h).2.2 _ h1 _ h2
  exact this heq

theorem slotsOk_inv (o : Opts) : TopInv o fun t _ out => AllGlob t ∧ ∀ x ∈ out, SlotsOk x := by
  refine out_inv (glob_inv o) (by intros; trivial) (by intros; trivial) ?_
  intro t s s' e ty x old s2 s3 b body hg _ _ _ _ hd h1 _ _ h3 h4 h5 _ h7 _ _ _
  have hb := getBlock_back h7
  obtain ⟨P, hP, hP'⟩ := hb.pts
  rw [h5, List.append_nil] at hP
  have hx : ∀ e ∈ x, e.scope = ScPRM := by
    obtain ⟨y, hy, hy'⟩ := hd.1.app
    rw [List.append_assoc, List.append_cancel_left_eq, List.singleton_append, List.cons.injEq] at hy
    rw [hy.2]
    exact hy'
  have hs : slots s2.tab = List.range' 1 s2.curCnt := by
    rw [h3, h1]
    refine slots_glob fun d hd => ?_
    rcases List.mem_append.1 hd with hd | hd
    · have := hg.markOld old d hd
      intro hc; rw [hc] at this; exact absurd this (by decide)
    · rcases List.mem_cons.1 hd with hd | hd
      · subst hd; exact (by decide : ScFUNC ≠ ScLVAR)
      · rw [hx d hd]; decide
  constructor
  · intro p hp
    rw [hP] at hp
    have hpt := hP' p hp
    obtain ⟨k, hk, hsl⟩ := hpt.slot hs (by rw [h3]; exact Nat.zero_le _)
    refine ⟨?_, ?_, ?_⟩
    · intro i d hi
      have h1 : (p.map Ent.er)[i]? = some d.er := by rw [List.getElem?_map, hi]; rfl
      obtain ⟨y, hy⟩ := hpt.er
      have h2 : (s3.tab.map Ent.er)[i]? = some d.er := by
        rw [← hy, List.getElem?_append_left (List.getElem?_eq_some_iff.1 h1).1, h1]
      rw [List.getElem?_map, Option.map_eq_some_iff] at h2
      obtain ⟨d', h2, h3⟩ := h2
      simp only [Ent.er, Ent.mk.injEq] at h3
      exact ⟨d', h2, h3.1, h3.2.2.1, h3.2.2.2.1, h3.2.2.2.2.1⟩
    · intro i d hi hs'
      have := slots_mem hi hs'
      rw [hsl, List.mem_range'_1] at this
      omega
    · intro i j a b hi hj ha hb hij
      have nd : (slots p).Nodup := by rw [hsl]; exact List.nodup_range'
      rcases Nat.lt_or_gt_of_ne hij with h | h
      · exact slots_inj nd hi hj ha hb h
      · exact (slots_inj nd hj hi hb ha h).symm
  · obtain ⟨l, s1, g1, g2⟩ := (run_all o ty s.curDim).2.2.1 _ _ h7
    have hb' : b = toBlk l := congrArg Prod.fst g2
    have hs3 : s3.pts = s1.pts := by
      have := congrArg Prod.snd g2
      dsimp only at this
      rw [this]
      rfl
    have := (g1.seen (fun l hl => by cases hl; intro x hx; cases hx)).blk
    intro y hy
    rw [hb'] at hy
    have := this y hy
    rw [← hs3] at this
    exact this

/-- C39 At every point of an accepted function (at the beginning of each statement and after each
declarator) distinct visible local variables have distinct slots, which lie within the frame the
code generator is given; the code generator's table has the same slots. Every expression of
the function uses only variables that are visible together at one of these points; so a slot is
not used for two variables in one expression, and not for another variable before the block of the
first has ended. -/
theorem C39 (o : Opts) (toks : List Tok) (s : PS) (h : getSrc o (start toks) = some s)
    (f frame : Nat) (src body : Stmt) (tab : Tab) (pts : List Tab)
    (hf : .func f frame src body tab pts ∈ s.out) :
    (∀ p ∈ pts,
      (∀ (i : Nat) (e : Ent), p[i]? = some e → ∃ e' : Ent, tab[i]? = some e' ∧ e'.name = e.name ∧ e'.type = e.type ∧
        e'.dim = e.dim ∧ e'.cnt = e.cnt) ∧
      (∀ (i : Nat) (e : Ent), p[i]? = some e → e.scope = ScLVAR → 1 ≤ e.cnt ∧ e.cnt ≤ frame) ∧
      ∀ (i j : Nat) (e d : Ent), p[i]? = some e → p[j]? = some d → e.scope = ScLVAR → d.scope = ScLVAR → i ≠ j →
        e.cnt ≠ d.cnt) ∧
    ∀ x ∈ exprs src, ∃ p ∈ pts, SeenAt p x :=
  ((slotsOk_inv o).final h).2 _ hf

/-- `void f(int n) { int a = n; { int b = a; a = b; } for (int c; ; ) { int d; } }` -/
def prog39 : List Tok :=
  [Lx.VOID, .name "f", Lx.lpar, Lx.INT, .name "n", Lx.rpar, Lx.lbrc,
   Lx.INT, .name "a", Lx.eq, .name "n", Lx.semi,
   Lx.lbrc, Lx.INT, .name "b", Lx.eq, .name "a", Lx.semi, .name "a", Lx.eq, .name "b", Lx.semi, Lx.rbrc,
   Lx.FOR, Lx.lpar, Lx.INT, .name "c", Lx.semi, Lx.semi, Lx.rpar, Lx.lbrc, Lx.INT, .name "d", Lx.semi,
   Lx.rbrc, Lx.rbrc]

/-- The names and slots of the local variables visible in a table. -/
def vis (p : Tab) : List (String × Nat) :=
  (p.filter fun e => e.scope == ScLVAR).map fun e => (e.name, e.cnt)

/-- The frame size of a function and the variables at its points, from last to first. -/
def frames (s : PS) : List (Nat × List (List (String × Nat))) :=
  s.out.filterMap fun
    | .func _ n _ _ _ pts => some (n, pts.map vis)
    | _ => none

/-- Slot 2 is used for b and for c after it; the frame has three slots. -/
example : ∃ s, getSrc ⟨false, false⟩ (start prog39) = some s ∧ frames s =
    [(3, [[("a", 1), ("c", 2), ("d", 3)], [("a", 1), ("c", 2)], [("a", 1), ("c", 2)], [("a", 1)],
        [("a", 1), ("b", 2)], [("a", 1), ("b", 2)], [("a", 1)], [("a", 1)]])] :=
  run_ok 60 frames (by decide +kernel)

end Cmm.Parse
