/-
Moves of holes reach every occupation on rectangles with at least two rows and two columns.
-/
import Verif.Lemmas.Connected
import Verif.Lemmas.Clusters

namespace TJ

section
variable {n : Nat} {pos : Fin n → Pt}

/-- A hole and a neighbouring electron are exchanged. -/
def HopStep (pos : Fin n → Pt) (σ τ : Conf n) : Prop :=
  ∃ a b, σ a = .hole ∧ σ b ≠ .hole ∧ Near (pos a) (pos b) ∧ τ = exch σ a b

/-- Reached by moves of holes. -/
def HopReach (pos : Fin n → Pt) : Conf n → Conf n → Prop := Relation.ReflTransGen (HopStep pos)

theorem hop_near {σ : Conf n} {a b : Fin n} (ha : σ a = .hole) (h : Near (pos a) (pos b)) : HopReach pos σ (exch σ a b) := by
  by_cases hb : σ b = .hole
  · rw [exch_same (ha.trans hb.symm)]
    exact Relation.ReflTransGen.refl
  · exact Relation.ReflTransGen.single ⟨a, b, ha, hb, h, rfl⟩

theorem hop_near' {σ : Conf n} {a b : Fin n} (hb : σ b = .hole) (h : Near (pos a) (pos b)) : HopReach pos σ (exch σ a b) := by
  rw [exch_comm]
  exact hop_near hb ((near_comm _ _).1 h)

theorem HopReach.trans {σ τ υ : Conf n} (h : HopReach pos σ τ) (h' : HopReach pos τ υ) : HopReach pos σ υ := Relation.ReflTransGen.trans h h'

/-- Exchanges of separate pairs commute. -/
theorem exch_exch_comm (σ : Conf n) {a b c d : Fin n} (h1 : a ≠ c) (h2 : a ≠ d) (h3 : b ≠ c) (h4 : b ≠ d) :
    exch (exch σ a b) c d = exch (exch σ c d) a b := by
  funext s
  unfold exch
  congr 1
  simp only [Equiv.swap_apply_def]
  split_ifs <;> simp_all

/-- Around a square of four bonds with a hole on one corner, the contents of a pair of corners without it can be exchanged. -/
theorem square_exch {p a b q : Fin n} (pa : Near (pos p) (pos a)) (ab : Near (pos a) (pos b)) (bq : Near (pos b) (pos q))
    (qp : Near (pos q) (pos p)) (dpa : p ≠ a) (dpb : p ≠ b) (dpq : p ≠ q) (dab : a ≠ b) (daq : a ≠ q) (dbq : b ≠ q)
    {σ : Conf n} (hp : σ p = .hole) : HopReach pos σ (exch σ a b) := by
  -- the hole goes once around the square
  have round : ∀ σ : Conf n, σ p = .hole → ∃ τ, HopReach pos σ τ ∧ τ p = .hole ∧ τ a = σ b ∧ τ b = σ q ∧ τ q = σ a ∧
      ∀ s, s ≠ p → s ≠ a → s ≠ b → s ≠ q → τ s = σ s := by
    intro σ hp
    refine ⟨exch (exch (exch (exch σ p a) a b) b q) q p, ?_, ?_, ?_, ?_, ?_, ?_⟩
    · have h1 : exch σ p a a = .hole := by rw [exch_right, hp]
      have h2 : exch (exch σ p a) a b b = .hole := by rw [exch_right, h1]
      have h3 : exch (exch (exch σ p a) a b) b q q = .hole := by rw [exch_right, h2]
      exact (((hop_near hp pa).trans (hop_near h1 ab)).trans (hop_near h2 bq)).trans (hop_near h3 qp)
    · rw [exch_right, exch_right, exch_right, exch_right, hp]
    · rw [exch_other _ daq dpa.symm, exch_other _ dab daq, exch_left, exch_other _ dpb.symm dab.symm]
    · rw [exch_other _ dbq dpb.symm, exch_left, exch_other _ daq.symm dbq.symm, exch_other _ dpq.symm daq.symm]
    · rw [exch_left, exch_other _ dpb dpq, exch_other _ dpa dpb, exch_left]
    · intro s s1 s2 s3 s4
      rw [exch_other _ s4 s1, exch_other _ s3 s4, exch_other _ s2 s3, exch_other _ s1 s2]
  have same : ∀ τ : Conf n, τ p = .hole → τ a = σ b → τ b = σ a → τ q = σ q → (∀ s, s ≠ p → s ≠ a → s ≠ b → s ≠ q → τ s = σ s) →
      τ = exch σ a b := by
    intro τ t1 t2 t3 t4 t5
    funext s
    by_cases s1 : s = p
    · rw [s1, t1, exch_other _ dpa dpb, hp]
    by_cases s2 : s = a
    · rw [s2, t2, exch_left]
    by_cases s3 : s = b
    · rw [s3, t3, exch_right]
    rw [exch_other _ s2 s3]
    by_cases s4 : s = q
    · rw [s4, t4]
    · exact t5 s s1 s2 s3 s4
  by_cases ha : σ a = .hole
  · exact hop_near ha ab
  by_cases hb : σ b = .hole
  · exact hop_near' hb ab
  by_cases hab : σ a = σ b
  · rw [exch_same hab]
    exact Relation.ReflTransGen.refl
  obtain ⟨τ, r1, t1, t2, t3, t4, t5⟩ := round σ hp
  by_cases hqa : σ q = σ a
  · rw [← same τ t1 t2 (t3.trans hqa) (t4.trans hqa.symm) t5]
    exact r1
  by_cases hqb : σ q = σ b
  · obtain ⟨υ, r2, u1, u2, u3, u4, u5⟩ := round τ t1
    rw [← same υ u1 (by rw [u2, t3, hqb]) (by rw [u3, t4]) (by rw [u4, t2, hqb])
      (fun s s1 s2 s3 s4 => by rw [u5 s s1 s2 s3 s4, t5 s s1 s2 s3 s4])]
    exact r1.trans r2
  -- the fourth corner is a hole too
  have hq : σ q = .hole := by
    revert ha hb hab hqa hqb
    cases σ a <;> cases σ b <;> cases σ q <;> simp
  set σ1 := exch σ b q with e1
  have h1 : σ1 b = .hole := by rw [e1, exch_left, hq]
  have h1p : σ1 p = .hole := by rw [e1, exch_other _ dpb dpq, hp]
  set σ2 := exch σ1 a b with e2
  have h2 : σ2 a = .hole := by rw [e2, exch_left, h1]
  have h2p : σ2 p = .hole := by rw [e2, exch_other _ dpa dpb, h1p]
  set σ3 := exch σ2 q p with e3
  have h3 : σ3 a = .hole := by rw [e3, exch_other _ daq dpa.symm, h2]
  set σ4 := exch σ3 p a with e4
  have hfin : σ4 = exch σ a b := by
    refine same _ ?_ ?_ ?_ ?_ ?_
    · rw [e4, exch_left, h3]
    · rw [e4, exch_right, e3, exch_right, e2, exch_other _ daq.symm dbq.symm, e1, exch_right]
    · rw [e4, exch_other _ dpb.symm dab.symm, e3, exch_other _ dbq dpb.symm, e2, exch_right, e1, exch_other _ dab daq]
    · rw [e4, exch_other _ dpq.symm daq.symm, e3, exch_left, h2p, hq]
    · intro s s1 s2 s3 s4
      rw [e4, exch_other _ s1 s2, e3, exch_other _ s4 s1, e2, exch_other _ s2 s3, e1, exch_other _ s3 s4]
  rw [← hfin]
  exact (((hop_near' hq bq).trans (hop_near' h1 ab)).trans (hop_near' h2p qp)).trans (hop_near' h3 pa)

/-- Every path of two bonds is two sides of a square, or runs along two sides of neighbouring squares. -/
def Tiled (pos : Fin n → Pt) : Prop := ∀ h a b, Near (pos h) (pos a) → Near (pos a) (pos b) → h ≠ b →
  (∃ q, q ≠ a ∧ Near (pos b) (pos q) ∧ Near (pos q) (pos h)) ∨
  ∃ h' a' b', h' ≠ a ∧ h' ≠ b ∧ a' ≠ b ∧ b' ≠ a ∧ Near (pos h) (pos h') ∧ Near (pos h') (pos a') ∧ Near (pos a') (pos a) ∧
    Near (pos b) (pos b') ∧ Near (pos b') (pos a')

theorem ends_ne {a b : Fin n} (h : Near (pos a) (pos b)) : a ≠ b := by
  rintro rfl
  unfold Near at h
  omega

/-- A hole next to a bond. -/
theorem exch_adjacent (ht : Tiled pos) {h a b : Fin n} (ha : Near (pos h) (pos a)) (hab : Near (pos a) (pos b)) (hb : h ≠ b)
    {σ : Conf n} (hh : σ h = .hole) : HopReach pos σ (exch σ a b) := by
  rcases ht h a b ha hab hb with ⟨q, q1, q2, q3⟩ | ⟨h', a', b', d1, d2, d3, d4, n1, n2, n3, n4, n5⟩
  · exact square_exch ha hab q2 q3 (ends_ne ha) hb (ends_ne q3).symm (ends_ne hab) q1.symm (ends_ne q2) hh
  · have w1 : exch σ h h' h' = .hole := by rw [exch_right, hh]
    have w2 : exch (exch σ h h') h' a' a' = .hole := by rw [exch_right, w1]
    have s1 := (hop_near hh n1).trans (hop_near w1 n2)
    have s2 := square_exch n3 hab n4 n5 (ends_ne n3) d3 (ends_ne n5).symm (ends_ne hab) d4.symm (ends_ne n4) w2
    have key : exch (exch (exch (exch (exch σ h h') h' a') a b) h' a') h h' = exch σ a b := by
      rw [exch_exch_comm _ d1 d2 (ends_ne n3) d3, exch_exch, exch_exch_comm _ (ends_ne ha) hb d1 d2, exch_exch]
    set τ := exch (exch (exch σ h h') h' a') a b with hτ
    have v1 : τ a' = .hole := by rw [hτ, exch_other _ (ends_ne n3) d3, w2]
    have v2 : exch τ h' a' h' = .hole := by rw [exch_left, v1]
    rw [← key]
    exact ((s1.trans s2).trans (hop_near' v1 n2)).trans (hop_near' v2 n1)

/-- A hole somewhere on a connected tiled lattice: every pair of neighbours can be exchanged. -/
theorem exch_anywhere (ht : Tiled pos) {h a b : Fin n} (hj : Joined pos h a) (hab : Near (pos a) (pos b)) :
    ∀ σ : Conf n, σ h = .hole → σ a ≠ .hole → σ b ≠ .hole → HopReach pos σ (exch σ a b) := by
  induction hj using Relation.ReflTransGen.head_induction_on with
  | refl => intro σ h1 h2 _; exact absurd h1 h2
  | @head h h' hn _ ih =>
    intro σ hh ha hb
    have d1 : h ≠ a := fun e => ha (e ▸ hh)
    have d2 : h ≠ b := fun e => hb (e ▸ hh)
    by_cases e1 : h' = a
    · rw [e1] at hn
      exact exch_adjacent ht hn hab d2 hh
    by_cases e2 : h' = b
    · rw [e2] at hn
      rw [exch_comm]
      exact exch_adjacent ht hn ((near_comm _ _).1 hab) d1 hh
    have w : exch σ h h' h' = .hole := by rw [exch_right, hh]
    have s := ih (exch σ h h') w (by rw [exch_other _ d1.symm (Ne.symm e1)]; exact ha) (by rw [exch_other _ d2.symm (Ne.symm e2)]; exact hb)
    have key : exch (exch (exch σ h h') a b) h h' = exch σ a b := by
      rw [exch_exch_comm _ d1 d2 e1 e2, exch_exch]
    have v : exch (exch σ h h') a b h' = .hole := by rw [exch_other _ e1 e2, w]
    rw [← key]
    exact ((hop_near hh hn).trans s).trans (hop_near' v hn)

/-- On a connected tiled lattice with a hole the moves of holes reach all occupations with the same numbers. -/
theorem hops_all (ht : Tiled pos) (hj : ∀ a b, Joined pos a b) (σ τ : Conf n) (h : ∀ o, σ.count o = τ.count o) (hh : ∃ s, σ s = .hole) :
    HopReach pos σ τ := by
  have := steps_all hj σ τ h
  clear h
  suffices hs : HopReach pos σ τ ∧ ∃ s, τ s = .hole from hs.1
  induction this with
  | refl => exact ⟨Relation.ReflTransGen.refl, hh⟩
  | @tail υ τ _ hst ih =>
    obtain ⟨r, s, hs⟩ := ih
    obtain ⟨a, b, hn, hne, rfl⟩ := hst
    refine ⟨r.trans ?_, Equiv.swap a b s, by unfold exch; rw [Equiv.swap_apply_self]; exact hs⟩
    by_cases ha : υ a = .hole
    · exact hop_near ha hn
    by_cases hb : υ b = .hole
    · exact hop_near' hb hn
    exact exch_anywhere ht (hj s a) hn υ hs ha hb

end

/-- A rectangle with at least two rows and columns is tiled. -/
theorem grid_tiled {W H n : Nat} (hW : 2 ≤ W) (hH : 2 ≤ H) (hn : n = W * H) : Tiled fun s : Fin n => gridPos W s := by
  subst hn
  intro h a b ha hab hb
  have hb' : gridPos W h ≠ gridPos W b := fun e => hb (Fin.ext (gridPos_inj e))
  obtain ⟨h1, h2, h3, h4⟩ := gridPos_range (by omega) h.2
  obtain ⟨a1, a2, a3, a4⟩ := gridPos_range (by omega) a.2
  obtain ⟨b1, b2, b3, b4⟩ := gridPos_range (by omega) b.2
  have site : ∀ x y : Int, 0 ≤ x → x < W → 0 ≤ y → y < H → ∃ s : Fin (W * H), gridPos W s = (x, y) := by
    intro x y q1 q2 q3 q4
    obtain ⟨s, s1, s2⟩ := gridPos_surj q1 q2 q3 q4
    exact ⟨⟨s, s1⟩, s2⟩
  have off : ∀ {s t : Fin (W * H)} {x y : Int}, gridPos W s = (x, y) → (x ≠ (gridPos W t).1 ∨ y ≠ (gridPos W t).2) → s ≠ t := by
    rintro s t x y e g rfl
    rw [e] at g
    simp at g
  have hna : Near (gridPos W h) (gridPos W a) := ha
  have hnb : Near (gridPos W a) (gridPos W b) := hab
  have hne : ¬ ((gridPos W h).1 = (gridPos W b).1 ∧ (gridPos W h).2 = (gridPos W b).2) := fun e => hb' (Prod.ext e.1 e.2)
  unfold Near at hna hnb
  by_cases hx : (gridPos W h).1 = (gridPos W a).1 ∧ (gridPos W a).1 = (gridPos W b).1
  · -- a vertical path, with a column beside it
    right
    obtain ⟨d, d1, d2, d3⟩ : ∃ d : Int, 0 ≤ (gridPos W a).1 + d ∧ (gridPos W a).1 + d < W ∧ d.natAbs = 1 := by
      by_cases g : (gridPos W a).1 + 1 < W
      · exact ⟨1, by omega, g, rfl⟩
      · exact ⟨-1, by omega, by omega, rfl⟩
    obtain ⟨h', p1⟩ := site ((gridPos W a).1 + d) (gridPos W h).2 d1 d2 h3 h4
    obtain ⟨a', p2⟩ := site ((gridPos W a).1 + d) (gridPos W a).2 d1 d2 a3 a4
    obtain ⟨b', p3⟩ := site ((gridPos W a).1 + d) (gridPos W b).2 d1 d2 b3 b4
    refine ⟨h', a', b', off p1 (.inl (by omega)), off p1 (.inl (by omega)), off p2 (.inl (by omega)), off p3 (.inl (by omega)), ?_⟩
    simp only [Near, p1, p2, p3]
    omega
  by_cases hy : (gridPos W h).2 = (gridPos W a).2 ∧ (gridPos W a).2 = (gridPos W b).2
  · -- a horizontal path, with a row beside it
    right
    obtain ⟨d, d1, d2, d3⟩ : ∃ d : Int, 0 ≤ (gridPos W a).2 + d ∧ (gridPos W a).2 + d < H ∧ d.natAbs = 1 := by
      by_cases g : (gridPos W a).2 + 1 < H
      · exact ⟨1, by omega, g, rfl⟩
      · exact ⟨-1, by omega, by omega, rfl⟩
    obtain ⟨h', p1⟩ := site (gridPos W h).1 ((gridPos W a).2 + d) h1 h2 d1 d2
    obtain ⟨a', p2⟩ := site (gridPos W a).1 ((gridPos W a).2 + d) a1 a2 d1 d2
    obtain ⟨b', p3⟩ := site (gridPos W b).1 ((gridPos W a).2 + d) b1 b2 d1 d2
    refine ⟨h', a', b', off p1 (.inr (by omega)), off p1 (.inr (by omega)), off p2 (.inr (by omega)), off p3 (.inr (by omega)), ?_⟩
    simp only [Near, p1, p2, p3]
    omega
  · -- a corner
    left
    obtain ⟨q, p1⟩ := site ((gridPos W h).1 + (gridPos W b).1 - (gridPos W a).1) ((gridPos W h).2 + (gridPos W b).2 - (gridPos W a).2)
      (by omega) (by omega) (by omega) (by omega)
    refine ⟨q, off p1 (by omega), ?_⟩
    simp only [Near, p1]
    omega

end TJ
