/-
Property C148: the field of the Neel embedding in closed form.
-/
import Verif.Props.Embedding4

namespace TJ

open Finset

/-- The number of sites of the border next to the site `a` of a `W x H` block: one for each side of the block on which `a` lies. -/
def contacts (W H a : Nat) : Nat :=
  (if a / W = 0 then 1 else 0) + (if a % W = W - 1 then 1 else 0) + (if a / W = H - 1 then 1 else 0) + (if a % W = 0 then 1 else 0)

/-- The spin of the site `a` in the antiferromagnetic pattern with an up spin in the first corner. -/
def neelSpin (W a : Nat) : Occ := if oddSite (gridPos W a) then .down else .up

/-- The number of sites of the border next to `b` and across a tile from `a`. -/
def corners (W H a b : Nat) : Nat :=
  ((range (2 * (W + H))).filter fun r => Near (periPos W H b) (periPos W H (W * H + r)) ∧ Diagonal (periPos W H a) (periPos W H (W * H + r))).card

theorem near_border_iff {W H a r : Nat} (hW : 1 ≤ W) (ha : a < W * H) (hr : r < 2 * (W + H)) :
    Near (periPos W H a) (periPos W H (W * H + r)) ↔ (r = a % W ∧ a / W = 0) ∨ (r = W + a / W ∧ a % W = W - 1) ∨
      (r = 2 * W + H - 1 - a % W ∧ a / W = H - 1) ∨ (r = 2 * W + 2 * H - 1 - a / W ∧ a % W = 0) := by
  have h1 : a % W < W := Nat.mod_lt _ hW
  have h2 : a / W < H := Nat.div_lt_of_lt_mul ha
  unfold periPos gridPos Near
  rw [if_pos ha, if_neg (by omega), Nat.add_sub_cancel_left]
  generalize a % W = x at *
  generalize a / W = y at *
  dsimp only
  by_cases t1 : r < W
  · rw [if_pos t1]
    dsimp only
    omega
  · rw [if_neg t1]
    by_cases t2 : r < W + H
    · rw [if_pos t2]
      dsimp only
      omega
    · rw [if_neg t2]
      by_cases t3 : r < 2 * W + H
      · rw [if_pos t3]
        dsimp only
        omega
      · rw [if_neg t3]
        dsimp only
        omega

theorem ite_four {P A B C D : Prop} [Decidable P] [Decidable A] [Decidable B] [Decidable C] [Decidable D] (h : P ↔ A ∨ B ∨ C ∨ D)
    (h1 : ¬ (A ∧ B)) (h2 : ¬ (A ∧ C)) (h3 : ¬ (A ∧ D)) (h4 : ¬ (B ∧ C)) (h5 : ¬ (B ∧ D)) (h6 : ¬ (C ∧ D)) :
    (if P then 1 else 0 : Nat) = (if A then 1 else 0) + (if B then 1 else 0) + (if C then 1 else 0) + (if D then 1 else 0) := by
  by_cases hA : A <;> by_cases hB : B <;> by_cases hC : C <;> by_cases hD : D <;> simp_all

theorem near_border_count {W H a r : Nat} (hW : 1 ≤ W) (ha : a < W * H) (hr : r < 2 * (W + H)) :
    (if Near (periPos W H a) (periPos W H (W * H + r)) then 1 else 0) =
      (if r = a % W then (if a / W = 0 then 1 else 0) else 0) + (if r = W + a / W then (if a % W = W - 1 then 1 else 0) else 0) +
      (if r = 2 * W + H - 1 - a % W then (if a / W = H - 1 then 1 else 0) else 0) +
      (if r = 2 * W + 2 * H - 1 - a / W then (if a % W = 0 then 1 else 0) else 0) := by
  have h1 : a % W < W := Nat.mod_lt _ hW
  have h2 : a / W < H := Nat.div_lt_of_lt_mul ha
  simp only [← ite_and]
  apply ite_four (near_border_iff hW ha hr) <;> omega

theorem contacts_sum {W H a : Nat} (hW : 1 ≤ W) (hH : 1 ≤ H) (ha : a < W * H) :
    ∑ r ∈ range (2 * (W + H)), (if Near (periPos W H a) (periPos W H (W * H + r)) then 1 else 0) = contacts W H a := by
  rw [sum_congr rfl (fun r hr => near_border_count hW ha (mem_range.1 hr))]
  have h1 : a % W < W := Nat.mod_lt _ hW
  have h2 : a / W < H := Nat.div_lt_of_lt_mul ha
  rw [sum_add_distrib, sum_add_distrib, sum_add_distrib, sum_ite_eq', sum_ite_eq', sum_ite_eq', sum_ite_eq',
    if_pos (mem_range.2 (show a % W < 2 * (W + H) by omega)), if_pos (mem_range.2 (show W + a / W < 2 * (W + H) by omega)),
    if_pos (mem_range.2 (show 2 * W + H - 1 - a % W < 2 * (W + H) by omega)),
    if_pos (mem_range.2 (show 2 * W + 2 * H - 1 - a / W < 2 * (W + H) by generalize a / W = y; omega))]
  rfl

/-- The number of sides of the block on which both sites lie. -/
def commonSides (W H a b : Nat) : Nat :=
  (if a / W = 0 ∧ b / W = 0 then 1 else 0) + (if a % W = W - 1 ∧ b % W = W - 1 then 1 else 0) +
  (if a / W = H - 1 ∧ b / W = H - 1 then 1 else 0) + (if a % W = 0 ∧ b % W = 0 then 1 else 0)

/-- C148. The border sites that lie next to `b` and across a tile from `a` stand before the sides common to two neighbouring sites. -/
theorem C148_corners {W H a b : Nat} (hW : 1 ≤ W) (hH : 1 ≤ H) (ha : a < W * H) (hb : b < W * H) :
    corners W H a b = if Near (gridPos W a) (gridPos W b) then commonSides W H a b else 0 := by
  have h1 : b % W < W := Nat.mod_lt _ hW
  have h2 : b / W < H := Nat.div_lt_of_lt_mul hb
  have h3 : a % W < W := Nat.mod_lt _ hW
  have h4 : a / W < H := Nat.div_lt_of_lt_mul ha
  have hD : ∀ r < 2 * (W + H), (Near (periPos W H b) (periPos W H (W * H + r)) ∧ Diagonal (periPos W H a) (periPos W H (W * H + r))) ↔
      (r = b % W ∧ Near (gridPos W a) (gridPos W b) ∧ a / W = 0 ∧ b / W = 0) ∨
      (r = W + b / W ∧ Near (gridPos W a) (gridPos W b) ∧ a % W = W - 1 ∧ b % W = W - 1) ∨
      (r = 2 * W + H - 1 - b % W ∧ Near (gridPos W a) (gridPos W b) ∧ a / W = H - 1 ∧ b / W = H - 1) ∨
      (r = 2 * W + 2 * H - 1 - b / W ∧ Near (gridPos W a) (gridPos W b) ∧ a % W = 0 ∧ b % W = 0) := by
    intro r hr
    rw [near_border_iff hW hb hr, or_and_right, or_and_right, or_and_right]
    have hpa : periPos W H a = gridPos W a := by unfold periPos; rw [if_pos ha]
    have hpr : periPos W H (W * H + r) = if r < W then ((r : Int), (-1 : Int)) else if r < W + H then ((W : Int), ((r - W : Nat) : Int))
        else if r < 2 * W + H then ((W : Int) - 1 - (r - (W + H) : Nat), (H : Int)) else (-1, (H : Int) - 1 - (r - (2 * W + H) : Nat)) := by
      unfold periPos
      rw [if_neg (by omega), Nat.add_sub_cancel_left]
    rw [hpa, hpr]
    unfold gridPos Near Diagonal
    dsimp only
    clear hpa hpr ha hb
    generalize a % W = x at *
    generalize a / W = y at *
    generalize b % W = u at *
    generalize b / W = v at *
    clear a b
    refine or_congr ?_ (or_congr ?_ (or_congr ?_ ?_))
    · constructor
      · rintro ⟨⟨rfl, rfl⟩, h⟩
        rw [if_pos h1] at h
        dsimp only at h
        omega
      · rintro ⟨rfl, h, rfl, rfl⟩
        rw [if_pos h1]
        dsimp only
        omega
    · constructor
      · rintro ⟨⟨rfl, rfl⟩, h⟩
        rw [if_neg (by omega), if_pos (by omega)] at h
        dsimp only at h
        omega
      · rintro ⟨rfl, h, rfl, rfl⟩
        rw [if_neg (by omega), if_pos (by omega)]
        dsimp only
        omega
    · constructor
      · rintro ⟨⟨rfl, rfl⟩, h⟩
        rw [if_neg (by omega), if_neg (by omega), if_pos (by omega)] at h
        dsimp only at h
        omega
      · rintro ⟨rfl, h, rfl, rfl⟩
        rw [if_neg (by omega), if_neg (by omega), if_pos (by omega)]
        dsimp only
        omega
    · constructor
      · rintro ⟨⟨rfl, rfl⟩, h⟩
        rw [if_neg (by omega), if_neg (by omega), if_neg (by omega)] at h
        dsimp only at h
        omega
      · rintro ⟨rfl, h, rfl, rfl⟩
        rw [if_neg (by omega), if_neg (by omega), if_neg (by omega)]
        dsimp only
        omega
  unfold corners
  rw [card_filter]
  have hS : ∀ r ∈ range (2 * (W + H)),
      (if Near (periPos W H b) (periPos W H (W * H + r)) ∧ Diagonal (periPos W H a) (periPos W H (W * H + r)) then 1 else 0) =
      (if r = b % W then (if Near (gridPos W a) (gridPos W b) ∧ a / W = 0 ∧ b / W = 0 then 1 else 0) else 0) +
      (if r = W + b / W then (if Near (gridPos W a) (gridPos W b) ∧ a % W = W - 1 ∧ b % W = W - 1 then 1 else 0) else 0) +
      (if r = 2 * W + H - 1 - b % W then (if Near (gridPos W a) (gridPos W b) ∧ a / W = H - 1 ∧ b / W = H - 1 then 1 else 0) else 0) +
      (if r = 2 * W + 2 * H - 1 - b / W then (if Near (gridPos W a) (gridPos W b) ∧ a % W = 0 ∧ b % W = 0 then 1 else 0) else 0) := by
    intro r hr
    simp only [← ite_and]
    apply ite_four (hD r (mem_range.1 hr)) <;> omega
  rw [sum_congr rfl hS, sum_add_distrib, sum_add_distrib, sum_add_distrib, sum_ite_eq', sum_ite_eq', sum_ite_eq', sum_ite_eq',
    if_pos (mem_range.2 (show b % W < 2 * (W + H) by omega)), if_pos (mem_range.2 (show W + b / W < 2 * (W + H) by omega)),
    if_pos (mem_range.2 (show 2 * W + H - 1 - b % W < 2 * (W + H) by omega)),
    if_pos (mem_range.2 (show 2 * W + 2 * H - 1 - b / W < 2 * (W + H) by generalize b / W = y; omega))]
  unfold commonSides
  by_cases hN : Near (gridPos W a) (gridPos W b)
  · simp only [hN, true_and, if_true]
  · simp only [hN, false_and, if_false]

/-- Sites next to each other have different parities. -/
theorem near_parity {p q : Pt} (h : Near p q) : oddSite q ↔ ¬ oddSite p := by
  unfold Near at h
  unfold oddSite
  omega

section
variable {K : Type} [Field K]

theorem contacts_mul {W H a : Nat} (hW : 1 ≤ W) (hH : 1 ≤ H) (ha : a < W * H) (g : Nat → K) (x : K)
    (hg : ∀ r < 2 * (W + H), Near (periPos W H a) (periPos W H (W * H + r)) → g r = x) :
    ∑ r ∈ range (2 * (W + H)), (if Near (periPos W H a) (periPos W H (W * H + r)) then g r else 0) = contacts W H a * x := by
  rw [← contacts_sum hW hH ha, Nat.cast_sum, sum_mul]
  refine sum_congr rfl fun r hr => ?_
  split_ifs with h
  · rw [hg r (mem_range.1 hr) h]; simp
  · simp

/-- What follows from what in the iterations of `embedding_neel`. -/
def NeelSteps [LinearOrder K] (E : Env) (solve : Solver K) (I : Interactions K) (c : Config) (su : NeelSetup) (dets : List (List Nat)) (ham : SpMat K) :
    List (Int × List K) → List (NeelStep K) → Prop
  | _, [] => True
  | p, x :: l => x.prob = p ∧ neelDressed E I c su.cE su.frontier dets ham p = .ok x.ham ∧
      (∃ k vals vects, solve k x.ham = .ok (vals, vects) ∧ vects[0]? = some x.gs) ∧
      ∃ pL p', spinsProbabilities c dets x.gs = .ok pL ∧ updateProb E.toSetSem c su.emb su.frontier pL = .ok p' ∧
        NeelSteps E solve I c su dets ham p' l

end

section
variable {K : Type} [Field K] [LinearOrder K] [IsStrictOrderedRing K]

omit [IsStrictOrderedRing K] in
theorem neelLoop_steps {E : Env} {sqrt : K → K} {solve : Solver K} {fuel : Nat} {I : Interactions K} {c : Config} {su : NeelSetup}
    {dets : List (List Nat)} {ham : SpMat K} {tol : K} : ∀ (iter k : Nat) (pR : List (Int × List K)) (gs : List K)
      (last : Option (List K × List (List K))) (trace : List (NeelStep K)) (r : NeelResult K),
      neelLoop E sqrt solve fuel I c su dets ham tol iter k pR gs last trace = .ok r →
      ∃ l, r.trace = trace ++ l ∧ (iter ≠ 0 → l ≠ []) ∧ NeelSteps E solve I c su dets ham pR l
  | 0, k, pR, gs, last, trace, r, e => by
    cases last with
    | none => cases e
    | some v =>
      cases e
      exact ⟨[], by simp, fun h => absurd rfl h, trivial⟩
  | iter + 1, k, pR, gs, last, trace, r, e => by
    unfold neelLoop at e
    obtain ⟨h, e1, e⟩ := bind_eq_ok.1 e
    obtain ⟨s, e2, e⟩ := bind_eq_ok.1 e
    obtain ⟨pL, e3, e⟩ := bind_eq_ok.1 e
    obtain ⟨pR', e4, e⟩ := bind_eq_ok.1 e
    dsimp only at e
    obtain ⟨conv, e5, e⟩ := bind_eq_ok.1 e
    obtain ⟨s1, s2, k', s3⟩ := neelSolve_ok e2
    by_cases hcv : conv = true
    · rw [if_pos hcv] at e
      cases e
      exact ⟨[⟨h, pR, s.2.2.2⟩], rfl, fun _ => by simp, rfl, e1, ⟨_, _, _, s3, s2⟩, pL, pR', e3, e4, trivial⟩
    · rw [if_neg hcv] at e
      obtain ⟨l, l1, _, l2⟩ := neelLoop_steps iter _ _ _ _ _ r e
      exact ⟨⟨h, pR, s.2.2.2⟩ :: l, by rw [l1, List.append_assoc]; rfl, fun _ => by simp, rfl, e1, ⟨_, _, _, s3, s2⟩, pL, pR', e3, e4, l2⟩

theorem NeelSteps.consec {E : Env} {solve : Solver K} {I : Interactions K} {c : Config} {su : NeelSetup}
    {dets : List (List Nat)} {ham : SpMat K} {x y : NeelStep K} : ∀ {l : List (NeelStep K)} {p : List (Int × List K)},
    NeelSteps E solve I c su dets ham p l → Consec l x y →
      (∃ p, neelDressed E I c su.cE su.frontier dets ham p = .ok x.ham) ∧
      (∃ k vals vects, solve k x.ham = .ok (vals, vects) ∧ vects[0]? = some x.gs) ∧
      (∃ pL, spinsProbabilities c dets x.gs = .ok pL ∧ updateProb E.toSetSem c su.emb su.frontier pL = .ok y.prob) ∧
      neelDressed E I c su.cE su.frontier dets ham y.prob = .ok y.ham
  | [], p, _, h => by
    obtain ⟨a, b, h⟩ := h
    exact absurd (congrArg List.length h) (by simp)
  | z :: l, p, hs, h => by
    obtain ⟨a, b, h⟩ := h
    cases a with
    | nil =>
      obtain ⟨rfl, rfl⟩ := List.cons.inj h
      obtain ⟨h1, h2, h3, pL, p', h4, h5, h6, h7, _⟩ := hs
      exact ⟨⟨p, h2⟩, h3, ⟨pL, h4, by rw [h6]; exact h5⟩, by rw [h6]; exact h7⟩
    | cons w a =>
      obtain ⟨_, h'⟩ := List.cons.inj h
      obtain ⟨_, _, _, pL, p', _, _, h6⟩ := hs
      exact NeelSteps.consec h6 ⟨a, b, h'⟩

/-- The first iteration uses the antiferromagnetic pattern, the later ones the ground state of the iteration before. -/
theorem neel_steps (E : Env) (sqrt : K → K) (solve : Solver K) (fuel : Nat) (I : Interactions K) (c : Config)
    (hc : RectConf c c.nbh c.nbv c.nblocs) (dets : List (List Nat)) (ham : SpMat K) (eigvects : List (List K)) (tol : K) (maxIter : Nat)
    (r : NeelResult K) (h : embeddingNeel E sqrt solve fuel I c dets ham eigvects tol maxIter = .ok r) :
    ∃ su p f, neelSetup E.toSetSem c = .ok su ∧ r.trace ≠ [] ∧ NeelSteps E solve I c su dets ham p r.trace ∧
      IsLaw p (2 * (c.nbh + c.nbv) * c.nblocs) f ∧ ∀ o, ∀ r < 2 * (c.nbh + c.nbv) * c.nblocs, f o r =
        if (if oddSite (periPos (c.nbh * c.nblocs) (c.nbv * c.nblocs) ((c.nbh * c.nblocs) * (c.nbv * c.nblocs) + r)) then Occ.down else .up) = o
        then 1 else 0 := by
  obtain ⟨P, p1, p2, p3⟩ := initialProb_ok (K := K) E.toSetSem c.nbh c.nbv c.nblocs hc.hh hc.hv hc.hb
  unfold embeddingNeel at h
  obtain ⟨gs, _, h⟩ := bind_eq_ok.1 h
  obtain ⟨su, e1, h⟩ := bind_eq_ok.1 h
  obtain ⟨pR, p1', h⟩ := bind_eq_ok.1 h
  obtain rfl := Except.ok.inj (p1.symm.trans p1')
  obtain ⟨l, l1, l2, l3⟩ := neelLoop_steps maxIter _ _ _ _ _ r h
  rw [List.nil_append] at l1
  refine ⟨su, _, _, e1, ?_, by rw [l1]; exact l3, isLaw_three (P .down) (P .hole) (P .up) _ (p2 _) (p2 _) (p2 _), ?_⟩
  · rw [l1]
    refine l2 ?_
    rintro rfl
    cases h
  · intro o r hr
    cases o <;> exact p3 _ r hr

/-- C148. In its first iteration `embedding_neel` lowers the diagonal entry of every determinant by `J/2` for each bond that joins a border
site to an electron whose spin is that of the antiferromagnetic pattern, and changes nothing else. -/
theorem C148_first (E : Env) (sqrt : K → K) (solve : Solver K) (fuel : Nat) (I : Interactions K) (c : Config)
    (hc : RectConf c c.nbh c.nbv c.nblocs) (hW : 2 ≤ c.nbh * c.nblocs) (hH : 2 ≤ c.nbv * c.nblocs) (dets : List (List Nat))
    (hb : constructBasis c = .ok dets) (hn : c.nholes + c.nbeta ≤ c.nsites) (ham : SpMat K) (hd : ham.dim = dets.length)
    (hin : ∀ t ∈ ham.coo, t.2.1 < ham.dim ∧ t.2.2 < ham.dim) (eigvects : List (List K)) (tol : K) (maxIter : Nat)
    (r : NeelResult K) (h : embeddingNeel E sqrt solve fuel I c dets ham eigvects tol maxIter = .ok r) :
    ∃ x, r.trace.head? = some x ∧ x.ham.dim = ham.dim ∧ ∀ i j, (hi : i < dets.length) → x.ham.entry i j = ham.entry i j - if i = j then
      I.J / 2 * ∑ a ∈ range c.nsites,
        (if occ c.nholes c.nbeta dets[i] a = neelSpin (c.nbh * c.nblocs) a then (contacts (c.nbh * c.nblocs) (c.nbv * c.nblocs) a : K) else 0)
      else 0 := by
  obtain ⟨su, p, f, e1, e2, e3, e4, e5⟩ := neel_steps E sqrt solve fuel I c hc dets ham eigvects tol maxIter r h
  cases ht : r.trace with
  | nil => exact absurd ht e2
  | cons x l =>
    rw [ht] at e3
    obtain ⟨x1, x2, _⟩ := e3
    obtain ⟨h', k1, k2, k3⟩ := neelDressed_eq E I c hc hW hH dets hb hn ham hd hin su e1 p f e4
    obtain rfl := Except.ok.inj (x2.symm.trans k1)
    refine ⟨x, rfl, k2, fun i j hi => ?_⟩
    rw [k3 i j hi, sub_eq_add_neg]
    congr 1
    split_ifs with hij
    · unfold borderEnergy
      rw [← neg_mul, mul_sum]
      refine sum_congr rfl fun a ha => ?_
      have hns : c.nsites = c.nbh * c.nblocs * (c.nbv * c.nblocs) := hc.spec.1
      have ha' : a < c.nbh * c.nblocs * (c.nbv * c.nblocs) := hns ▸ mem_range.1 ha
      have hm : 2 * (c.nbh + c.nbv) * c.nblocs = 2 * (c.nbh * c.nblocs + c.nbv * c.nblocs) := nRest_eq _ _ _
      rw [hm] at e5 ⊢
      rw [hns, sum_add_distrib, contacts_mul (by omega) (by omega) ha' _
        (- (I.J / 2) * if occ c.nholes c.nbeta dets[i] a = neelSpin (c.nbh * c.nblocs) a then 1 else 0), sum_eq_zero]
      · split_ifs <;> ring
      · intro q hq
        have hh := e5 .hole q (mem_range.1 hq)
        rw [if_neg (by split_ifs <;> simp)] at hh
        split_ifs
        · unfold cornerEnergy
          cases occ c.nholes c.nbeta dets[i] a <;> simp [hh]
        · rfl
      · intro q hq hnear
        have hpar := near_parity hnear
        have hpa : periPos (c.nbh * c.nblocs) (c.nbv * c.nblocs) a = gridPos (c.nbh * c.nblocs) a := by unfold periPos; rw [if_pos ha']
        rw [hpa] at hpar
        have hh := e5 .hole q hq
        have hu := e5 .up q hq
        have hdn := e5 .down q hq
        unfold neelSpin bondEnergy
        by_cases ho : oddSite (gridPos (c.nbh * c.nblocs) a)
        · rw [if_neg (hpar.not.2 (not_not.2 ho))] at hh hu hdn
          cases occ c.nholes c.nbeta dets[i] a <;> simp_all
        · rw [if_pos (hpar.2 ho)] at hh hu hdn
          cases occ c.nholes c.nbeta dets[i] a <;> simp_all
    · simp

/-- C148. In every later iteration the border is the mirror image of the block with the spins reversed: an electron gains `J/2` for each bond
to the border, times the probability that its own site had this very spin in the ground state of the iteration before; a hole pays `VNN`
for each such bond times the probability that its own site was empty, and `VNNNper` for the border sites across a tile times the
probability that their neighbour in the block was empty. -/
theorem C148_next (E : Env) (sqrt : K → K) (solve : Solver K) (fuel : Nat) (I : Interactions K) (c : Config)
    (hc : RectConf c c.nbh c.nbv c.nblocs) (hW : 2 ≤ c.nbh * c.nblocs) (hH : 2 ≤ c.nbv * c.nblocs) (dets : List (List Nat))
    (hsol : solve.Good dets.length)
    (hb : constructBasis c = .ok dets) (hn : c.nholes + c.nbeta ≤ c.nsites) (ham : SpMat K) (hd : ham.dim = dets.length)
    (hin : ∀ t ∈ ham.coo, t.2.1 < ham.dim ∧ t.2.2 < ham.dim) (eigvects : List (List K)) (tol : K) (maxIter : Nat)
    (r : NeelResult K) (h : embeddingNeel E sqrt solve fuel I c dets ham eigvects tol maxIter = .ok r) (x y : NeelStep K)
    (hxy : Consec r.trace x y) :
    y.ham.dim = ham.dim ∧ ∀ i j, (hi : i < dets.length) → y.ham.entry i j = ham.entry i j + if i = j then
      ∑ a : Fin c.nsites, (match occ c.nholes c.nbeta dets[i] a with
        | .up => - (I.J / 2) * (contacts (c.nbh * c.nblocs) (c.nbv * c.nblocs) a * born (amp c dets x.gs) a .up)
        | .down => - (I.J / 2) * (contacts (c.nbh * c.nblocs) (c.nbv * c.nblocs) a * born (amp c dets x.gs) a .down)
        | .hole => I.VNN * (contacts (c.nbh * c.nblocs) (c.nbv * c.nblocs) a * born (amp c dets x.gs) a .hole) +
            I.VNNNper * ∑ b : Fin c.nsites, corners (c.nbh * c.nblocs) (c.nbv * c.nblocs) a b * born (amp c dets x.gs) b .hole)
      else 0 := by
  obtain ⟨su, p, f0, e1, e2, e3, _, _⟩ := neel_steps E sqrt solve fuel I c hc dets ham eigvects tol maxIter r h
  obtain ⟨⟨p0, x0⟩, ⟨k, vals, vects, x1, x2⟩, ⟨pL, x3, x4⟩, x5⟩ := e3.consec hxy
  obtain ⟨g1, g2⟩ := hsol k x.ham vals vects x.gs (by rw [neelDressed_dim x0, hd]) x1 x2
  obtain ⟨su', pL', pR', f, a1, a2, a3, a4, a5⟩ := C59_border_update E.toSetSem c hc dets hb hn x.gs g1 g2
  obtain rfl := Except.ok.inj (e1.symm.trans a1)
  obtain rfl := Except.ok.inj (x3.symm.trans a2)
  obtain rfl := Except.ok.inj (x4.symm.trans a3)
  obtain ⟨h', k1, k2, k3⟩ := neelDressed_eq E I c hc hW hH dets hb hn ham hd hin su e1 y.prob f a4
  obtain rfl := Except.ok.inj (x5.symm.trans k1)
  refine ⟨k2, fun i j hi => ?_⟩
  rw [k3 i j hi]
  congr 1
  split_ifs with hij
  swap
  · rfl
  unfold borderEnergy
  rw [Finset.sum_range]
  have hns : c.nsites = c.nbh * c.nblocs * (c.nbv * c.nblocs) := hc.spec.1
  have hm : 2 * (c.nbh + c.nbv) * c.nblocs = 2 * (c.nbh * c.nblocs + c.nbv * c.nblocs) := nRest_eq _ _ _
  refine sum_congr rfl fun a _ => ?_
  have ha' : a.1 < c.nbh * c.nblocs * (c.nbv * c.nblocs) := hns ▸ a.2
  rw [sum_add_distrib]
  have h1 : ∑ q ∈ range (2 * (c.nbh + c.nbv) * c.nblocs),
      (if Near (periPos (c.nbh * c.nblocs) (c.nbv * c.nblocs) a) (periPos (c.nbh * c.nblocs) (c.nbv * c.nblocs) (c.nsites + q))
        then bondEnergy I (occ c.nholes c.nbeta dets[i] a) (fun o => f o q) else 0) =
      contacts (c.nbh * c.nblocs) (c.nbv * c.nblocs) a * bondEnergy I (occ c.nholes c.nbeta dets[i] a)
        (fun o => born (amp c dets x.gs) a o.rev) := by
    have hcm := contacts_mul (W := c.nbh * c.nblocs) (H := c.nbv * c.nblocs) (by omega) (by omega) ha'
      (fun q => bondEnergy I (occ c.nholes c.nbeta dets[i] a) (fun o => f o q))
      (bondEnergy I (occ c.nholes c.nbeta dets[i] a) (fun o => born (amp c dets x.gs) a o.rev))
    rw [← hns, ← hm] at hcm
    refine hcm fun q hq hnear => ?_
    obtain ⟨⟨b, b1, b2, b3, b4⟩, _⟩ := a5 q hq
    obtain rfl := (b1 a).1 hnear
    unfold bondEnergy
    cases occ c.nholes c.nbeta dets[i] a
    · simp only [b2]; rfl
    · simp only [b3]; rfl
    · simp only [b4]; rfl
  have h2 : ∑ q ∈ range (2 * (c.nbh + c.nbv) * c.nblocs),
      (if Diagonal (periPos (c.nbh * c.nblocs) (c.nbv * c.nblocs) a) (periPos (c.nbh * c.nblocs) (c.nbv * c.nblocs) (c.nsites + q))
        then f .hole q else 0) =
      ∑ b : Fin c.nsites, corners (c.nbh * c.nblocs) (c.nbv * c.nblocs) a b * born (amp c dets x.gs) b .hole := by
    have : ∀ b : Fin c.nsites, (corners (c.nbh * c.nblocs) (c.nbv * c.nblocs) a b : K) * born (amp c dets x.gs) b .hole =
        ∑ q ∈ range (2 * (c.nbh + c.nbv) * c.nblocs),
          if Near (periPos (c.nbh * c.nblocs) (c.nbv * c.nblocs) b) (periPos (c.nbh * c.nblocs) (c.nbv * c.nblocs) (c.nsites + q)) ∧
            Diagonal (periPos (c.nbh * c.nblocs) (c.nbv * c.nblocs) a) (periPos (c.nbh * c.nblocs) (c.nbv * c.nblocs) (c.nsites + q))
          then born (amp c dets x.gs) b .hole else 0 := by
      intro b
      unfold corners
      rw [hm, ← sum_filter, sum_const, nsmul_eq_mul, ← hns]
    rw [sum_congr rfl fun b _ => this b, sum_comm]
    refine sum_congr rfl fun q hq => ?_
    obtain ⟨⟨b, b1, b2, _, _⟩, _⟩ := a5 q (mem_range.1 hq)
    rw [Fintype.sum_eq_single b]
    · rw [b2]
      simp only [(b1 b).2 rfl, true_and]
    · intro b' hb'
      rw [if_neg]
      rintro ⟨hnear, _⟩
      exact hb' ((b1 b').1 hnear)
  rw [h1]
  unfold bondEnergy cornerEnergy
  cases occ c.nholes c.nbeta dets[i] a
  · simp only
    rw [← h2, mul_sum]
    congr 1
    · show _ * (I.VNN * born _ _ .hole) = _
      ring
    · refine sum_congr rfl fun q _ => ?_
      split_ifs <;> simp
  · simp only [ite_self, sum_const_zero, add_zero]
    show _ * (- (I.J / 2) * born _ _ .down) = _
    ring
  · simp only [ite_self, sum_const_zero, add_zero]
    show _ * (- (I.J / 2) * born _ _ .up) = _
    ring

/-- Every border site has exactly one neighbour in the block. -/
theorem total_contacts (c : Config) (hc : RectConf c c.nbh c.nbv c.nblocs) :
    ∑ a ∈ range c.nsites, contacts (c.nbh * c.nblocs) (c.nbv * c.nblocs) a = 2 * (c.nbh * c.nblocs + c.nbv * c.nblocs) := by
  have hns : c.nsites = c.nbh * c.nblocs * (c.nbv * c.nblocs) := hc.spec.1
  have hW : 1 ≤ c.nbh * c.nblocs := Nat.mul_pos hc.hh hc.hb
  have hH : 1 ≤ c.nbv * c.nblocs := Nat.mul_pos hc.hv hc.hb
  rw [hns, sum_congr rfl fun a ha => (contacts_sum hW hH (mem_range.1 ha)).symm, sum_comm]
  generalize c.nbh * c.nblocs = W at *
  generalize c.nbv * c.nblocs = H at *
  clear hns hc
  rw [sum_congr rfl (g := fun _ => 1), sum_const, card_range, smul_eq_mul, mul_one]
  intro r hr
  rw [mem_range] at hr
  obtain ⟨b, hb, hbr⟩ : ∃ b < W * H, ∀ a < W * H, Near (periPos W H a) (periPos W H (W * H + r)) ↔ a = b := by
    have key : ∀ u v, u < W → v < H → (∀ a < W * H, Near (periPos W H a) (periPos W H (W * H + r)) ↔ a % W = u ∧ a / W = v) →
        ∃ b < W * H, ∀ a < W * H, Near (periPos W H a) (periPos W H (W * H + r)) ↔ a = b := by
      intro u v hu hv huv
      refine ⟨u + W * v, ?_, fun a ha => (huv a ha).trans ⟨?_, ?_⟩⟩
      · calc u + W * v < W + W * v := by omega
          _ = W * (v + 1) := by ring
          _ ≤ W * H := Nat.mul_le_mul_left _ hv
      · rintro ⟨rfl, rfl⟩
        exact (Nat.mod_add_div a W).symm
      · rintro rfl
        exact ⟨by rw [Nat.add_mul_mod_self_left, Nat.mod_eq_of_lt hu], by
          rw [Nat.add_mul_div_left _ _ (by omega), Nat.div_eq_of_lt hu, zero_add]⟩
    have near : ∀ a < W * H, a % W < W ∧ a / W < H ∧ (Near (periPos W H a) (periPos W H (W * H + r)) ↔ _) :=
      fun a ha => ⟨Nat.mod_lt _ hW, Nat.div_lt_of_lt_mul ha, near_border_iff hW ha hr⟩
    by_cases t1 : r < W
    · refine key r 0 t1 hH fun a ha => ?_
      obtain ⟨n1, n2, n3⟩ := near a ha
      rw [n3]
      generalize a % W = u at *
      generalize a / W = v at *
      omega
    by_cases t2 : r < W + H
    · refine key (W - 1) (r - W) (by omega) (by omega) fun a ha => ?_
      obtain ⟨n1, n2, n3⟩ := near a ha
      rw [n3]
      generalize a % W = u at *
      generalize a / W = v at *
      omega
    by_cases t3 : r < 2 * W + H
    · refine key (2 * W + H - 1 - r) (H - 1) (by omega) (by omega) fun a ha => ?_
      obtain ⟨n1, n2, n3⟩ := near a ha
      rw [n3]
      generalize a % W = u at *
      generalize a / W = v at *
      omega
    · refine key 0 (2 * W + 2 * H - 1 - r) (by omega) (by omega) fun a ha => ?_
      obtain ⟨n1, n2, n3⟩ := near a ha
      rw [n3]
      generalize a % W = u at *
      generalize a / W = v at *
      omega
  rw [sum_eq_single b]
  · rw [if_pos ((hbr b hb).2 rfl)]
  · intro a ha hab
    rw [if_neg]
    exact fun h => hab ((hbr a (mem_range.1 ha)).1 h)
  · intro h
    exact absurd (mem_range.2 hb) h

theorem pattern_window (I : Interactions K) (c : Config) (hc : RectConf c c.nbh c.nbv c.nblocs) (hJ : 0 < I.J) (σ : Nat → Occ) :
    let g := I.J / 2 * ∑ a ∈ range c.nsites,
      (if σ a = neelSpin (c.nbh * c.nblocs) a then (contacts (c.nbh * c.nblocs) (c.nbv * c.nblocs) a : K) else 0)
    0 ≤ g ∧ g ≤ I.J * (c.nbh * c.nblocs + c.nbv * c.nblocs) ∧
      (g = I.J * (c.nbh * c.nblocs + c.nbv * c.nblocs) ↔
        ∀ a < c.nsites, contacts (c.nbh * c.nblocs) (c.nbv * c.nblocs) a ≠ 0 → σ a = neelSpin (c.nbh * c.nblocs) a) := by
  intro g
  have htot : ∑ a ∈ range c.nsites, (contacts (c.nbh * c.nblocs) (c.nbv * c.nblocs) a : K) = 2 * (c.nbh * c.nblocs + c.nbv * c.nblocs) := by
    exact_mod_cast total_contacts c hc
  have hle : ∀ a ∈ range c.nsites, (if σ a = neelSpin (c.nbh * c.nblocs) a then (contacts (c.nbh * c.nblocs) (c.nbv * c.nblocs) a : K) else 0) ≤
      contacts (c.nbh * c.nblocs) (c.nbv * c.nblocs) a := by
    intro a _
    split_ifs
    · exact le_refl _
    · exact Nat.cast_nonneg _
  have h0 : 0 ≤ ∑ a ∈ range c.nsites,
      (if σ a = neelSpin (c.nbh * c.nblocs) a then (contacts (c.nbh * c.nblocs) (c.nbv * c.nblocs) a : K) else 0) := by
    refine sum_nonneg fun a _ => ?_
    split_ifs
    · exact Nat.cast_nonneg _
    · exact le_refl _
  have hs := sum_le_sum hle
  have hiff := sum_eq_sum_iff_of_le hle
  rw [htot] at hs hiff
  have hJ2 : 0 < I.J / 2 := by positivity
  have hr : I.J * (c.nbh * c.nblocs + c.nbv * c.nblocs : K) = I.J / 2 * (2 * (c.nbh * c.nblocs + c.nbv * c.nblocs)) := by ring
  refine ⟨mul_nonneg hJ2.le h0, ?_, ?_⟩
  · rw [hr]
    exact mul_le_mul_of_nonneg_left hs hJ2.le
  · rw [hr, mul_right_inj' hJ2.ne', hiff]
    refine ⟨fun h a ha hca => ?_, fun h a ha => ?_⟩
    · by_contra hne
      have := h a (mem_range.2 ha)
      rw [if_neg hne] at this
      exact hca (by exact_mod_cast this.symm)
    · by_cases hca : contacts (c.nbh * c.nblocs) (c.nbv * c.nblocs) a = 0
      · simp [hca]
      · rw [if_pos (h a (mem_range.1 ha) hca)]

/-- C148. With antiferromagnetic exchange the first field lowers no diagonal entry by more than `J/2` for each border site, raises none, and
lowers it by that much exactly for the determinants in which every site next to the border carries the spin of the pattern. -/
theorem C148_window (E : Env) (sqrt : K → K) (solve : Solver K) (fuel : Nat) (I : Interactions K) (c : Config)
    (hc : RectConf c c.nbh c.nbv c.nblocs) (hW : 2 ≤ c.nbh * c.nblocs) (hH : 2 ≤ c.nbv * c.nblocs) (dets : List (List Nat))
    (hb : constructBasis c = .ok dets) (hn : c.nholes + c.nbeta ≤ c.nsites) (ham : SpMat K) (hd : ham.dim = dets.length)
    (hin : ∀ t ∈ ham.coo, t.2.1 < ham.dim ∧ t.2.2 < ham.dim) (eigvects : List (List K)) (tol : K) (maxIter : Nat)
    (r : NeelResult K) (h : embeddingNeel E sqrt solve fuel I c dets ham eigvects tol maxIter = .ok r) (hJ : 0 < I.J) :
    ∃ x, r.trace.head? = some x ∧ ∀ i, (hi : i < dets.length) →
      ham.entry i i - I.J * (c.nbh * c.nblocs + c.nbv * c.nblocs) ≤ x.ham.entry i i ∧ x.ham.entry i i ≤ ham.entry i i ∧
      (x.ham.entry i i = ham.entry i i - I.J * (c.nbh * c.nblocs + c.nbv * c.nblocs) ↔
        ∀ a < c.nsites, a / (c.nbh * c.nblocs) = 0 ∨ a % (c.nbh * c.nblocs) = c.nbh * c.nblocs - 1 ∨
          a / (c.nbh * c.nblocs) = c.nbv * c.nblocs - 1 ∨ a % (c.nbh * c.nblocs) = 0 →
          occ c.nholes c.nbeta dets[i] a = if oddSite (gridPos (c.nbh * c.nblocs) a) then .down else .up) := by
  obtain ⟨x, x1, _, x3⟩ := C148_first E sqrt solve fuel I c hc hW hH dets hb hn ham hd hin eigvects tol maxIter r h
  refine ⟨x, x1, fun i hi => ?_⟩
  obtain ⟨w1, w2, w3⟩ := pattern_window I c hc hJ (fun a => occ c.nholes c.nbeta dets[i] a)
  rw [x3 i i hi, if_pos rfl]
  refine ⟨by linarith, by linarith, ?_⟩
  rw [sub_right_inj, w3]
  have : ∀ a, contacts (c.nbh * c.nblocs) (c.nbv * c.nblocs) a ≠ 0 ↔ (a / (c.nbh * c.nblocs) = 0 ∨ a % (c.nbh * c.nblocs) = c.nbh * c.nblocs - 1 ∨
      a / (c.nbh * c.nblocs) = c.nbv * c.nblocs - 1 ∨ a % (c.nbh * c.nblocs) = 0) := by
    intro a
    unfold contacts
    generalize a / (c.nbh * c.nblocs) = u
    generalize a % (c.nbh * c.nblocs) = v
    generalize c.nbh * c.nblocs - 1 = w
    generalize c.nbv * c.nblocs - 1 = z
    clear * -
    by_cases p1 : u = 0 <;> by_cases p2 : v = w <;> by_cases p3 : u = z <;> by_cases p4 : v = 0 <;>
      simp only [p1, p2, p3, p4, if_true, if_false, true_or, or_true, iff_true, or_false, false_or, iff_false, not_not] <;> split_ifs <;> omega
  refine forall_congr' fun a => forall_congr' fun ha => ?_
  rw [this a]
  rfl

end

/-- Around a block of two by two every site has two contacts, around one of three by two the middle sites have one; the pattern starts with
an up spin. -/
example : (List.range 4).map (contacts 2 2) = [2, 2, 2, 2] ∧ (List.range 6).map (contacts 3 2) = [2, 1, 2, 2, 1, 2] ∧
    (List.range 4).map (neelSpin 2) = [.up, .down, .down, .up] ∧ corners 2 2 0 1 = 1 ∧ corners 2 2 0 3 = 0 := by decide +kernel

/-- The hypotheses: a run on four up spins, with `J = 2` and a field of `J/2` on two sites of the pattern with two contacts each. -/
example (r) (h : embeddingNeel exEnv sqrtUpTo4 oneSolver 1 exI (rectConf 1 1 2 0 0) [[0, 1, 2, 3]] ⟨1, []⟩ [[1]] 1 5 = .ok r) :=
  C148_first exEnv sqrtUpTo4 oneSolver 1 exI (rectConf 1 1 2 0 0) (rectConf_ok _ _ _ _ _ (by decide) (by decide) (by decide))
    (by decide) (by decide) [[0, 1, 2, 3]] rfl (by decide) ⟨1, []⟩ rfl (by simp) [[1]] 1 5 r h
example (r) (h : embeddingNeel exEnv sqrtUpTo4 oneSolver 1 exI (rectConf 1 1 2 0 0) [[0, 1, 2, 3]] ⟨1, []⟩ [[1]] 1 5 = .ok r) :=
  C148_window exEnv sqrtUpTo4 oneSolver 1 exI (rectConf 1 1 2 0 0) (rectConf_ok _ _ _ _ _ (by decide) (by decide) (by decide))
    (by decide) (by decide) [[0, 1, 2, 3]] rfl (by decide) ⟨1, []⟩ rfl (by simp) [[1]] 1 5 r h (by norm_num [exI])
example (r) (h : embeddingNeel exEnv sqrtUpTo4 oneSolver 1 exI (rectConf 1 1 2 0 0) [[0, 1, 2, 3]] ⟨1, []⟩ [[1]] 1 5 = .ok r) :=
  C148_next exEnv sqrtUpTo4 oneSolver 1 exI (rectConf 1 1 2 0 0) (rectConf_ok _ _ _ _ _ (by decide) (by decide) (by decide))
    (by decide) (by decide) [[0, 1, 2, 3]] oneSolver_good rfl (by decide) ⟨1, []⟩ rfl (by simp) [[1]] 1 5 r h
/-- Such a run exists. -/
example : ∃ r, embeddingNeel exEnv sqrtUpTo4 oneSolver 1 exI (rectConf 1 1 2 0 0) [[0, 1, 2, 3]] ⟨1, []⟩ [[1]] 1 5 = .ok r := by
  have := C79_neel_fails
  cases h : embeddingNeel exEnv sqrtUpTo4 oneSolver 1 exI (rectConf 1 1 2 0 0) [[0, 1, 2, 3]] ⟨1, []⟩ [[1]] 1 5 with
  | ok r => exact ⟨r, rfl⟩
  | error e => rw [h] at this; cases this

end TJ
