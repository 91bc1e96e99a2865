/-
Property C149: the iterations of the Neel embedding lower a mean field energy.
-/
import Verif.Props.NeelField
import Verif.Props.EmbeddingTotal
import Mathlib.Topology.MetricSpace.Bounded
import Mathlib.Topology.Order.Compact
import Mathlib.Topology.Algebra.Monoid
import Mathlib.Analysis.Normed.Group.Constructions

namespace TJ

open Finset

section
variable {K : Type} [Field K] [LinearOrder K] [IsStrictOrderedRing K]

/-- The mean value of a matrix in a state. -/
def meanValue (M : SpMat K) (v : List K) : K := ∑ i ∈ range M.dim, ∑ j ∈ range M.dim, v.getD i 0 * M.entry i j * v.getD j 0

/-- The interaction of a block with occupations `p` and a border that mirrors the occupations `q`, with reversed spins. -/
def borderPair (I : Interactions K) (c : Config) (p q : Fin c.nsites → Occ → K) : K :=
  ∑ a : Fin c.nsites, (- (I.J / 2) * (contacts (c.nbh * c.nblocs) (c.nbv * c.nblocs) a * (p a .up * q a .up + p a .down * q a .down)) +
    I.VNN * (contacts (c.nbh * c.nblocs) (c.nbv * c.nblocs) a * (p a .hole * q a .hole)) +
    I.VNNNper * ∑ b : Fin c.nsites, corners (c.nbh * c.nblocs) (c.nbv * c.nblocs) a b * (p a .hole * q b .hole))

/-- The mean field energy of a state: its energy in the isolated block, and half of its interaction with its own image. -/
def meanField (I : Interactions K) (c : Config) (dets : List (List Nat)) (ham : SpMat K) (v : List K) : K :=
  meanValue ham v + borderPair I c (born (amp c dets v)) (born (amp c dets v)) / 2

/-- How much the spin probabilities at the edge of the block differ in two states. -/
def edgeChange (c : Config) (dets : List (List Nat)) (v w : List K) : K :=
  ∑ a : Fin c.nsites, contacts (c.nbh * c.nblocs) (c.nbv * c.nblocs) a *
    ((born (amp c dets w) a .up - born (amp c dets v) a .up) ^ 2 + (born (amp c dets w) a .down - born (amp c dets v) a .down) ^ 2)

/-- The solver returns a normalised vector of the lowest mean value. -/
def Solver.Lowest (solve : Solver K) (n : Nat) : Prop :=
  ∀ k M vals vects gs, M.dim = n → solve k M = .ok (vals, vects) → vects[0]? = some gs → gs.length = n ∧
    ∑ k ∈ range n, gs.getD k 0 * gs.getD k 0 = 1 ∧
    ∀ w : List K, w.length = n → ∑ k ∈ range n, w.getD k 0 * w.getD k 0 = 1 → meanValue M gs ≤ meanValue M w

theorem Solver.Lowest.good {solve : Solver K} {n : Nat} (h : solve.Lowest n) : solve.Good n := by
  intro k M vals vects gs h1 h2 h3
  obtain ⟨g1, g2, _⟩ := h k M vals vects gs h1 h2 h3
  refine ⟨g1, ?_⟩
  by_contra hne
  push Not at hne
  rw [sum_eq_zero] at g2
  · exact zero_ne_one g2
  · intro i hi
    rw [List.getD_eq_getElem _ _ (by rw [g1]; exact mem_range.1 hi), hne _ (List.getElem_mem _), mul_zero]

theorem born_dets {c : Config} {dets : List (List Nat)} (hb : constructBasis c = .ok dets) (hn : c.nholes + c.nbeta ≤ c.nsites)
    (v : List K) (h1 : ∑ k ∈ range dets.length, v.getD k 0 * v.getD k 0 = 1) (a : Fin c.nsites) (o : Occ) :
    born (amp c dets v) a o =
      ∑ k ∈ range dets.length, if occ c.nholes c.nbeta (dets.getD k []) a = o then v.getD k 0 * v.getD k 0 else 0 := by
  unfold born
  rw [sum_amp hb hn (fun σ => if σ a = o then amp c dets v σ * amp c dets v σ else 0) (fun σ h => by rw [amp_outside hb hn v h, mul_zero, ite_self]),
    sum_amp hb hn (fun σ => amp c dets v σ * amp c dets v σ) (fun σ h => by rw [amp_outside hb hn v h, mul_zero])]
  have : ∀ k ∈ range dets.length, amp c dets v (conf c (dets.getD k [])) = v.getD k 0 := by
    intro k hk
    rw [getD_dets (mem_range.1 hk), amp_conf hb v (mem_range.1 hk)]
  have e1 : ∑ k ∈ range dets.length, amp c dets v (conf c (dets.getD k [])) * amp c dets v (conf c (dets.getD k [])) = 1 := by
    rw [← h1]
    exact sum_congr rfl fun k hk => by rw [this k hk]
  rw [e1, div_one]
  exact sum_congr rfl fun k hk => by rw [this k hk]; rfl

theorem corners_comm {W H a b : Nat} (hW : 1 ≤ W) (hH : 1 ≤ H) (ha : a < W * H) (hb : b < W * H) : corners W H a b = corners W H b a := by
  rw [C148_corners hW hH ha hb, C148_corners hW hH hb ha]
  have h1 : Near (gridPos W a) (gridPos W b) ↔ Near (gridPos W b) (gridPos W a) := by unfold Near; omega
  have h2 : commonSides W H a b = commonSides W H b a := by
    unfold commonSides
    simp only [and_comm]
  rw [h2]
  simp only [h1]

theorem borderPair_comm (I : Interactions K) (c : Config) (hc : RectConf c c.nbh c.nbv c.nblocs) (p q : Fin c.nsites → Occ → K) :
    borderPair I c p q = borderPair I c q p := by
  have hns : c.nsites = c.nbh * c.nblocs * (c.nbv * c.nblocs) := hc.spec.1
  unfold borderPair
  rw [sum_add_distrib, sum_add_distrib (f := fun a : Fin c.nsites => - (I.J / 2) *
    (contacts (c.nbh * c.nblocs) (c.nbv * c.nblocs) a * (q a .up * p a .up + q a .down * p a .down)) +
    I.VNN * (contacts (c.nbh * c.nblocs) (c.nbv * c.nblocs) a * (q a .hole * p a .hole)))]
  congr 1
  · refine sum_congr rfl fun a _ => by ring
  · rw [← mul_sum, ← mul_sum, sum_comm]
    congr 1
    refine sum_congr rfl fun b _ => sum_congr rfl fun a _ => ?_
    rw [corners_comm (Nat.mul_pos hc.hh hc.hb) (Nat.mul_pos hc.hv hc.hb) (hns ▸ a.2) (hns ▸ b.2)]
    ring

theorem borderPair_diff (I : Interactions K) (c : Config) (hc : RectConf c c.nbh c.nbv c.nblocs) (p q : Fin c.nsites → Occ → K) :
    borderPair I c (p - q) (p - q) = borderPair I c p p - 2 * borderPair I c p q + borderPair I c q q := by
  have : borderPair I c (p - q) (p - q) = borderPair I c p p - borderPair I c p q - borderPair I c q p + borderPair I c q q := by
    unfold borderPair
    rw [← sum_sub_distrib, ← sum_sub_distrib, ← sum_add_distrib]
    refine sum_congr rfl fun a _ => ?_
    have : ∑ b : Fin c.nsites, (corners (c.nbh * c.nblocs) (c.nbv * c.nblocs) a b : K) * ((p - q) a .hole * (p - q) b .hole) =
        ∑ b : Fin c.nsites, (corners (c.nbh * c.nblocs) (c.nbv * c.nblocs) a b : K) * (p a .hole * p b .hole) -
        ∑ b : Fin c.nsites, (corners (c.nbh * c.nblocs) (c.nbv * c.nblocs) a b : K) * (p a .hole * q b .hole) -
        ∑ b : Fin c.nsites, (corners (c.nbh * c.nblocs) (c.nbv * c.nblocs) a b : K) * (q a .hole * p b .hole) +
        ∑ b : Fin c.nsites, (corners (c.nbh * c.nblocs) (c.nbv * c.nblocs) a b : K) * (q a .hole * q b .hole) := by
      rw [← sum_sub_distrib, ← sum_sub_distrib, ← sum_add_distrib]
      refine sum_congr rfl fun b _ => ?_
      simp only [Pi.sub_apply]
      ring
    rw [this]
    simp only [Pi.sub_apply]
    ring
  rw [this, borderPair_comm I c hc q p]
  ring

/-- The mean value of the matrix of a later iteration, in any normalised state. -/
theorem mean_dressed {I : Interactions K} {c : Config} {dets : List (List Nat)}
    (hb : constructBasis c = .ok dets) (hn : c.nholes + c.nbeta ≤ c.nsites) {ham M : SpMat K} (hd : ham.dim = dets.length) (hM : M.dim = ham.dim)
    {q : Fin c.nsites → Occ → K}
    (hq : ∀ i j, (hi : i < dets.length) → M.entry i j = ham.entry i j + if i = j then
      ∑ a : Fin c.nsites, (match occ c.nholes c.nbeta dets[i] a with
        | .up => - (I.J / 2) * (contacts (c.nbh * c.nblocs) (c.nbv * c.nblocs) a * q a .up)
        | .down => - (I.J / 2) * (contacts (c.nbh * c.nblocs) (c.nbv * c.nblocs) a * q a .down)
        | .hole => I.VNN * (contacts (c.nbh * c.nblocs) (c.nbv * c.nblocs) a * q a .hole) +
            I.VNNNper * ∑ b : Fin c.nsites, corners (c.nbh * c.nblocs) (c.nbv * c.nblocs) a b * q b .hole)
      else 0) (v : List K) (h1 : ∑ k ∈ range dets.length, v.getD k 0 * v.getD k 0 = 1) :
    meanValue M v = meanValue ham v + borderPair I c (born (amp c dets v)) q := by
  have e1 : meanValue M v = meanValue ham v + ∑ i ∈ range dets.length, v.getD i 0 * v.getD i 0 *
      ∑ a : Fin c.nsites, (match occ c.nholes c.nbeta (dets.getD i []) a with
        | .up => - (I.J / 2) * (contacts (c.nbh * c.nblocs) (c.nbv * c.nblocs) a * q a .up)
        | .down => - (I.J / 2) * (contacts (c.nbh * c.nblocs) (c.nbv * c.nblocs) a * q a .down)
        | .hole => I.VNN * (contacts (c.nbh * c.nblocs) (c.nbv * c.nblocs) a * q a .hole) +
            I.VNNNper * ∑ b : Fin c.nsites, corners (c.nbh * c.nblocs) (c.nbv * c.nblocs) a b * q b .hole) := by
    unfold meanValue
    rw [hM, hd, ← sum_add_distrib]
    refine sum_congr rfl fun i hi => ?_
    have hi' := mem_range.1 hi
    rw [sum_congr rfl fun j _ => by rw [hq i j hi', mul_add, add_mul], sum_add_distrib]
    congr 1
    rw [sum_eq_single i]
    · rw [if_pos rfl, getD_dets hi']
      ring
    · intro j _ hj
      rw [if_neg (Ne.symm hj)]
      ring
    · exact fun h => absurd hi h
  rw [e1]
  congr 1
  unfold borderPair
  rw [sum_congr rfl fun i _ => mul_sum _ _ _, sum_comm]
  refine sum_congr rfl fun a _ => ?_
  simp only [born_dets hb hn v h1]
  generalize hX : ∑ b : Fin c.nsites, (corners (c.nbh * c.nblocs) (c.nbv * c.nblocs) a b : K) * q b .hole = X
  have hX' : ∑ b : Fin c.nsites, (corners (c.nbh * c.nblocs) (c.nbv * c.nblocs) a b : K) *
      ((∑ k ∈ range dets.length, if occ c.nholes c.nbeta (dets.getD k []) a = .hole then v.getD k 0 * v.getD k 0 else 0) * q b .hole) =
      (∑ k ∈ range dets.length, if occ c.nholes c.nbeta (dets.getD k []) a = .hole then v.getD k 0 * v.getD k 0 else 0) * X := by
    rw [← hX, mul_sum]
    refine sum_congr rfl fun b _ => by ring
  rw [hX']
  simp only [sum_mul, mul_sum, mul_add, ← sum_add_distrib]
  refine sum_congr rfl fun k _ => ?_
  cases occ c.nholes c.nbeta (dets.getD k []) a <;> simp <;> ring

/-- C149. From one iteration to the next the mean field energy changes by the difference of the mean values of the new matrix in the two
states, and by half of the interaction of the change of the occupations with its own image. -/
theorem C149_identity (E : Env) (sqrt : K → K) (solve : Solver K) (fuel : Nat) (I : Interactions K) (c : Config)
    (hc : RectConf c c.nbh c.nbv c.nblocs) (hW : 2 ≤ c.nbh * c.nblocs) (hH : 2 ≤ c.nbv * c.nblocs) (dets : List (List Nat))
    (hsol : solve.Good dets.length)
    (hb : constructBasis c = .ok dets) (hn : c.nholes + c.nbeta ≤ c.nsites) (ham : SpMat K) (hd : ham.dim = dets.length)
    (hin : ∀ t ∈ ham.coo, t.2.1 < ham.dim ∧ t.2.2 < ham.dim) (eigvects : List (List K)) (tol : K) (maxIter : Nat)
    (r : NeelResult K) (h : embeddingNeel E sqrt solve fuel I c dets ham eigvects tol maxIter = .ok r) (x y : NeelStep K)
    (hxy : Consec r.trace x y) (hx : ∑ k ∈ range dets.length, x.gs.getD k 0 * x.gs.getD k 0 = 1)
    (hy : ∑ k ∈ range dets.length, y.gs.getD k 0 * y.gs.getD k 0 = 1) :
    meanField I c dets ham y.gs = meanField I c dets ham x.gs + (meanValue y.ham y.gs - meanValue y.ham x.gs) +
      borderPair I c (born (amp c dets y.gs) - born (amp c dets x.gs)) (born (amp c dets y.gs) - born (amp c dets x.gs)) / 2 := by
  obtain ⟨k1, k2⟩ := C148_next E sqrt solve fuel I c hc hW hH dets hsol hb hn ham hd hin eigvects tol maxIter r h x y hxy
  rw [borderPair_diff I c hc, mean_dressed hb hn hd k1 k2 y.gs hy, mean_dressed hb hn hd k1 k2 x.gs hx]
  unfold meanField
  ring

theorem born_no_hole {c : Config} {dets : List (List Nat)} (hn : c.nholes + c.nbeta ≤ c.nsites)
    (hb : constructBasis c = .ok dets) (h0 : c.nholes = 0) (v : List K) (h1 : ∑ k ∈ range dets.length, v.getD k 0 * v.getD k 0 = 1)
    (a : Fin c.nsites) : born (amp c dets v) a .hole = 0 := by
  rw [born_dets hb hn v h1]
  refine sum_eq_zero fun k _ => if_neg ?_
  unfold occ
  rw [h0]
  split_ifs <;> simp_all

/-- C149. With antiferromagnetic exchange, and no repulsion between holes or no holes, an iteration that finds a state no higher in its
matrix than the state before lowers the mean field energy, at least by `J/4` times the squared changes of the spin probabilities at the
edge. -/
theorem C149_descent (E : Env) (sqrt : K → K) (solve : Solver K) (fuel : Nat) (I : Interactions K) (c : Config)
    (hc : RectConf c c.nbh c.nbv c.nblocs) (hW : 2 ≤ c.nbh * c.nblocs) (hH : 2 ≤ c.nbv * c.nblocs) (dets : List (List Nat))
    (hsol : solve.Good dets.length)
    (hb : constructBasis c = .ok dets) (hn : c.nholes + c.nbeta ≤ c.nsites) (ham : SpMat K) (hd : ham.dim = dets.length)
    (hin : ∀ t ∈ ham.coo, t.2.1 < ham.dim ∧ t.2.2 < ham.dim) (eigvects : List (List K)) (tol : K) (maxIter : Nat)
    (r : NeelResult K) (h : embeddingNeel E sqrt solve fuel I c dets ham eigvects tol maxIter = .ok r) (x y : NeelStep K)
    (hxy : Consec r.trace x y) (hx : ∑ k ∈ range dets.length, x.gs.getD k 0 * x.gs.getD k 0 = 1)
    (hy : ∑ k ∈ range dets.length, y.gs.getD k 0 * y.gs.getD k 0 = 1)
    (hlow : meanValue y.ham y.gs ≤ meanValue y.ham x.gs) (hV : c.nholes = 0 ∨ (I.VNN ≤ 0 ∧ I.VNNNper = 0)) :
    meanField I c dets ham y.gs + I.J / 4 * edgeChange c dets x.gs y.gs ≤ meanField I c dets ham x.gs := by
  have hid := C149_identity E sqrt solve fuel I c hc hW hH dets hsol hb hn ham hd hin eigvects tol maxIter r h x y hxy hx hy
  have key : borderPair I c (born (amp c dets y.gs) - born (amp c dets x.gs)) (born (amp c dets y.gs) - born (amp c dets x.gs)) ≤
      - (I.J / 2) * edgeChange c dets x.gs y.gs := by
    unfold borderPair edgeChange
    rw [mul_sum]
    refine sum_le_sum fun a _ => ?_
    simp only [Pi.sub_apply]
    rcases hV with h0 | ⟨h1, h2⟩
    · simp only [born_no_hole hn hb h0 x.gs hx, born_no_hole hn hb h0 y.gs hy, sub_self, mul_zero, zero_mul, sum_const_zero, add_zero]
      exact le_of_eq (by ring)
    · rw [h2, zero_mul, add_zero]
      have : I.VNN * ((contacts (c.nbh * c.nblocs) (c.nbv * c.nblocs) a : K) *
          ((born (amp c dets y.gs) a .hole - born (amp c dets x.gs) a .hole) * (born (amp c dets y.gs) a .hole - born (amp c dets x.gs) a .hole))) ≤ 0 :=
        mul_nonpos_of_nonpos_of_nonneg h1 (mul_nonneg (Nat.cast_nonneg _) (mul_self_nonneg _))
      refine (add_le_of_nonpos_right this).trans (le_of_eq (by ring))
  rw [hid]
  linarith

theorem NeelSteps.solved {E : Env} {solve : Solver K} {I : Interactions K} {c : Config} {su : NeelSetup}
    {dets : List (List Nat)} {ham : SpMat K} {x : NeelStep K} : ∀ {l : List (NeelStep K)} {p : List (Int × List K)},
    NeelSteps E solve I c su dets ham p l → x ∈ l → x.ham.dim = ham.dim ∧ ∃ k vals vects, solve k x.ham = .ok (vals, vects) ∧ vects[0]? = some x.gs
  | [], _, _, h => by simp at h
  | z :: l, p, hs, h => by
    obtain ⟨h1, h2, h3, pL, p', h4, h5, h6⟩ := hs
    rcases List.mem_cons.1 h with rfl | h
    · exact ⟨neelDressed_dim h2, h3⟩
    · exact h6.solved h

/-- C149. With a solver that returns the lowest state, the mean field energy never rises in a run, and the squared changes of all
iterations together are bounded by its fall. -/
theorem C149_total (E : Env) (sqrt : K → K) (solve : Solver K) (fuel : Nat) (I : Interactions K) (c : Config)
    (hc : RectConf c c.nbh c.nbv c.nblocs) (hW : 2 ≤ c.nbh * c.nblocs) (hH : 2 ≤ c.nbv * c.nblocs) (dets : List (List Nat))
    (hsol : solve.Lowest dets.length)
    (hb : constructBasis c = .ok dets) (hn : c.nholes + c.nbeta ≤ c.nsites) (ham : SpMat K) (hd : ham.dim = dets.length)
    (hin : ∀ t ∈ ham.coo, t.2.1 < ham.dim ∧ t.2.2 < ham.dim) (eigvects : List (List K)) (tol : K) (maxIter : Nat)
    (r : NeelResult K) (h : embeddingNeel E sqrt solve fuel I c dets ham eigvects tol maxIter = .ok r)
    (hV : c.nholes = 0 ∨ (I.VNN ≤ 0 ∧ I.VNNNper = 0)) :
    ∃ x y, r.trace.head? = some x ∧ r.trace.getLast? = some y ∧
      meanField I c dets ham y.gs + I.J / 4 * (List.zipWith (fun a b => edgeChange c dets a.gs b.gs) r.trace r.trace.tail).sum ≤
        meanField I c dets ham x.gs := by
  obtain ⟨su, p, f, e1, e2, e3, _, _⟩ := neel_steps E sqrt solve fuel I c hc dets ham eigvects tol maxIter r h
  have hstep : ∀ x y, Consec r.trace x y →
      meanField I c dets ham y.gs + I.J / 4 * edgeChange c dets x.gs y.gs ≤ meanField I c dets ham x.gs := by
    intro x y hxy
    obtain ⟨u, w, huw⟩ := id hxy
    obtain ⟨x1, k, vals, vects, x2, x3⟩ := e3.solved (x := x) (by rw [huw]; simp)
    obtain ⟨y1, k', vals', vects', y2, y3⟩ := e3.solved (x := y) (by rw [huw]; simp)
    obtain ⟨gx, hx, _⟩ := hsol k x.ham vals vects x.gs (by rw [x1, hd]) x2 x3
    obtain ⟨_, hy, hlow⟩ := hsol k' y.ham vals' vects' y.gs (by rw [y1, hd]) y2 y3
    exact C149_descent E sqrt solve fuel I c hc hW hH dets hsol.good hb hn ham hd hin eigvects tol maxIter r h x y hxy hx hy
      (hlow x.gs gx hx) hV
  have key : ∀ l : List (NeelStep K), l ≠ [] → (∀ x y, Consec l x y →
      meanField I c dets ham y.gs + I.J / 4 * edgeChange c dets x.gs y.gs ≤ meanField I c dets ham x.gs) →
      ∃ x y, l.head? = some x ∧ l.getLast? = some y ∧
      meanField I c dets ham y.gs + I.J / 4 * (List.zipWith (fun a b => edgeChange c dets a.gs b.gs) l l.tail).sum ≤
        meanField I c dets ham x.gs := by
    intro l
    induction l with
    | nil => exact fun h => absurd rfl h
    | cons x l ih =>
      intro _ hl
      cases l with
      | nil => exact ⟨x, x, rfl, rfl, by simp⟩
      | cons y l =>
        obtain ⟨y', z, g1, g2, g3⟩ := ih (by simp) fun a b ⟨u, w, huw⟩ => hl a b ⟨x :: u, w, by rw [huw]; rfl⟩
        obtain rfl := Option.some.inj g1
        refine ⟨x, z, rfl, by rw [List.getLast?_cons_cons]; exact g2, ?_⟩
        have h1 := hl x y ⟨[], l, rfl⟩
        simp only [List.tail_cons, List.zipWith_cons_cons, List.sum_cons] at g3 ⊢
        linarith
  exact key r.trace e2 hstep

theorem meanField_ge (I : Interactions K) (c : Config) (hc : RectConf c c.nbh c.nbv c.nblocs) (dets : List (List Nat)) (hJ : 0 ≤ I.J)
    (hb : constructBasis c = .ok dets) (hn : c.nholes + c.nbeta ≤ c.nsites) (ham : SpMat K)
    (hV : c.nholes = 0 ∨ (I.VNN = 0 ∧ I.VNNNper = 0)) (v : List K) (hv : ∑ k ∈ range dets.length, v.getD k 0 * v.getD k 0 = 1) :
    meanValue ham v - I.J * (c.nbh * c.nblocs + c.nbv * c.nblocs) / 2 ≤ meanField I c dets ham v := by
  have htot : ∑ a : Fin c.nsites, (contacts (c.nbh * c.nblocs) (c.nbv * c.nblocs) a : K) = 2 * (c.nbh * c.nblocs + c.nbv * c.nblocs) := by
    rw [← Finset.sum_range (fun a => (contacts (c.nbh * c.nblocs) (c.nbv * c.nblocs) a : K))]
    exact_mod_cast total_contacts c hc
  have key : - (I.J / 2) * (2 * (c.nbh * c.nblocs + c.nbv * c.nblocs)) ≤ borderPair I c (born (amp c dets v)) (born (amp c dets v)) := by
    rw [← htot, mul_sum]
    unfold borderPair
    refine sum_le_sum fun a _ => ?_
    have h1 : born (amp c dets v) a .up * born (amp c dets v) a .up + born (amp c dets v) a .down * born (amp c dets v) a .down ≤ 1 := by
      have hs : born (amp c dets v) a .up + born (amp c dets v) a .down ≤ 1 := by
        have h0 := born_nonneg (amp c dets v) a .hole
        have := born_sum (amp c dets v) a (by
          rw [sum_amp hb hn (fun σ => amp c dets v σ * amp c dets v σ) (fun σ h => by rw [amp_outside hb hn v h, mul_zero])]
          rw [sum_congr rfl (g := fun k => v.getD k 0 * v.getD k 0), hv]
          · exact one_ne_zero
          · intro k hk
            rw [getD_dets (mem_range.1 hk), amp_conf hb v (mem_range.1 hk)])
        linarith
      have hu := born_nonneg (amp c dets v) a .up
      have hdn := born_nonneg (amp c dets v) a .down
      nlinarith
    have h2 : I.VNN * ((contacts (c.nbh * c.nblocs) (c.nbv * c.nblocs) a : K) * (born (amp c dets v) a .hole * born (amp c dets v) a .hole)) +
        I.VNNNper * ∑ b : Fin c.nsites, (corners (c.nbh * c.nblocs) (c.nbv * c.nblocs) a b : K) *
          (born (amp c dets v) a .hole * born (amp c dets v) b .hole) = 0 := by
      rcases hV with h0 | ⟨h3, h4⟩
      · simp [born_no_hole hn hb h0 v hv]
      · simp [h3, h4]
    rw [add_assoc, h2, add_zero]
    have hc0 : (0 : K) ≤ contacts (c.nbh * c.nblocs) (c.nbv * c.nblocs) a := Nat.cast_nonneg _
    have := mul_le_mul_of_nonneg_left (mul_le_mul_of_nonneg_left h1 hc0) (show 0 ≤ I.J / 2 by linarith)
    linarith
  unfold meanField
  linarith

/-- C149. However many iterations are allowed, the squared changes of the spin probabilities at the edge add up to no more than a bound
given by the first state and the lowest energy of the isolated block: the changes become as small as one wishes. -/
theorem C149_bounded (E : Env) (sqrt : K → K) (solve : Solver K) (fuel : Nat) (I : Interactions K) (c : Config)
    (hc : RectConf c c.nbh c.nbv c.nblocs) (hW : 2 ≤ c.nbh * c.nblocs) (hH : 2 ≤ c.nbv * c.nblocs) (dets : List (List Nat))
    (hsol : solve.Lowest dets.length)
    (hb : constructBasis c = .ok dets) (hn : c.nholes + c.nbeta ≤ c.nsites) (ham : SpMat K) (hd : ham.dim = dets.length)
    (hin : ∀ t ∈ ham.coo, t.2.1 < ham.dim ∧ t.2.2 < ham.dim) (eigvects : List (List K)) (tol : K) (maxIter : Nat)
    (r : NeelResult K) (h : embeddingNeel E sqrt solve fuel I c dets ham eigvects tol maxIter = .ok r) (hJ : 0 ≤ I.J)
    (hV : c.nholes = 0 ∨ (I.VNN = 0 ∧ I.VNNNper = 0)) (e : K)
    (he : ∀ w : List K, w.length = dets.length → ∑ k ∈ range dets.length, w.getD k 0 * w.getD k 0 = 1 → e ≤ meanValue ham w) :
    ∃ x, r.trace.head? = some x ∧
      I.J / 4 * (List.zipWith (fun a b => edgeChange c dets a.gs b.gs) r.trace r.trace.tail).sum ≤
        meanField I c dets ham x.gs - e + I.J * (c.nbh * c.nblocs + c.nbv * c.nblocs) / 2 := by
  obtain ⟨x, y, h1, h2, h3⟩ := C149_total E sqrt solve fuel I c hc hW hH dets hsol hb hn ham hd hin eigvects tol maxIter r h
    (hV.imp id fun ⟨a, b⟩ => ⟨a.le, b⟩)
  refine ⟨x, h1, ?_⟩
  obtain ⟨su, p, f, e1, e2, e3, _, _⟩ := neel_steps E sqrt solve fuel I c hc dets ham eigvects tol maxIter r h
  obtain ⟨y1, k, vals, vects, y2, y3⟩ := e3.solved (x := y) (List.mem_of_getLast? h2)
  obtain ⟨gy, hy, _⟩ := hsol k y.ham vals vects y.gs (by rw [y1, hd]) y2 y3
  have := meanField_ge I c hc dets hJ hb hn ham hV y.gs hy
  have := he y.gs gy hy
  linarith

theorem head_or_second {α : Type} {x : α} : ∀ {l : List α}, x ∈ l → l.head? = some x ∨ ∃ y, Consec l y x
  | [], h => by simp at h
  | z :: l, h => by
    rcases List.mem_cons.1 h with rfl | h
    · exact Or.inl rfl
    · right
      rcases head_or_second h with h1 | ⟨y, a, b, h1⟩
      · cases l with
        | nil => simp at h
        | cons w l =>
          obtain rfl := Option.some.inj h1
          exact ⟨z, [], l, rfl⟩
      · exact ⟨y, z :: a, b, by rw [h1]; rfl⟩

/-- The probabilities of up and down spins of two states. -/
theorem pair_le_one {c : Config} {dets : List (List Nat)} (hb : constructBasis c = .ok dets) (hn : c.nholes + c.nbeta ≤ c.nsites)
    (v w : List K) (hv : ∑ k ∈ range dets.length, v.getD k 0 * v.getD k 0 = 1) (a : Fin c.nsites) :
    born (amp c dets v) a .up * born (amp c dets w) a .up + born (amp c dets v) a .down * born (amp c dets w) a .down ≤ 1 := by
  have h0 := born_nonneg (amp c dets v) a .hole
  have h1 := born_sum (amp c dets v) a (by
    rw [sum_amp hb hn (fun σ => amp c dets v σ * amp c dets v σ) (fun σ h => by rw [amp_outside hb hn v h, mul_zero]),
      sum_congr rfl (g := fun k => v.getD k 0 * v.getD k 0), hv]
    · exact one_ne_zero
    · intro k hk
      rw [getD_dets (mem_range.1 hk), amp_conf hb v (mem_range.1 hk)])
  have h2 := mul_le_of_le_one_right (born_nonneg (amp c dets v) a .up) (born_le_one (amp c dets w) a .up)
  have h3 := mul_le_of_le_one_right (born_nonneg (amp c dets v) a .down) (born_le_one (amp c dets w) a .down)
  linarith

/-- C149. Without holes, or without repulsion between them, the matrix of each iteration lies between that of the isolated block and the
same less `J` times half of the circumference: every energy found by the embedding is below the one of the isolated block, by no more
than this. -/
theorem C149_energies (E : Env) (sqrt : K → K) (solve : Solver K) (fuel : Nat) (I : Interactions K) (c : Config)
    (hc : RectConf c c.nbh c.nbv c.nblocs) (hW : 2 ≤ c.nbh * c.nblocs) (hH : 2 ≤ c.nbv * c.nblocs) (dets : List (List Nat))
    (hsol : solve.Good dets.length)
    (hb : constructBasis c = .ok dets) (hn : c.nholes + c.nbeta ≤ c.nsites) (ham : SpMat K) (hd : ham.dim = dets.length)
    (hin : ∀ t ∈ ham.coo, t.2.1 < ham.dim ∧ t.2.2 < ham.dim) (eigvects : List (List K)) (tol : K) (maxIter : Nat)
    (r : NeelResult K) (h : embeddingNeel E sqrt solve fuel I c dets ham eigvects tol maxIter = .ok r) (hJ : 0 < I.J)
    (hV : c.nholes = 0 ∨ (I.VNN = 0 ∧ I.VNNNper = 0)) (x : NeelStep K) (hx : x ∈ r.trace) (w : List K)
    (hw : ∑ k ∈ range dets.length, w.getD k 0 * w.getD k 0 = 1) :
    meanValue ham w - I.J * (c.nbh * c.nblocs + c.nbv * c.nblocs) ≤ meanValue x.ham w ∧ meanValue x.ham w ≤ meanValue ham w := by
  rcases head_or_second hx with h1 | ⟨y, hyx⟩
  · obtain ⟨x', x1, x2, x3⟩ := C148_first E sqrt solve fuel I c hc hW hH dets hb hn ham hd hin eigvects tol maxIter r h
    obtain rfl := Option.some.inj (h1.symm.trans x1)
    have e1 : meanValue x.ham w = meanValue ham w - ∑ i ∈ range dets.length, w.getD i 0 * w.getD i 0 * (I.J / 2 * ∑ a ∈ range c.nsites,
        (if occ c.nholes c.nbeta (dets.getD i []) a = neelSpin (c.nbh * c.nblocs) a then (contacts (c.nbh * c.nblocs) (c.nbv * c.nblocs) a : K)
          else 0)) := by
      unfold meanValue
      rw [x2, hd, ← sum_sub_distrib]
      refine sum_congr rfl fun i hi => ?_
      have hi' := mem_range.1 hi
      rw [sum_congr rfl fun j _ => by rw [x3 i j hi', mul_sub, sub_mul], sum_sub_distrib]
      congr 1
      rw [sum_eq_single i]
      · rw [if_pos rfl, getD_dets hi']
        ring
      · intro j _ hj
        rw [if_neg (Ne.symm hj)]
        ring
      · exact fun h => absurd hi h
    have e2 := fun i => pattern_window I c hc hJ (fun a => occ c.nholes c.nbeta (dets.getD i []) a)
    have e3 : 0 ≤ ∑ i ∈ range dets.length, w.getD i 0 * w.getD i 0 * (I.J / 2 * ∑ a ∈ range c.nsites,
        (if occ c.nholes c.nbeta (dets.getD i []) a = neelSpin (c.nbh * c.nblocs) a then (contacts (c.nbh * c.nblocs) (c.nbv * c.nblocs) a : K)
          else 0)) := sum_nonneg fun i _ => mul_nonneg (mul_self_nonneg _) (e2 i).1
    have e4 : ∑ i ∈ range dets.length, w.getD i 0 * w.getD i 0 * (I.J / 2 * ∑ a ∈ range c.nsites,
        (if occ c.nholes c.nbeta (dets.getD i []) a = neelSpin (c.nbh * c.nblocs) a then (contacts (c.nbh * c.nblocs) (c.nbv * c.nblocs) a : K)
          else 0)) ≤ ∑ i ∈ range dets.length, w.getD i 0 * w.getD i 0 * (I.J * (c.nbh * c.nblocs + c.nbv * c.nblocs)) :=
      sum_le_sum fun i _ => mul_le_mul_of_nonneg_left (e2 i).2.1 (mul_self_nonneg _)
    rw [← sum_mul, hw, one_mul] at e4
    rw [e1]
    constructor <;> linarith
  · obtain ⟨k1, k2⟩ := C148_next E sqrt solve fuel I c hc hW hH dets hsol hb hn ham hd hin eigvects tol maxIter r h y x hyx
    rw [mean_dressed hb hn hd k1 k2 w hw]
    have htot : ∑ a : Fin c.nsites, (contacts (c.nbh * c.nblocs) (c.nbv * c.nblocs) a : K) = 2 * (c.nbh * c.nblocs + c.nbv * c.nblocs) := by
      rw [← Finset.sum_range (fun a => (contacts (c.nbh * c.nblocs) (c.nbv * c.nblocs) a : K))]
      exact_mod_cast total_contacts c hc
    have hB : borderPair I c (born (amp c dets w)) (born (amp c dets y.gs)) = ∑ a : Fin c.nsites, - (I.J / 2) *
        (contacts (c.nbh * c.nblocs) (c.nbv * c.nblocs) a *
          (born (amp c dets w) a .up * born (amp c dets y.gs) a .up + born (amp c dets w) a .down * born (amp c dets y.gs) a .down)) := by
      unfold borderPair
      refine sum_congr rfl fun a _ => ?_
      rcases hV with h0 | ⟨h3, h4⟩
      · simp [born_no_hole hn hb h0 w hw]
      · simp [h3, h4]
    have hJ2 : 0 ≤ I.J / 2 := by positivity
    have hlo : - (I.J / 2) * (2 * (c.nbh * c.nblocs + c.nbv * c.nblocs)) ≤ borderPair I c (born (amp c dets w)) (born (amp c dets y.gs)) := by
      rw [hB, ← htot, mul_sum]
      refine sum_le_sum fun a _ => ?_
      have hc0 : (0 : K) ≤ contacts (c.nbh * c.nblocs) (c.nbv * c.nblocs) a := Nat.cast_nonneg _
      have := mul_le_mul_of_nonneg_left (mul_le_mul_of_nonneg_left (pair_le_one hb hn w y.gs hw a) hc0) hJ2
      linarith
    have hup : borderPair I c (born (amp c dets w)) (born (amp c dets y.gs)) ≤ 0 := by
      rw [hB]
      refine sum_nonpos fun a _ => ?_
      rw [neg_mul]
      exact neg_nonpos.2 (mul_nonneg hJ2 (mul_nonneg (Nat.cast_nonneg _) (add_nonneg (mul_nonneg (born_nonneg _ _ _) (born_nonneg _ _ _))
        (mul_nonneg (born_nonneg _ _ _) (born_nonneg _ _ _)))))
    constructor <;> linarith

/-- A run with any solver that always finds something. -/
theorem neel_returns (E : Env) (sqrt : K → K) (solve : Solver K) (fuel : Nat) (I : Interactions K) (c : Config)
    (hc : RectConf c c.nbh c.nbv c.nblocs) (hW : 2 ≤ c.nbh * c.nblocs) (hH : 2 ≤ c.nbv * c.nblocs) (dets : List (List Nat))
    (hsol : solve.Good dets.length)
    (htot : ∀ k M, M.dim = dets.length → ∃ vals vects, solve k M = .ok (vals, vects) ∧ vals ≠ [] ∧ vects ≠ [])
    (hb : constructBasis c = .ok dets) (hn : c.nholes + c.nbeta ≤ c.nsites) (ham : SpMat K) (hd : ham.dim = dets.length)
    (hin : ∀ t ∈ ham.coo, t.2.1 < ham.dim ∧ t.2.2 < ham.dim) (gs0 : List K) (hgs0 : gs0.length = dets.length) (rest : List (List K))
    (tol : K) (maxIter : Nat) (hm : 1 ≤ maxIter) :
    ∃ r, embeddingNeel E sqrt solve (fuel + 1) I c dets ham (gs0 :: rest) tol maxIter = .ok r := by
  obtain ⟨su, e1, _⟩ := neelSetup_ok E.toSetSem hc
  obtain ⟨P, p1, p2, p3⟩ := initialProb_ok (K := K) E.toSetSem c.nbh c.nbv c.nblocs hc.hh hc.hv hc.hb
  unfold embeddingNeel
  suffices h : ∃ r, neelLoop E sqrt solve (fuel + 1) I c su dets ham tol maxIter 0
      [(-1, P .down), (0, P .hole), (1, P .up)] gs0 none [] = .ok r by
    obtain ⟨r, h⟩ := h
    exact ⟨r, bind_eq_ok.2 ⟨gs0, rfl, bind_eq_ok.2 ⟨su, e1, bind_eq_ok.2 ⟨_, p1, h⟩⟩⟩⟩
  exact neelLoop_total E sqrt solve fuel I c hc hW hH dets hsol htot hb hn ham hd hin tol su e1 maxIter 0 _ _ gs0 none []
    (isLaw_three (P .down) (P .hole) (P .up) _ (p2 _) (p2 _) (p2 _)) hgs0 (fun h => absurd h (by omega))

end

/-! ### An exact solver -/

theorem exists_lowest (M : SpMat ℝ) (hM : 1 ≤ M.dim) : ∃ gs : List ℝ, gs.length = M.dim ∧ ∑ k ∈ range M.dim, gs.getD k 0 * gs.getD k 0 = 1 ∧
    ∀ w : List ℝ, w.length = M.dim → ∑ k ∈ range M.dim, w.getD k 0 * w.getD k 0 = 1 → meanValue M gs ≤ meanValue M w := by
  let S : Set (Fin M.dim → ℝ) := {x | ∑ i, x i * x i = 1}
  have hS : IsCompact S := by
    refine Metric.isCompact_of_isClosed_isBounded (isClosed_eq (by fun_prop) continuous_const) ?_
    refine (Metric.isBounded_iff_subset_closedBall 0).2 ⟨1, fun x hx => ?_⟩
    rw [mem_closedBall_zero_iff, pi_norm_le_iff_of_nonneg zero_le_one]
    intro i
    have h1 : x i * x i ≤ 1 := by
      rw [← show ∑ i, x i * x i = 1 from hx]
      exact single_le_sum (f := fun i => x i * x i) (fun j _ => mul_self_nonneg _) (mem_univ i)
    rw [Real.norm_eq_abs]
    exact abs_le_one_iff_mul_self_le_one.2 h1
  have hne : S.Nonempty := ⟨fun i => if i = ⟨0, hM⟩ then 1 else 0, by simp [S]⟩
  let f : (Fin M.dim → ℝ) → ℝ := fun x => ∑ i : Fin M.dim, ∑ j : Fin M.dim, x i * M.entry i j * x j
  obtain ⟨x, hx, hmin⟩ := hS.exists_isMinOn hne (f := f) (by
    refine Continuous.continuousOn (continuous_finset_sum _ fun i _ => continuous_finset_sum _ fun j _ => ?_)
    fun_prop)
  have hg : ∀ (y : Fin M.dim → ℝ) (i : Fin M.dim), (List.ofFn y).getD i 0 = y i := by
    intro y i
    simp [List.getD_eq_getElem?_getD]
  have hn : ∀ y : Fin M.dim → ℝ, ∑ k ∈ range M.dim, (List.ofFn y).getD k 0 * (List.ofFn y).getD k 0 = ∑ i, y i * y i := by
    intro y
    rw [Finset.sum_range]
    exact sum_congr rfl fun i _ => by rw [hg]
  have hf : ∀ y : Fin M.dim → ℝ, meanValue M (List.ofFn y) = f y := by
    intro y
    unfold meanValue
    rw [Finset.sum_range]
    refine sum_congr rfl fun i _ => ?_
    rw [Finset.sum_range]
    exact sum_congr rfl fun j _ => by rw [hg, hg]
  refine ⟨List.ofFn x, List.length_ofFn, (hn x).trans hx, fun w hw h1 => ?_⟩
  have hw' : w = List.ofFn fun i : Fin M.dim => w.getD i 0 := by
    refine List.ext_getElem (by simp [hw]) fun i h1 h2 => ?_
    rw [List.getElem_ofFn, List.getD_eq_getElem _ _ h1]
  rw [hw'] at h1 ⊢
  rw [hf, hf]
  exact hmin ((hn _).symm.trans h1)

/-- A solver that returns the lowest state. -/
noncomputable def exactSolver : Solver ℝ := fun _ M =>
  if h : 1 ≤ M.dim then .ok ([meanValue M (exists_lowest M h).choose], [(exists_lowest M h).choose]) else .error .valueError

theorem exactSolver_lowest (n : Nat) : exactSolver.Lowest n := by
  intro k M vals vects gs hM h hg
  subst hM
  unfold exactSolver at h
  split_ifs at h with h1
  obtain ⟨rfl, rfl⟩ := Prod.mk.inj (Except.ok.inj h)
  obtain rfl := Option.some.inj hg
  exact (exists_lowest M h1).choose_spec

/-- The hypotheses: a 2x2 block with two up and two down spins, the exact solver and ten iterations. -/
theorem exact_run : ∃ r, embeddingNeel exEnv Real.sqrt exactSolver 1 ⟨1, 2, 0, 0, 0, 0, 0, 0, 0, 0⟩ (rectConf 1 1 2 0 2)
    [[0, 1, 2, 3], [0, 2, 1, 3], [0, 3, 1, 2], [1, 2, 0, 3], [1, 3, 0, 2], [2, 3, 0, 1]] ⟨6, []⟩ [[1, 0, 0, 0, 0, 0]] 0 10 = .ok r :=
  neel_returns exEnv Real.sqrt exactSolver 0 ⟨1, 2, 0, 0, 0, 0, 0, 0, 0, 0⟩ (rectConf 1 1 2 0 2)
    (rectConf_ok 1 1 2 0 2 (by decide) (by decide) (by decide)) (by decide) (by decide)
    _ (exactSolver_lowest _).good (fun k M hM => by
      have h1 : 1 ≤ M.dim := by rw [hM]; decide
      exact ⟨[meanValue M (exists_lowest M h1).choose], [(exists_lowest M h1).choose], dif_pos h1, List.cons_ne_nil _ _, List.cons_ne_nil _ _⟩) (by decide +kernel) (by decide)
    ⟨6, []⟩ rfl (by simp) [1, 0, 0, 0, 0, 0] rfl [] 0 10 (by decide)
example := C149_bounded exEnv Real.sqrt exactSolver 1 ⟨1, 2, 0, 0, 0, 0, 0, 0, 0, 0⟩ (rectConf 1 1 2 0 2)
  (rectConf_ok 1 1 2 0 2 (by decide) (by decide) (by decide)) (by decide) (by decide) _ (exactSolver_lowest _) (by decide +kernel) (by decide)
  ⟨6, []⟩ rfl (by simp) _ 0 10 exact_run.choose exact_run.choose_spec (by norm_num) (Or.inl rfl) 0
  (fun w _ _ => by simp [meanValue, SpMat.entry])
example (x y) := C149_identity exEnv Real.sqrt exactSolver 1 ⟨1, 2, 0, 0, 0, 0, 0, 0, 0, 0⟩ (rectConf 1 1 2 0 2)
  (rectConf_ok 1 1 2 0 2 (by decide) (by decide) (by decide)) (by decide) (by decide) _ (exactSolver_lowest _).good (by decide +kernel) (by decide)
  ⟨6, []⟩ rfl (by simp) _ 0 10 exact_run.choose exact_run.choose_spec x y

example (x) (hx : x ∈ exact_run.choose.trace) := C149_energies exEnv Real.sqrt exactSolver 1 ⟨1, 2, 0, 0, 0, 0, 0, 0, 0, 0⟩ (rectConf 1 1 2 0 2)
  (rectConf_ok 1 1 2 0 2 (by decide) (by decide) (by decide)) (by decide) (by decide) _ (exactSolver_lowest _).good (by decide +kernel) (by decide)
  ⟨6, []⟩ rfl (by simp) _ 0 10 exact_run.choose exact_run.choose_spec (by norm_num) (Or.inl rfl) x hx [1, 0, 0, 0, 0, 0]
  (by simp [sum_range_succ])

/-! ### A run that never settles -/

/-- A solver for diagonal matrices: the lowest diagonal entry and the first determinant which has it. -/
def diagSolver : Solver ℚ := fun _ M =>
  let d := (List.range M.dim).map fun i => M.entry i i
  let e := d.foldl min (d.headD 0)
  .ok ([e], [(List.range M.dim).map fun i => if i = d.idxOf e then 1 else 0])

abbrev cycleI : Interactions ℚ := ⟨0, 2, 0, 0, 0, 0, 0, 0, 3, 0⟩
abbrev cycleDets : List (List Nat) := [[0, 1, 2, 3], [1, 0, 2, 3], [2, 0, 1, 3], [3, 0, 1, 2]]
/-- The hole in the first or in the second site. -/
abbrev cycleGs (b : Bool) : List ℚ := if b then [0, 1, 0, 0] else [1, 0, 0, 0]

/-- One turn: the border probabilities `p` give the matrix, its ground state has the hole as told by `b`. -/
def cycleTurn (su : NeelSetup) (p : List (Int × List ℚ)) : Py (SpMat ℚ × (List ℚ × List (List ℚ) × List ℚ) × List (Int × List ℚ)) := do
  let h ← neelDressed exEnv cycleI (rectConf 1 1 2 1 0) su.cE su.frontier cycleDets ⟨4, []⟩ p
  let r ← neelSolve diagSolver (rectConf 1 1 2 1 0) cycleDets h 1 0
  let pL ← spinsProbabilities (rectConf 1 1 2 1 0) cycleDets r.2.2.2
  let p' ← updateProb exEnv.toSetSem (rectConf 1 1 2 1 0) su.emb su.frontier pL
  return (h, r.2, p')

/-- The border when the hole was in the first or in the second site. -/
def cycleProb (b : Bool) : Py (List (Int × List ℚ)) := do
  let su ← neelSetup exEnv.toSetSem (rectConf 1 1 2 1 0)
  let pL ← spinsProbabilities (rectConf 1 1 2 1 0) cycleDets (cycleGs b)
  updateProb exEnv.toSetSem (rectConf 1 1 2 1 0) su.emb su.frontier pL

/-- The same, as a list. -/
def cycleBorder (b : Bool) : List (Int × List ℚ) := match cycleProb b with
  | .ok p => p
  | .error _ => []

theorem diag_any {c : Config} {dets : List (List Nat)} {h : SpMat ℚ} {r : Nat × List ℚ × List (List ℚ) × List ℚ}
    (e : neelSolve diagSolver c dets h 1 0 = .ok r) (k : Nat) : neelSolve diagSolver c dets h 1 k = .ok (k + 1, r.2) := by
  unfold neelSolve at e ⊢
  obtain ⟨x, h1, e⟩ := bind_eq_ok.1 e
  obtain ⟨gs, h2, e⟩ := bind_eq_ok.1 e
  refine bind_eq_ok.2 ⟨x, h1, bind_eq_ok.2 ⟨gs, h2, ?_⟩⟩
  by_cases hx : x.1 ≠ []
  · rw [if_pos hx] at e ⊢
    obtain ⟨p, h3, e⟩ := bind_eq_ok.1 e
    obtain rfl := Except.ok.inj e
    exact bind_eq_ok.2 ⟨p, h3, rfl⟩
  · rw [if_neg hx] at e
    cases e

theorem cycle_step {sqrt : ℚ → ℚ} (h1 : sqrt 1 = 1) (h2 : 1 ≤ sqrt 2) (b : Bool) : converged sqrt 1 (cycleGs (!b)) (cycleGs b) = .ok false := by
  have e1 : ∀ b, normList sqrt (cycleGs b) = 1 := by
    intro b
    unfold normList
    rw [show vdot (cycleGs b) (cycleGs b) = 1 by revert b; decide +kernel, h1]
  have e2 : normList sqrt (List.zipWith (· - ·) (cycleGs (!b)) (cycleGs b)) = sqrt 2 := by
    unfold normList
    congr 1
    revert b
    decide +kernel
  unfold converged
  rw [if_neg (by clear e2; revert b; decide +kernel), e1, if_neg one_ne_zero, e2, div_one, decide_eq_false (not_lt.2 h2)]

/-- A diagonal matrix whose entry number `m` is lowest. -/
def LowestAt (h : SpMat ℚ) (m : Nat) : Prop := h.dim = 4 ∧ ∀ i < 4, (∀ j < 4, i ≠ j → h.entry i j = 0) ∧ h.entry m m ≤ h.entry i i

instance (h : SpMat ℚ) (m : Nat) : Decidable (LowestAt h m) := by unfold LowestAt; infer_instance

theorem LowestAt.mean {h : SpMat ℚ} {b : Bool} (hl : LowestAt h (if b then 1 else 0)) (w : List ℚ)
    (hw : ∑ k ∈ range 4, w.getD k 0 * w.getD k 0 = 1) : meanValue h (cycleGs b) ≤ meanValue h w := by
  obtain ⟨h4, hl⟩ := hl
  have hm : ∀ v : List ℚ, meanValue h v = ∑ i ∈ range 4, v.getD i 0 * v.getD i 0 * h.entry i i := by
    intro v
    unfold meanValue
    rw [h4]
    refine sum_congr rfl fun i hi => ?_
    rw [sum_eq_single i]
    · ring
    · intro j hj hij
      rw [(hl i (mem_range.1 hi)).1 j (mem_range.1 hj) (Ne.symm hij)]
      ring
    · exact fun h => absurd hi h
  have hb : meanValue h (cycleGs b) = h.entry (if b then 1 else 0) (if b then 1 else 0) := by
    rw [hm]
    cases b <;> simp [sum_range_succ, cycleGs]
  rw [hb, hm, ← one_mul (h.entry _ _), ← hw, sum_mul]
  exact sum_le_sum fun i hi => mul_le_mul_of_nonneg_left (hl i (mem_range.1 hi)).2 (mul_self_nonneg _)

theorem cycle_loop {sqrt : ℚ → ℚ} (h1 : sqrt 1 = 1) (h2 : 1 ≤ sqrt 2) (su : NeelSetup)
    (hsu : ∀ b, ∃ h v, cycleTurn su (cycleBorder b) = .ok (h, v, cycleBorder !b) ∧ v.2.2 = cycleGs !b ∧ LowestAt h (if !b then 1 else 0)) :
    ∀ (n k : Nat) (b : Bool) (p : List (Int × List ℚ)) (last : Option (List ℚ × List (List ℚ))) (trace : List (NeelStep ℚ)),
      (∃ h v, cycleTurn su p = .ok (h, v, cycleBorder !b) ∧ v.2.2 = cycleGs !b ∧ LowestAt h (if !b then 1 else 0)) → (n = 0 → last ≠ none) →
      ∃ r, neelLoop exEnv sqrt diagSolver 1 cycleI (rectConf 1 1 2 1 0) su cycleDets ⟨4, []⟩ 1 n k p (cycleGs b) last trace = .ok r ∧
        r.converged = false ∧ r.trace.map NeelStep.gs = trace.map NeelStep.gs ++ ((List.range n).map fun i => cycleGs (if i % 2 = 0 then !b else b)) ∧
        ((∀ x ∈ trace, ∃ b, x.gs = cycleGs b ∧ LowestAt x.ham (if b then 1 else 0)) →
          ∀ x ∈ r.trace, ∃ b, x.gs = cycleGs b ∧ LowestAt x.ham (if b then 1 else 0)) := by
  intro n
  induction n with
  | zero =>
    intro k b p last trace _ hl
    cases last with
    | none => exact absurd rfl (hl rfl)
    | some x => exact ⟨_, rfl, rfl, by simp, id⟩
  | succ n ih =>
    intro k b p last trace hp _
    obtain ⟨h, v, e, hv, hlow⟩ := hp
    unfold cycleTurn at e
    obtain ⟨h', e1, e⟩ := bind_eq_ok.1 e
    obtain ⟨x, e2, e⟩ := bind_eq_ok.1 e
    obtain ⟨pL, e3, e⟩ := bind_eq_ok.1 e
    obtain ⟨p', e4, e⟩ := bind_eq_ok.1 e
    obtain ⟨e6, e5⟩ := Prod.mk.inj (Except.ok.inj e)
    rw [← e6] at hlow
    obtain ⟨rfl, rfl⟩ := Prod.mk.inj e5
    obtain ⟨r, r1, r2, r3, r4⟩ := ih (k + 1) (!b) (cycleBorder !b) (some (x.2.1, x.2.2.1)) (trace ++ [⟨h', p, cycleGs !b⟩]) (hsu _) (by simp)
    refine ⟨r, ?_, r2, ?_, fun ht => r4 fun x hx => ?_⟩
    rotate_left
    rotate_left
    · rcases List.mem_append.1 hx with hx | hx
      · exact ht x hx
      · obtain rfl := List.mem_singleton.1 hx
        exact ⟨!b, rfl, hlow⟩
    · unfold neelLoop
      refine bind_eq_ok.2 ⟨h', e1, bind_eq_ok.2 ⟨_, diag_any e2 k, bind_eq_ok.2 ⟨pL, e3, bind_eq_ok.2 ⟨_, e4, ?_⟩⟩⟩⟩
      refine bind_eq_ok.2 ⟨false, by rw [hv]; exact cycle_step h1 h2 b, ?_⟩
      rw [hv]
      exact r1
    · rw [r3, List.range_succ_eq_map]
      simp only [List.map_append, List.map_cons, List.map_nil, List.append_assoc, List.singleton_append, List.map_map, Nat.zero_mod, if_true]
      congr 2
      refine List.map_congr_left fun i _ => ?_
      show cycleGs _ = cycleGs _
      congr 1
      rcases Nat.mod_two_eq_zero_or_one i with hi | hi
      · rw [if_pos hi, if_neg (by simp only [Nat.succ_eq_add_one]; omega), Bool.not_not]
      · rw [if_neg (by omega), if_pos (by simp only [Nat.succ_eq_add_one]; omega)]

/-- C149. With a repulsion between holes the iterations need not settle: on a 2x2 block with one hole, `J = 2` and `VNN = 3`, the hole goes
back and forth between two sites for as many iterations as are allowed, although each state is a ground state of its matrix. -/
theorem C149_cycle (sqrt : ℚ → ℚ) (h1 : sqrt 1 = 1) (h2 : 1 ≤ sqrt 2) (maxIter : Nat) (hm : 1 ≤ maxIter) :
    ∃ r, embeddingNeel exEnv sqrt diagSolver 1 cycleI (rectConf 1 1 2 1 0) cycleDets ⟨4, []⟩ [[1, 0, 0, 0]] 1 maxIter = .ok r ∧
      r.converged = false ∧
      (r.trace.map NeelStep.gs = (List.range maxIter).map fun i => if i % 2 = 0 then [0, 1, 0, 0] else [1, 0, 0, 0]) ∧
      ∀ x ∈ r.trace, ∀ w : List ℚ, ∑ k ∈ range 4, w.getD k 0 * w.getD k 0 = 1 → meanValue x.ham x.gs ≤ meanValue x.ham w := by
  have key : ∀ b, (do
      let su ← neelSetup exEnv.toSetSem (rectConf 1 1 2 1 0)
      let r ← cycleTurn su (cycleBorder b)
      return (r.2.1.2.2, r.2.2, decide (LowestAt r.1 (if !b then 1 else 0))) : Py (List ℚ × List (Int × List ℚ) × Bool)) = .ok (cycleGs !b, cycleBorder !b, true) := by decide +kernel
  have key0 : (do
      let su ← neelSetup exEnv.toSetSem (rectConf 1 1 2 1 0)
      let p ← initialProb exEnv.toSetSem 1 1 2
      let r ← cycleTurn su p
      return (r.2.1.2.2, r.2.2, decide (LowestAt r.1 1)) : Py (List ℚ × List (Int × List ℚ) × Bool)) = .ok (cycleGs true, cycleBorder true, true) := by decide +kernel
  obtain ⟨su, e1, k0⟩ := bind_eq_ok.1 key0
  obtain ⟨p, e2, k0⟩ := bind_eq_ok.1 k0
  obtain ⟨⟨h, v, p'⟩, e3, k0⟩ := bind_eq_ok.1 k0
  obtain ⟨f1, f2⟩ := Prod.mk.inj (Except.ok.inj k0)
  obtain ⟨f2, f3⟩ := Prod.mk.inj f2
  have hsu : ∀ b, ∃ h v, cycleTurn su (cycleBorder b) = .ok (h, v, cycleBorder !b) ∧ v.2.2 = cycleGs !b ∧ LowestAt h (if !b then 1 else 0) := by
    intro b
    obtain ⟨su', e1', kb⟩ := bind_eq_ok.1 (key b)
    obtain rfl := Except.ok.inj (e1.symm.trans e1')
    obtain ⟨⟨h, v, p'⟩, e3, kb⟩ := bind_eq_ok.1 kb
    obtain ⟨f1, f2⟩ := Prod.mk.inj (Except.ok.inj kb)
    obtain ⟨f2, f3⟩ := Prod.mk.inj f2
    exact ⟨h, v, by rw [e3]; exact congrArg (fun q => Except.ok (h, v, q)) f2, f1, of_decide_eq_true f3⟩
  obtain ⟨r, r1, r2, r3, r4⟩ := cycle_loop h1 h2 su hsu maxIter 0 false p none []
    ⟨h, v, by rw [e3]; exact congrArg (fun q => Except.ok (h, v, q)) f2, f1, of_decide_eq_true f3⟩ (fun h => absurd h (by omega))
  refine ⟨r, ?_, r2, ?_, fun x hx w hw => ?_⟩
  rotate_left
  rotate_left
  · obtain ⟨b, hb, hl⟩ := r4 (by simp) x hx
    rw [hb]
    exact hl.mean w hw
  · unfold embeddingNeel
    exact bind_eq_ok.2 ⟨_, rfl, bind_eq_ok.2 ⟨su, e1, bind_eq_ok.2 ⟨p, e2, r1⟩⟩⟩
  · rw [r3]
    simp only [List.map_nil, List.nil_append]
    refine List.map_congr_left fun i _ => ?_
    by_cases hi : i % 2 = 0
    · simp [hi]
    · simp [hi]

/-- Such a square root, and the matrices of the iterations with their ground states. -/
example : (fun x : ℚ => x) 1 = 1 ∧ (1 : ℚ) ≤ (fun x : ℚ => x) 2 := by norm_num
example : (do let su ← neelSetup exEnv.toSetSem (rectConf 1 1 2 1 0)
              let p ← cycleProb false
              let r ← cycleTurn su p
              return (r.1.diagonal, r.2.1.1, r.2.1.2.2) : Py _) = .ok ([0, -4, -4, -4], [-4], [0, 1, 0, 0]) := by decide +kernel

end TJ
