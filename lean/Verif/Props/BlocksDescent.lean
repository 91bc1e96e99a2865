/-
Property C151: with reversed spins the iterations of the block embedding lower a mean field energy.
-/
import Verif.Props.BlocksMean

namespace TJ

open Finset

section
variable {K : Type} [Field K] [LinearOrder K] [IsStrictOrderedRing K]

/-- The number of neighbours of the block. -/
def nbNeighbours (o : BlockOptions K) : Nat := if o.neighbor then 1 else 4

/-- The sites that face a neighbour have the probabilities of the sites they face, on all sides with a neighbour. On one-site-wide blocks
with one neighbour this is always so; on square blocks it is so for states that keep all symmetries of the square. -/
def EvenSides (W H n : Nat) (p : Nat → Occ → K) : Prop := ∀ q < n, ∀ y < H, ∀ z, p (sideSite W q y) z = p (y * W) z

/-- The interaction of the first column of a block and a column that faces it, with occupations `p` and `q`; the spins of the second are
reversed if `rev`. -/
def colPair (I : Interactions K) (W H : Nat) (rev : Bool) (p q : Nat → Occ → K) : K :=
  ∑ y ∈ range H, (- (I.J / 2) * (p (y * W) .up * q (y * W) (if rev then .up else .down) + p (y * W) .down * q (y * W) (if rev then .down else .up)) +
    I.VNN * (p (y * W) .hole * q (y * W) .hole) +
    I.VNNNper * ∑ z ∈ range H, if z = y + 1 ∨ y = z + 1 then p (y * W) .hole * q (z * W) .hole else 0)

/-- The mean field energy of a state next to `n` copies of itself: its energy in the isolated block and half of the interaction with them. -/
def blockField (I : Interactions K) (c : Config) (dets : List (List Nat)) (o : BlockOptions K) (ham : SpMat K) (v : List K) : K :=
  meanValue ham v + nbNeighbours o * colPair I (c.nbh * c.nblocs) (c.nbv * c.nblocs) o.reverse (sitePart c dets v) (sitePart c dets v) / 2

/-- How much the spin probabilities in the first column differ in two states. -/
def columnChange (c : Config) (dets : List (List Nat)) (v w : List K) : K :=
  ∑ y ∈ range (c.nbv * c.nblocs), ((sitePart c dets w (y * (c.nbh * c.nblocs)) .up - sitePart c dets v (y * (c.nbh * c.nblocs)) .up) ^ 2 +
    (sitePart c dets w (y * (c.nbh * c.nblocs)) .down - sitePart c dets v (y * (c.nbh * c.nblocs)) .down) ^ 2)

theorem facePair_even {I : Interactions K} {W H n : Nat} {p : Nat → Occ → K} (hp : EvenSides W H n p) (rev : Bool) (q : Nat → Occ → K) {k : Nat}
    (hk : k < n) : facePair I W H (sideSite W k) p (fun a z => q a (if rev then z.rev else z)) = colPair I W H rev p q := by
  unfold facePair colPair
  refine sum_congr rfl fun y hy => ?_
  have h := hp k hk y (mem_range.1 hy)
  simp only [h]
  cases rev <;> simp [Occ.rev]

theorem colPair_comm (I : Interactions K) (W H : Nat) (rev : Bool) (p q : Nat → Occ → K) : colPair I W H rev p q = colPair I W H rev q p := by
  unfold colPair
  simp only [sum_add_distrib]
  congr 1
  · congr 1
    · refine sum_congr rfl fun y _ => ?_
      cases rev <;> simp only [Bool.false_eq_true, if_true, if_false] <;> ring
    · refine sum_congr rfl fun y _ => by ring
  · rw [← mul_sum, ← mul_sum, sum_comm]
    congr 1
    refine sum_congr rfl fun y _ => sum_congr rfl fun z _ => ?_
    by_cases h : z = y + 1 ∨ y = z + 1
    · rw [if_pos h, if_pos h.symm, mul_comm]
    · rw [if_neg h, if_neg (fun h' => h h'.symm)]

theorem colPair_diff (I : Interactions K) (W H : Nat) (rev : Bool) (p q : Nat → Occ → K) :
    colPair I W H rev (p - q) (p - q) = colPair I W H rev p p - 2 * colPair I W H rev p q + colPair I W H rev q q := by
  have : colPair I W H rev (p - q) (p - q) = colPair I W H rev p p - colPair I W H rev p q - colPair I W H rev q p + colPair I W H rev q q := by
    unfold colPair
    rw [← sum_sub_distrib, ← sum_sub_distrib, ← sum_add_distrib]
    refine sum_congr rfl fun y _ => ?_
    have e : ∑ z ∈ range H, (if z = y + 1 ∨ y = z + 1 then (p - q) (y * W) .hole * (p - q) (z * W) .hole else 0) =
        ∑ z ∈ range H, (if z = y + 1 ∨ y = z + 1 then p (y * W) .hole * p (z * W) .hole else 0) -
        ∑ z ∈ range H, (if z = y + 1 ∨ y = z + 1 then p (y * W) .hole * q (z * W) .hole else 0) -
        ∑ z ∈ range H, (if z = y + 1 ∨ y = z + 1 then q (y * W) .hole * p (z * W) .hole else 0) +
        ∑ z ∈ range H, (if z = y + 1 ∨ y = z + 1 then q (y * W) .hole * q (z * W) .hole else 0) := by
      rw [← sum_sub_distrib, ← sum_sub_distrib, ← sum_add_distrib]
      refine sum_congr rfl fun z _ => ?_
      split_ifs
      · simp only [Pi.sub_apply]
        ring
      · ring
    rw [e]
    simp only [Pi.sub_apply]
    ring
  rw [this, colPair_comm I W H rev q p]
  ring

theorem sitePart_no_hole {c : Config} (h0 : c.nholes = 0) (dets : List (List Nat)) (v : List K) (a : Nat) : sitePart c dets v a .hole = 0 := by
  unfold sitePart
  refine sum_eq_zero fun k _ => if_neg ?_
  unfold occ
  rw [h0]
  split_ifs <;> simp_all

theorem sitePart_spins {c : Config} (h0 : c.nholes = 0) (dets : List (List Nat)) (v : List K) (a : Nat)
    (h1 : ∑ k ∈ range dets.length, v.getD k 0 * v.getD k 0 = 1) : sitePart c dets v a .down = 1 - sitePart c dets v a .up := by
  have h2 := sitePart_no_hole h0 dets v a
  have h3 : sitePart c dets v a .hole + sitePart c dets v a .down + sitePart c dets v a .up = 1 := by
    rw [← h1]
    unfold sitePart
    rw [← sum_add_distrib, ← sum_add_distrib]
    refine sum_congr rfl fun k _ => ?_
    cases occ c.nholes c.nbeta (dets.getD k []) a <;> simp
  rw [← h3, h2]
  ring

/-- C151. From one iteration to the next the mean field energy changes by the difference of the mean values of the new matrix in the two
states, and by half of the interaction of the change of the occupations with its copies. -/
theorem C151_identity (E : Env) (sqrt : K → K) (solve : Solver K) (fuel : Nat) (I : Interactions K) (c : Config)
    (hc : RectConf c c.nbh c.nbv c.nblocs) (dets : List (List Nat)) (hsol : solve.Good dets.length) (hb : constructBasis c = .ok dets)
    (hn : c.nholes + c.nbeta ≤ c.nsites) (o : BlockOptions K) (ho : o.dynamic = false)
    (hsq : o.neighbor = false → c.nbh * c.nblocs = c.nbv * c.nblocs)
    (hE : ∀ su, blockSetup E.toSetSem c dets o.reverse = .ok su →
      GeomLattice E su.cE (twoPos (c.nbh * c.nblocs) (c.nbv * c.nblocs)))
    (ham : SpMat K) (hd : ham.dim = dets.length) (eigvals : List K) (eigvects : List (List K)) (gs0 : List K)
    (h0 : eigvects[0]? = some gs0) (hgs0 : gs0.length = dets.length) (tol : K) (maxIter : Nat)
    (r : BlockResult K ⊕ List (BlockStep K))
    (h : embeddingBlocks E sqrt solve fuel I c o dets ham eigvals eigvects tol maxIter = .ok r) (k : Nat) (x : BlockStep K)
    (hx : (r.elim (fun q => q.trace) id)[k]? = some x) (w : List K)
    (hw : w = (gs0 :: (r.elim (fun q => q.trace) id).map (·.gs)).getD k []) (hw1 : ∑ k ∈ range dets.length, w.getD k 0 * w.getD k 0 = 1)
    (he : EvenSides (c.nbh * c.nblocs) (c.nbv * c.nblocs) (nbNeighbours o) (sitePart c dets w))
    (he' : EvenSides (c.nbh * c.nblocs) (c.nbv * c.nblocs) (nbNeighbours o) (sitePart c dets x.gs)) :
    blockField I c dets o ham x.gs = blockField I c dets o ham w + (meanValue x.ham x.gs - meanValue x.ham w) +
      nbNeighbours o * colPair I (c.nbh * c.nblocs) (c.nbv * c.nblocs) o.reverse (sitePart c dets x.gs - sitePart c dets w)
        (sitePart c dets x.gs - sitePart c dets w) / 2 := by
  have hm := C150_mean E sqrt solve fuel I c hc dets hsol hb hn o ho hsq hE ham hd eigvals eigvects gs0 h0 hgs0 tol maxIter r h k x hx w hw hw1
  have key : ∀ v, EvenSides (c.nbh * c.nblocs) (c.nbv * c.nblocs) (nbNeighbours o) (sitePart c dets v) →
      meanValue x.ham v = meanValue ham v + nbNeighbours o *
        colPair I (c.nbh * c.nblocs) (c.nbv * c.nblocs) o.reverse (sitePart c dets v) (sitePart c dets w) := by
    intro v hv
    rw [hm v]
    congr 1
    rw [← nsmul_eq_mul, ← card_range (nbNeighbours o), ← sum_const]
    exact sum_congr rfl fun q hq => facePair_even hv o.reverse _ (mem_range.1 hq)
  rw [colPair_diff, key _ he, key _ he']
  unfold blockField
  ring

/-- C151. With reversed spins, and no repulsion between holes or no holes, an iteration that finds a state no higher in its matrix than
the state before lowers the mean field energy, at least by `J/4` for each neighbour times the squared changes of the spin probabilities in
the first column. -/
theorem C151_descent (E : Env) (sqrt : K → K) (solve : Solver K) (fuel : Nat) (I : Interactions K) (c : Config)
    (hc : RectConf c c.nbh c.nbv c.nblocs) (dets : List (List Nat)) (hsol : solve.Good dets.length) (hb : constructBasis c = .ok dets)
    (hn : c.nholes + c.nbeta ≤ c.nsites) (o : BlockOptions K) (ho : o.dynamic = false) (hrev : o.reverse = true)
    (hsq : o.neighbor = false → c.nbh * c.nblocs = c.nbv * c.nblocs)
    (hE : ∀ su, blockSetup E.toSetSem c dets o.reverse = .ok su →
      GeomLattice E su.cE (twoPos (c.nbh * c.nblocs) (c.nbv * c.nblocs)))
    (ham : SpMat K) (hd : ham.dim = dets.length) (eigvals : List K) (eigvects : List (List K)) (gs0 : List K)
    (h0 : eigvects[0]? = some gs0) (hgs0 : gs0.length = dets.length) (tol : K) (maxIter : Nat)
    (r : BlockResult K ⊕ List (BlockStep K))
    (h : embeddingBlocks E sqrt solve fuel I c o dets ham eigvals eigvects tol maxIter = .ok r) (k : Nat) (x : BlockStep K)
    (hx : (r.elim (fun q => q.trace) id)[k]? = some x) (w : List K)
    (hw : w = (gs0 :: (r.elim (fun q => q.trace) id).map (·.gs)).getD k []) (hw1 : ∑ k ∈ range dets.length, w.getD k 0 * w.getD k 0 = 1)
    (he : EvenSides (c.nbh * c.nblocs) (c.nbv * c.nblocs) (nbNeighbours o) (sitePart c dets w))
    (he' : EvenSides (c.nbh * c.nblocs) (c.nbv * c.nblocs) (nbNeighbours o) (sitePart c dets x.gs))
    (hlow : meanValue x.ham x.gs ≤ meanValue x.ham w) (hV : c.nholes = 0 ∨ (I.VNN ≤ 0 ∧ I.VNNNper = 0)) :
    blockField I c dets o ham x.gs + nbNeighbours o * (I.J / 4) * columnChange c dets w x.gs ≤ blockField I c dets o ham w := by
  have hid := C151_identity E sqrt solve fuel I c hc dets hsol hb hn o ho hsq hE ham hd eigvals eigvects gs0 h0 hgs0 tol maxIter r h k x hx w hw hw1 he he'
  have key : colPair I (c.nbh * c.nblocs) (c.nbv * c.nblocs) o.reverse (sitePart c dets x.gs - sitePart c dets w)
      (sitePart c dets x.gs - sitePart c dets w) ≤ - (I.J / 2) * columnChange c dets w x.gs := by
    rw [hrev]
    unfold colPair columnChange
    rw [mul_sum]
    refine sum_le_sum fun y _ => ?_
    simp only [Pi.sub_apply, if_true]
    rcases hV with h0 | ⟨h1, h2⟩
    · simp only [sitePart_no_hole h0, sub_self, mul_zero, ite_self, sum_const_zero, add_zero]
      exact le_of_eq (by ring)
    · rw [h2, zero_mul, add_zero]
      refine (add_le_of_nonpos_right (mul_nonpos_of_nonpos_of_nonneg h1 (mul_self_nonneg _))).trans (le_of_eq (by ring))
  have hpos : (0 : K) ≤ nbNeighbours o := Nat.cast_nonneg _
  have := mul_le_mul_of_nonneg_left key hpos
  rw [hid]
  linarith

/-- C151. Without the reversal the sign is the other one: without holes the interaction of the change of the occupations with its copies
is `J` times the squared changes, so that the mean field energy can rise. -/
theorem C151_unreversed (E : Env) (sqrt : K → K) (solve : Solver K) (fuel : Nat) (I : Interactions K) (c : Config)
    (hc : RectConf c c.nbh c.nbv c.nblocs) (dets : List (List Nat)) (hsol : solve.Good dets.length) (hb : constructBasis c = .ok dets)
    (hn : c.nholes + c.nbeta ≤ c.nsites) (hno : c.nholes = 0) (o : BlockOptions K) (ho : o.dynamic = false) (hrev : o.reverse = false)
    (hsq : o.neighbor = false → c.nbh * c.nblocs = c.nbv * c.nblocs)
    (hE : ∀ su, blockSetup E.toSetSem c dets o.reverse = .ok su →
      GeomLattice E su.cE (twoPos (c.nbh * c.nblocs) (c.nbv * c.nblocs)))
    (ham : SpMat K) (hd : ham.dim = dets.length) (eigvals : List K) (eigvects : List (List K)) (gs0 : List K)
    (h0 : eigvects[0]? = some gs0) (hgs0 : gs0.length = dets.length) (tol : K) (maxIter : Nat)
    (r : BlockResult K ⊕ List (BlockStep K))
    (h : embeddingBlocks E sqrt solve fuel I c o dets ham eigvals eigvects tol maxIter = .ok r) (k : Nat) (x : BlockStep K)
    (hx : (r.elim (fun q => q.trace) id)[k]? = some x) (w : List K)
    (hw : w = (gs0 :: (r.elim (fun q => q.trace) id).map (·.gs)).getD k []) (hw1 : ∑ k ∈ range dets.length, w.getD k 0 * w.getD k 0 = 1)
    (hx1 : ∑ k ∈ range dets.length, x.gs.getD k 0 * x.gs.getD k 0 = 1)
    (he : EvenSides (c.nbh * c.nblocs) (c.nbv * c.nblocs) (nbNeighbours o) (sitePart c dets w))
    (he' : EvenSides (c.nbh * c.nblocs) (c.nbv * c.nblocs) (nbNeighbours o) (sitePart c dets x.gs)) :
    blockField I c dets o ham x.gs = blockField I c dets o ham w + (meanValue x.ham x.gs - meanValue x.ham w) +
      nbNeighbours o * (I.J / 4) * columnChange c dets w x.gs := by
  rw [C151_identity E sqrt solve fuel I c hc dets hsol hb hn o ho hsq hE ham hd eigvals eigvects gs0 h0 hgs0 tol maxIter r h k x hx w hw hw1 he he']
  congr 1
  have : colPair I (c.nbh * c.nblocs) (c.nbv * c.nblocs) o.reverse (sitePart c dets x.gs - sitePart c dets w)
      (sitePart c dets x.gs - sitePart c dets w) = I.J / 2 * columnChange c dets w x.gs := by
    rw [hrev]
    unfold colPair columnChange
    rw [mul_sum]
    refine sum_congr rfl fun y _ => ?_
    simp only [Pi.sub_apply, sitePart_no_hole hno, sub_self, mul_zero, ite_self, sum_const_zero, add_zero, sitePart_spins hno dets x.gs _ hx1,
      sitePart_spins hno dets w _ hw1]
    simp only [Bool.false_eq_true, if_false]
    rw [sitePart_spins hno dets x.gs _ hx1, sitePart_spins hno dets w _ hw1]
    ring
  rw [this]
  ring

theorem columnChange_zero {c : Config} {dets : List (List Nat)} {v w : List K} (h : columnChange c dets v w ≤ 0) :
    ∀ y < c.nbv * c.nblocs, ∀ z, z ≠ .hole → sitePart c dets v (y * (c.nbh * c.nblocs)) z = sitePart c dets w (y * (c.nbh * c.nblocs)) z := by
  intro y hy z hz
  have h1 : ∀ y ∈ range (c.nbv * c.nblocs), (0 : K) ≤ (sitePart c dets w (y * (c.nbh * c.nblocs)) .up - sitePart c dets v (y * (c.nbh * c.nblocs)) .up) ^ 2 +
    (sitePart c dets w (y * (c.nbh * c.nblocs)) .down - sitePart c dets v (y * (c.nbh * c.nblocs)) .down) ^ 2 := fun y _ => by positivity
  have h2 := (sum_eq_zero_iff_of_nonneg h1).1 (le_antisymm h (sum_nonneg h1)) y (mem_range.2 hy)
  have h3 := sq_nonneg (sitePart c dets w (y * (c.nbh * c.nblocs)) .up - sitePart c dets v (y * (c.nbh * c.nblocs)) .up)
  have h4 := sq_nonneg (sitePart c dets w (y * (c.nbh * c.nblocs)) .down - sitePart c dets v (y * (c.nbh * c.nblocs)) .down)
  cases z with
  | hole => exact absurd rfl hz
  | up => exact (sub_eq_zero.1 (pow_eq_zero_iff (two_ne_zero)|>.1 (le_antisymm (by linarith) h3))).symm
  | down => exact (sub_eq_zero.1 (pow_eq_zero_iff (two_ne_zero)|>.1 (le_antisymm (by linarith) h4))).symm

/-- C151. With reversed spins, `J > 0` and no holes, the mean field energy falls in every iteration until a matrix is repeated: if it does
not fall in an iteration, the next iteration diagonalises the same matrix. -/
theorem C151_repeats (E : Env) (sqrt : K → K) (solve : Solver K) (fuel : Nat) (I : Interactions K) (hJ : 0 < I.J) (c : Config)
    (hc : RectConf c c.nbh c.nbv c.nblocs) (dets : List (List Nat)) (hsol : solve.Good dets.length) (hb : constructBasis c = .ok dets)
    (hn : c.nholes + c.nbeta ≤ c.nsites) (hno : c.nholes = 0) (o : BlockOptions K) (ho : o.dynamic = false) (hrev : o.reverse = true)
    (hsq : o.neighbor = false → c.nbh * c.nblocs = c.nbv * c.nblocs)
    (hE : ∀ su, blockSetup E.toSetSem c dets o.reverse = .ok su →
      GeomLattice E su.cE (twoPos (c.nbh * c.nblocs) (c.nbv * c.nblocs)))
    (ham : SpMat K) (hd : ham.dim = dets.length) (eigvals : List K) (eigvects : List (List K)) (gs0 : List K)
    (h0 : eigvects[0]? = some gs0) (hgs0 : gs0.length = dets.length) (tol : K) (maxIter : Nat)
    (r : BlockResult K ⊕ List (BlockStep K))
    (h : embeddingBlocks E sqrt solve fuel I c o dets ham eigvals eigvects tol maxIter = .ok r) (k : Nat) (x x' : BlockStep K)
    (hx : (r.elim (fun q => q.trace) id)[k]? = some x) (hx' : (r.elim (fun q => q.trace) id)[k + 1]? = some x') (w : List K)
    (hw : w = (gs0 :: (r.elim (fun q => q.trace) id).map (·.gs)).getD k []) (hw1 : ∑ k ∈ range dets.length, w.getD k 0 * w.getD k 0 = 1)
    (hx1 : ∑ k ∈ range dets.length, x.gs.getD k 0 * x.gs.getD k 0 = 1)
    (he : EvenSides (c.nbh * c.nblocs) (c.nbv * c.nblocs) (nbNeighbours o) (sitePart c dets w))
    (he' : EvenSides (c.nbh * c.nblocs) (c.nbv * c.nblocs) (nbNeighbours o) (sitePart c dets x.gs))
    (hlow : meanValue x.ham x.gs ≤ meanValue x.ham w) (hfall : blockField I c dets o ham w ≤ blockField I c dets o ham x.gs) :
    ∀ i j, i < dets.length → x'.ham.entry i j = x.ham.entry i j := by
  have hd' := C151_descent E sqrt solve fuel I c hc dets hsol hb hn o ho hrev hsq hE ham hd eigvals eigvects gs0 h0 hgs0 tol maxIter r h k x hx w hw hw1 he he'
    hlow (Or.inl hno)
  have hpos : (0 : K) < nbNeighbours o * (I.J / 4) := by
    refine mul_pos (Nat.cast_pos.2 ?_) (by linarith)
    unfold nbNeighbours
    split_ifs <;> omega
  have hcz : columnChange c dets w x.gs ≤ 0 := by
    by_contra hlt
    have := mul_pos hpos (not_le.1 hlt)
    linarith
  refine C150_first_column E sqrt solve solve fuel fuel I c hc dets hsol hsol hb hn o ho hsq hE ham hd eigvals eigvals eigvects eigvects gs0 gs0 h0 hgs0 h0 hgs0
    tol tol maxIter maxIter r r h h (k + 1) k x' x hx' hx x.gs w ?_ hx1 hw hw1 fun y hy z => ?_
  · rw [List.getD_cons_succ, List.getD_eq_getElem?_getD, List.getElem?_map, hx]
    rfl
  · by_cases hz : z = .hole
    · rw [hz, sitePart_no_hole hno, sitePart_no_hole hno]
    · exact (columnChange_zero hcz y hy z hz).symm

/-- C151. Over a whole run with reversed spins the mean field energy never rises, and the squared changes of all iterations together are
bounded by its fall: with `J > 0` they are summable, whatever the number of iterations. -/
theorem C151_total (E : Env) (sqrt : K → K) (solve : Solver K) (fuel : Nat) (I : Interactions K) (c : Config)
    (hc : RectConf c c.nbh c.nbv c.nblocs) (dets : List (List Nat)) (hsol : solve.Good dets.length) (hb : constructBasis c = .ok dets)
    (hn : c.nholes + c.nbeta ≤ c.nsites) (o : BlockOptions K) (ho : o.dynamic = false) (hrev : o.reverse = true)
    (hsq : o.neighbor = false → c.nbh * c.nblocs = c.nbv * c.nblocs)
    (hE : ∀ su, blockSetup E.toSetSem c dets o.reverse = .ok su →
      GeomLattice E su.cE (twoPos (c.nbh * c.nblocs) (c.nbv * c.nblocs)))
    (ham : SpMat K) (hd : ham.dim = dets.length) (eigvals : List K) (eigvects : List (List K)) (gs0 : List K)
    (h0 : eigvects[0]? = some gs0) (hgs0 : gs0.length = dets.length) (tol : K) (maxIter : Nat)
    (r : BlockResult K ⊕ List (BlockStep K))
    (h : embeddingBlocks E sqrt solve fuel I c o dets ham eigvals eigvects tol maxIter = .ok r)
    (hV : c.nholes = 0 ∨ (I.VNN ≤ 0 ∧ I.VNNNper = 0)) (states : List (List K))
    (hst : states = gs0 :: (r.elim (fun q => q.trace) id).map (·.gs))
    (h1 : ∀ v ∈ states, ∑ k ∈ range dets.length, v.getD k 0 * v.getD k 0 = 1)
    (he : ∀ v ∈ states, EvenSides (c.nbh * c.nblocs) (c.nbv * c.nblocs) (nbNeighbours o) (sitePart c dets v))
    (hlow : ∀ k x, (r.elim (fun q => q.trace) id)[k]? = some x → meanValue x.ham x.gs ≤ meanValue x.ham (states.getD k [])) (m : Nat)
    (hm : m < states.length) :
    blockField I c dets o ham (states.getD m []) +
      nbNeighbours o * (I.J / 4) * ∑ k ∈ range m, columnChange c dets (states.getD k []) (states.getD (k + 1) []) ≤ blockField I c dets o ham gs0 := by
  induction m with
  | zero =>
    rw [range_zero, sum_empty, mul_zero, add_zero, hst, List.getD_cons_zero]
  | succ m ih =>
    have ih := ih (by omega)
    have hlen : m < (r.elim (fun q => q.trace) id).length := by
      rw [hst, List.length_cons, List.length_map] at hm
      omega
    have hmem : states.getD m [] ∈ states := by
      rw [List.getD_eq_getElem _ _ (by omega)]
      exact List.getElem_mem _
    have hmem' : states.getD (m + 1) [] ∈ states := by
      rw [List.getD_eq_getElem _ _ hm]
      exact List.getElem_mem _
    have hx := List.getElem?_eq_getElem hlen
    have hgs : states.getD (m + 1) [] = (r.elim (fun q => q.trace) id)[m].gs := by
      rw [hst, List.getD_cons_succ, List.getD_eq_getElem?_getD, List.getElem?_map, hx]
      rfl
    have key := C151_descent E sqrt solve fuel I c hc dets hsol hb hn o ho hrev hsq hE ham hd eigvals eigvects gs0 h0 hgs0 tol maxIter r h m _ hx
      (states.getD m []) (by rw [hst]) (h1 _ hmem) (he _ hmem) (by rw [← hgs]; exact he _ hmem') (hlow m _ hx) hV
    rw [sum_range_succ, mul_add, hgs]
    linarith

end

/-- A block of one column with one neighbour always has even sides. -/
theorem even_of_column {K : Type} [Field K] (H : Nat) (p : Nat → Occ → K) : EvenSides 1 H 1 p := by
  intro q hq y _ z
  obtain rfl : q = 0 := by omega
  rfl

/-- The hypotheses hold for the runs of C74: all sites of the 2×2 block are up. -/
example (b : Bool) (r) (h : embeddingBlocks twoEnv sqrtUpTo4 oneSolver 1 exI (rectConf 1 1 2 0 0) ⟨false, b, true, 0⟩ [[0, 1, 2, 3]] ⟨1, []⟩ [0] [[1]] 1 5 = .ok r)
    (x : BlockStep ℚ) (hx : (r.elim (fun q => q.trace) id)[0]? = some x) (hg : x.gs = [1]) :=
  have hev : EvenSides 2 2 (nbNeighbours (⟨false, b, true, 0⟩ : BlockOptions ℚ)) (sitePart (rectConf 1 1 2 0 0) [[0, 1, 2, 3]] [(1 : ℚ)]) := by
    intro q hq y hy z
    have hq : q < 4 := by cases b <;> simp [nbNeighbours] at hq <;> omega
    interval_cases q <;> interval_cases y <;> cases z <;> decide +kernel
  C151_descent twoEnv sqrtUpTo4 oneSolver 1 exI (rectConf 1 1 2 0 0)
    (rectConf_ok _ _ _ _ _ (by decide) (by decide) (by decide)) [[0, 1, 2, 3]] oneSolver_good rfl (by decide) ⟨false, b, true, 0⟩ rfl rfl (fun _ => rfl)
    (two_squares_geom 0 0 [[0, 1, 2, 3]] true) ⟨1, []⟩ rfl [0] [[1]] [1] rfl rfl 1 5 r h 0 x hx [1] rfl (by decide +kernel) hev (by rw [hg]; exact hev)
    (by rw [hg]) (Or.inl rfl)

/-- C151. On a square block the probabilities of a state that keeps the mirror images in a side and in a diagonal of the square have even
sides. -/
theorem C151_square {K : Type} [Field K] {L n : Nat} (hn : n ≤ 4) {p : Nat → Occ → K} (hm : ∀ x < L, ∀ y < L, p (y * L + x) = p (y * L + (L - 1 - x)))
    (ht : ∀ x < L, ∀ y < L, p (y * L + x) = p (x * L + y)) : EvenSides L L n p := by
  intro q hq y hy z
  have hL : L - 1 - (L - 1) = 0 := by omega
  have hY : L - 1 - (L - 1 - y) = y := by omega
  refine congrFun ?_ z
  obtain rfl | rfl | rfl | rfl : q = 0 ∨ q = 1 ∨ q = 2 ∨ q = 3 := by omega
  · show p (y * L + (L - 1)) = _
    rw [hm (L - 1) (by omega) y hy, hL, Nat.add_zero]
  · show p ((L - 1) * L + (L - 1 - y)) = _
    rw [hm (L - 1 - y) (by omega) (L - 1) (by omega), hY, ht y hy (L - 1) (by omega), hm (L - 1) (by omega) y hy, hL, Nat.add_zero]
  · show p ((L - 1 - y) * L) = _
    have h1 := ht 0 (by omega) (L - 1 - y) (by omega)
    have h2 := hm (L - 1 - y) (by omega) 0 (by omega)
    have h3 := ht y hy 0 (by omega)
    rw [hY] at h2
    rw [Nat.add_zero] at h1 h3
    rw [h1, h2, h3]
  · show p y = _
    have h3 := ht y hy 0 (by omega)
    rw [Nat.zero_mul, Nat.zero_add, Nat.add_zero] at h3
    exact h3

/-- All sites up: even sides, for any options. -/
theorem even_up (o : BlockOptions ℚ) : EvenSides 2 2 (nbNeighbours o) (sitePart (rectConf 1 1 2 0 0) [[0, 1, 2, 3]] [(1 : ℚ)]) := by
  intro q hq y hy z
  replace hq : q < 4 := by
    unfold nbNeighbours at hq
    split_ifs at hq <;> omega
  clear o
  interval_cases q <;> interval_cases y <;> cases z <;> decide +kernel

/-- The hypotheses of the other parts hold as well: without reversal, and for two successive iterations of a run that does not end
(tolerance 0). -/
example (b : Bool) (r) (h : embeddingBlocks twoEnv sqrtUpTo4 oneSolver 1 exI (rectConf 1 1 2 0 0) ⟨false, b, false, 0⟩ [[0, 1, 2, 3]] ⟨1, []⟩ [0] [[1]] 1 5 = .ok r)
    (x : BlockStep ℚ) (hx : (r.elim (fun q => q.trace) id)[0]? = some x) (hg : x.gs = [1]) :=
  C151_unreversed twoEnv sqrtUpTo4 oneSolver 1 exI (rectConf 1 1 2 0 0)
    (rectConf_ok _ _ _ _ _ (by decide) (by decide) (by decide)) [[0, 1, 2, 3]] oneSolver_good rfl (by decide) rfl ⟨false, b, false, 0⟩ rfl rfl (fun _ => rfl)
    (two_squares_geom 0 0 [[0, 1, 2, 3]] false) ⟨1, []⟩ rfl [0] [[1]] [1] rfl rfl 1 5 r h 0 x hx [1] rfl (by decide +kernel)
    (by rw [hg]; decide +kernel) (even_up _) (by rw [hg]; exact even_up _)

example (b : Bool) (r) (h : embeddingBlocks twoEnv sqrtUpTo4 oneSolver 1 exI (rectConf 1 1 2 0 0) ⟨false, b, true, 0⟩ [[0, 1, 2, 3]] ⟨1, []⟩ [0] [[1]] 0 5 = .ok r)
    (x x' : BlockStep ℚ) (hx : (r.elim (fun q => q.trace) id)[0]? = some x) (hx' : (r.elim (fun q => q.trace) id)[1]? = some x') (hg : x.gs = [1]) :=
  C151_repeats twoEnv sqrtUpTo4 oneSolver 1 exI (by decide +kernel) (rectConf 1 1 2 0 0)
    (rectConf_ok _ _ _ _ _ (by decide) (by decide) (by decide)) [[0, 1, 2, 3]] oneSolver_good rfl (by decide) rfl ⟨false, b, true, 0⟩ rfl rfl (fun _ => rfl)
    (two_squares_geom 0 0 [[0, 1, 2, 3]] true) ⟨1, []⟩ rfl [0] [[1]] [1] rfl rfl 0 5 r h 0 x x' hx hx' [1] rfl (by decide +kernel)
    (by rw [hg]; decide +kernel) (even_up _) (by rw [hg]; exact even_up _) (by rw [hg]) (by rw [hg])

/-- Such runs exist: five iterations, each with the state `[1]`. -/
example : ((embeddingBlocks twoEnv sqrtUpTo4 oneSolver 1 exI (rectConf 1 1 2 0 0) ⟨false, false, true, 0⟩ [[0, 1, 2, 3]] ⟨1, []⟩ [0] [[1]] 0 5).toOption.map
    fun r => (r.elim (fun q => q.trace) id).map (·.gs)) = some [[1], [1], [1], [1], [1]] := by decide +kernel

/-- The hypotheses of the sum over a run hold for such a run of any length. -/
example (b : Bool) (n : Nat) (r) (h : embeddingBlocks twoEnv sqrtUpTo4 oneSolver 1 exI (rectConf 1 1 2 0 0) ⟨false, b, true, 0⟩ [[0, 1, 2, 3]] ⟨1, []⟩ [0] [[1]] 0 n = .ok r)
    (hg : ∀ x ∈ r.elim (fun q => q.trace) id, x.gs = [1]) (m : Nat) (hm : m < ([1] :: (r.elim (fun q => q.trace) id).map (·.gs)).length) :=
  have hall : ∀ v ∈ ([1] :: (r.elim (fun q => q.trace) id).map (·.gs) : List (List ℚ)), v = [1] := by
    intro v hv
    rcases List.mem_cons.1 hv with rfl | hv
    · rfl
    · obtain ⟨x, hx, rfl⟩ := List.mem_map.1 hv
      exact hg x hx
  C151_total twoEnv sqrtUpTo4 oneSolver 1 exI (rectConf 1 1 2 0 0)
    (rectConf_ok _ _ _ _ _ (by decide) (by decide) (by decide)) [[0, 1, 2, 3]] oneSolver_good rfl (by decide) ⟨false, b, true, 0⟩ rfl rfl (fun _ => rfl)
    (two_squares_geom 0 0 [[0, 1, 2, 3]] true) ⟨1, []⟩ rfl [0] [[1]] [1] rfl rfl 0 n r h (Or.inl rfl) _ rfl
    (fun v hv => by rw [hall v hv]; decide +kernel) (fun v hv => by rw [hall v hv]; exact even_up _)
    (fun k x hx => by
      have hk : k < (r.elim (fun q => q.trace) id).length := (List.getElem?_eq_some_iff.1 hx).1
      have hs : ([1] :: (r.elim (fun q => q.trace) id).map (·.gs)).getD k [] = [1] := by
        rw [List.getD_eq_getElem _ _ (by rw [List.length_cons, List.length_map]; omega)]
        exact hall _ (List.getElem_mem _)
      rw [hg x (List.mem_of_getElem? hx), hs]) m hm

/-- A state of the 3×3 block with a down spin in its centre has both mirror images. -/
example : EvenSides 3 3 4 (fun a (z : Occ) => if z = (if a = 4 then Occ.down else Occ.up) then (1 : ℚ) else 0) :=
  C151_square (by decide) (fun x hx y hy => by interval_cases x <;> interval_cases y <;> rfl)
    (fun x hx y hy => by interval_cases x <;> interval_cases y <;> rfl)

/-- A state of the 2×2 block that keeps the symmetries of the square: the down spin is on all sites with equal probability. -/
example : EvenSides 2 2 4 (sitePart (rectConf 1 1 2 0 1) [[0, 1, 2, 3], [1, 0, 2, 3], [2, 0, 1, 3], [3, 0, 1, 2]] [(1 : ℚ) / 2, 1 / 2, 1 / 2, 1 / 2]) := by
  intro q hq y hy z
  interval_cases q <;> interval_cases y <;> cases z <;> decide +kernel

end TJ
