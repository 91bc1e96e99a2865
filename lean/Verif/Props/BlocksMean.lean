/-
Property C150: the energy between neighbouring blocks is a product of probabilities.
-/
import Verif.Props.NeelDescent
import Verif.Props.BlocksShift

namespace TJ

open Finset

section
variable {K : Type} [Field K] [LinearOrder K] [IsStrictOrderedRing K]

/-- The probability of the occupation `o` of site `a` in a normalised vector: the sum of its squared coefficients over the determinants
with this occupation. -/
def sitePart (c : Config) (dets : List (List Nat)) (v : List K) (a : Nat) (o : Occ) : K :=
  ∑ k ∈ range dets.length, if occ c.nholes c.nbeta (dets.getD k []) a = o then v.getD k 0 * v.getD k 0 else 0

/-- The site of an `L` by `L` block (or of a block with rows of `L` sites, for `q = 0`) on its side `q`: right, top, left, bottom; `y` counts
the sites of the side in the order of the rows of the neighbour that faces it. -/
def sideSite (L q y : Nat) : Nat :=
  match q with
  | 0 => y * L + (L - 1)
  | 1 => (L - 1) * L + (L - 1 - y)
  | 2 => (L - 1 - y) * L
  | _ => y

/-- The interaction of the sites `s y` with occupations `p` and the first sites of the rows of a neighbour with occupations `q`: `-J/2` for
opposite spins and `VNN` for two holes that face each other, `VNNNper` for two holes in adjacent rows. -/
def facePair (I : Interactions K) (W H : Nat) (s : Nat → Nat) (p q : Nat → Occ → K) : K :=
  ∑ y ∈ range H, (- (I.J / 2) * (p (s y) .up * q (y * W) .down + p (s y) .down * q (y * W) .up) + I.VNN * (p (s y) .hole * q (y * W) .hole) +
    I.VNNNper * ∑ z ∈ range H, if z = y + 1 ∨ y = z + 1 then p (s y) .hole * q (z * W) .hole else 0)

theorem face_sum {W H : Nat} (hW : 1 ≤ W) {place : Nat → Pt} {s : Nat → Nat}
    (hi : ∀ a < W * H, ∀ b < W * H, place a = place b → a = b)
    (hs : ∀ y < H, s y < W * H ∧ place (s y) = ((W : Int) - 1, (y : Int)))
    (P : Nat → Nat → Prop) [∀ y z, Decidable (P y z)] (Q : Pt → Pt → Prop) [∀ y z, Decidable (Q y z)]
    (hQ : ∀ a < W * H, ∀ r < W * H, Q (place a) ((gridPos W r).1 + (W : Nat), (gridPos W r).2) ↔
      (place a).1 = (W : Int) - 1 ∧ (gridPos W r).1 = 0 ∧ 0 ≤ (place a).2 ∧ (place a).2 < H ∧ P (place a).2.toNat (r / W)) (f : Nat → Nat → K) :
    ∑ a ∈ range (W * H), ∑ r ∈ range (W * H), (if Q (place a) ((gridPos W r).1 + (W : Nat), (gridPos W r).2) then f a r else 0) =
      ∑ y ∈ range H, ∑ z ∈ range H, if P y z then f (s y) (z * W) else 0 := by
  have hz : ∀ z < H, z * W < W * H ∧ gridPos W (z * W) = (0, (z : Int)) ∧ z * W / W = z := by
    intro z hz
    refine ⟨?_, ?_, Nat.mul_div_cancel _ hW⟩
    · rw [Nat.mul_comm W H]
      exact Nat.mul_lt_mul_of_pos_right hz hW
    · unfold gridPos
      rw [Nat.mul_mod_left, Nat.mul_div_cancel _ hW]
      rfl
  rw [← sum_product', ← sum_product', ← sum_filter, ← sum_filter]
  refine sum_nbij' (fun p => ((place p.1).2.toNat, p.2 / W)) (fun p => (s p.1, p.2 * W)) ?_ ?_ ?_ ?_ ?_
  · intro p hp
    obtain ⟨h1, h2⟩ := mem_filter.1 hp
    obtain ⟨h3, h4⟩ := mem_product.1 h1
    obtain ⟨q1, q2, q3, q4, q5⟩ := (hQ _ (mem_range.1 h3) _ (mem_range.1 h4)).1 h2
    refine mem_filter.2 ⟨mem_product.2 ⟨mem_range.2 ?_, mem_range.2 (Nat.div_lt_of_lt_mul (mem_range.1 h4))⟩, q5⟩
    dsimp only
    omega
  · intro p hp
    obtain ⟨h1, h2⟩ := mem_filter.1 hp
    obtain ⟨h3, h4⟩ := mem_product.1 h1
    obtain ⟨s1, s2⟩ := hs _ (mem_range.1 h3)
    obtain ⟨z1, z2, z3⟩ := hz _ (mem_range.1 h4)
    refine mem_filter.2 ⟨mem_product.2 ⟨mem_range.2 s1, mem_range.2 z1⟩, (hQ _ s1 _ z1).2 ?_⟩
    have := mem_range.1 h3
    rw [s2, z2, z3]
    exact ⟨rfl, rfl, by dsimp only; omega, by dsimp only; omega, by rw [Int.toNat_natCast]; exact h2⟩
  · intro p hp
    obtain ⟨h1, h2⟩ := mem_filter.1 hp
    obtain ⟨h3, h4⟩ := mem_product.1 h1
    obtain ⟨q1, q2, q3, q4, q5⟩ := (hQ _ (mem_range.1 h3) _ (mem_range.1 h4)).1 h2
    obtain ⟨s1, s2⟩ := hs (place p.1).2.toNat (by omega)
    obtain ⟨z1, z2, z3⟩ := hz (p.2 / W) (Nat.div_lt_of_lt_mul (mem_range.1 h4))
    refine Prod.ext ?_ ?_
    · refine hi _ s1 _ (mem_range.1 h3) ?_
      rw [s2]
      refine Prod.ext q1.symm ?_
      dsimp only
      omega
    · have : gridPos W (p.2 / W * W) = gridPos W p.2 := by
        rw [z2]
        exact Prod.ext q2.symm rfl
      exact gridPos_inj this
  · intro p hp
    obtain ⟨h1, h2⟩ := mem_filter.1 hp
    obtain ⟨h3, h4⟩ := mem_product.1 h1
    obtain ⟨s1, s2⟩ := hs _ (mem_range.1 h3)
    dsimp only
    rw [s2, (hz _ (mem_range.1 h4)).2.2]
    exact Prod.ext (Int.toNat_natCast _) rfl
  · intro p hp
    obtain ⟨h1, h2⟩ := mem_filter.1 hp
    obtain ⟨h3, h4⟩ := mem_product.1 h1
    obtain ⟨q1, q2, q3, q4, q5⟩ := (hQ _ (mem_range.1 h3) _ (mem_range.1 h4)).1 h2
    obtain ⟨s1, s2⟩ := hs (place p.1).2.toNat (by omega)
    obtain ⟨z1, z2, z3⟩ := hz (p.2 / W) (Nat.div_lt_of_lt_mul (mem_range.1 h4))
    have e1 : s (place p.1).2.toNat = p.1 := by
      refine hi _ s1 _ (mem_range.1 h3) ?_
      rw [s2]
      refine Prod.ext q1.symm ?_
      dsimp only
      omega
    have e2 : p.2 / W * W = p.2 := by
      refine gridPos_inj (W := W) ?_
      rw [z2]
      exact Prod.ext q2.symm rfl
    dsimp only
    rw [e1, e2]

/-- The interaction of one determinant with the block to the right of it, side by side. -/
theorem rightEnergy_face {I : Interactions K} {c : Config} (hc : RectConf c c.nbh c.nbv c.nblocs) {dets : List (List Nat)} (rev : Bool) (w : List K)
    {place : Nat → Pt} {s : Nat → Nat} (hi : ∀ a < c.nsites, ∀ b < c.nsites, place a = place b → a = b)
    (hp : ∀ a < c.nsites, 0 ≤ (place a).1 ∧ (place a).1 < (c.nbh * c.nblocs : Nat) ∧ 0 ≤ (place a).2 ∧ (place a).2 < (c.nbv * c.nblocs : Nat))
    (hs : ∀ y < c.nbv * c.nblocs, s y < c.nsites ∧ place (s y) = (((c.nbh * c.nblocs : Nat) : Int) - 1, (y : Int))) (det : List Nat) :
    rightEnergy I c dets rev w place det = facePair I (c.nbh * c.nblocs) (c.nbv * c.nblocs) s
      (fun a o => if occ c.nholes c.nbeta det a = o then 1 else 0) (fun r o => neighbourLaw c dets rev w o r) := by
  have hns : c.nsites = c.nbh * c.nblocs * (c.nbv * c.nblocs) := hc.spec.1
  have hW : 1 ≤ c.nbh * c.nblocs := Nat.mul_pos hc.hh hc.hb
  rw [hns] at hi hp hs
  unfold rightEnergy borderEnergy facePair
  rw [hns]
  set W := c.nbh * c.nblocs with hWdef
  set H := c.nbv * c.nblocs with hHdef
  simp only [sum_add_distrib]
  rw [face_sum hW hi hs (fun y z => y = z) Near (fun a ha r hr => by
      have h1 := hp a ha
      have h2 := gridPos_range hW hr
      have h3 : ((r / W : Nat) : Int) = (gridPos W r).2 := rfl
      unfold Near
      generalize gridPos W r = g at *
      generalize place a = p at *
      dsimp only
      omega),
    face_sum hW hi hs (fun y z => z = y + 1 ∨ y = z + 1) Diagonal (fun a ha r hr => by
      have h1 := hp a ha
      have h2 := gridPos_range hW hr
      have h3 : ((r / W : Nat) : Int) = (gridPos W r).2 := rfl
      unfold Diagonal
      generalize gridPos W r = g at *
      generalize place a = p at *
      dsimp only
      omega)]
  simp only [mul_sum]
  congr 1
  all_goals try simp only [← sum_add_distrib]
  all_goals refine sum_congr rfl fun y hy => ?_
  · rw [sum_ite_eq (range H) y, if_pos hy]
    unfold bondEnergy
    cases occ c.nholes c.nbeta det (s y) <;> simp
  · refine sum_congr rfl fun z _ => ?_
    by_cases hz : z = y + 1 ∨ y = z + 1
    · rw [if_pos hz, if_pos hz]
      unfold cornerEnergy
      cases occ c.nholes c.nbeta det (s y) <;> simp
    · rw [if_neg hz, if_neg hz, mul_zero]

theorem gridPos_mk {L x y : Nat} (hx : x < L) : gridPos L (y * L + x) = ((x : Int), (y : Int)) := by
  unfold gridPos
  rw [Nat.mul_comm, Nat.mul_add_mod, Nat.mod_eq_of_lt hx, Nat.mul_add_div (by omega), Nat.div_eq_of_lt hx, Nat.add_zero]

theorem sideSite_face {L q y : Nat} (hq : q < 4) (hy : y < L) :
    sideSite L q y < L * L ∧ (turn L ^ q) (gridPos L (sideSite L q y)) = ((L : Int) - 1, (y : Int)) := by
  have hlt : ∀ x' y', x' < L → y' < L → y' * L + x' < L * L := by
    intro x' y' h1 h2
    calc y' * L + x' < y' * L + L := by omega
      _ = (y' + 1) * L := by ring
      _ ≤ L * L := Nat.mul_le_mul_right _ h2
  obtain rfl | rfl | rfl | rfl : q = 0 ∨ q = 1 ∨ q = 2 ∨ q = 3 := by omega
  · refine ⟨hlt _ _ (by omega) hy, ?_⟩
    show gridPos L (y * L + (L - 1)) = _
    rw [gridPos_mk (by omega)]
    exact Prod.ext (by dsimp only; omega) rfl
  · refine ⟨hlt _ _ (by omega) (by omega), ?_⟩
    show turn L (gridPos L ((L - 1) * L + (L - 1 - y))) = _
    rw [gridPos_mk (by omega)]
    show (((L - 1 : Nat) : Int), (L : Int) - 1 - ((L - 1 - y : Nat) : Int)) = _
    exact Prod.ext (by dsimp only; omega) (by dsimp only; omega)
  · refine ⟨by have := hlt 0 (L - 1 - y) (by omega) (by omega); exact this, ?_⟩
    show turn L (turn L (gridPos L ((L - 1 - y) * L + 0))) = _
    rw [gridPos_mk (by omega)]
    show ((L : Int) - 1 - ((0 : Nat) : Int), (L : Int) - 1 - ((L - 1 - y : Nat) : Int)) = _
    exact Prod.ext (by dsimp only; omega) (by dsimp only; omega)
  · refine ⟨by have := hlt y 0 (by omega) (by omega); simpa [sideSite] using this, ?_⟩
    show turn L (turn L (turn L (gridPos L y))) = _
    have := gridPos_mk (L := L) (x := y) (y := 0) hy
    rw [Nat.zero_mul, Nat.zero_add] at this
    rw [this]
    show ((L : Int) - 1 - ((0 : Nat) : Int), (L : Int) - 1 - ((L : Int) - 1 - (y : Int))) = _
    exact Prod.ext (by dsimp only; omega) (by dsimp only; omega)

theorem facePair_congr (I : Interactions K) (W H : Nat) (s : Nat → Nat) (p : Nat → Occ → K) {q q' : Nat → Occ → K}
    (h : ∀ y < H, ∀ o, q (y * W) o = q' (y * W) o) : facePair I W H s p q = facePair I W H s p q' := by
  unfold facePair
  refine sum_congr rfl fun y hy => ?_
  have hy' := mem_range.1 hy
  rw [h y hy', h y hy', h y hy', sum_congr rfl fun z hz => by rw [h z (mem_range.1 hz)]]

theorem facePair_mean (I : Interactions K) (W H : Nat) (s : Nat → Nat) (c : Config) (dets : List (List Nat)) (v : List K) (q : Nat → Occ → K) :
    ∑ k ∈ range dets.length, v.getD k 0 * v.getD k 0 *
      facePair I W H s (fun a o => if occ c.nholes c.nbeta (dets.getD k []) a = o then 1 else 0) q =
      facePair I W H s (sitePart c dets v) q := by
  unfold facePair
  rw [sum_congr rfl fun k _ => mul_sum _ _ _, sum_comm]
  refine sum_congr rfl fun y _ => ?_
  have e : ∀ (a : Nat) (o : Occ) (x : K), sitePart c dets v a o * x =
      ∑ k ∈ range dets.length, v.getD k 0 * v.getD k 0 * ((if occ c.nholes c.nbeta (dets.getD k []) a = o then 1 else 0) * x) := by
    intro a o x
    unfold sitePart
    rw [sum_mul]
    refine sum_congr rfl fun k _ => ?_
    split_ifs <;> ring
  have e2 : ∑ z ∈ range H, (if z = y + 1 ∨ y = z + 1 then sitePart c dets v (s y) .hole * q (z * W) .hole else 0) =
      ∑ k ∈ range dets.length, v.getD k 0 * v.getD k 0 * ∑ z ∈ range H,
        (if z = y + 1 ∨ y = z + 1 then (if occ c.nholes c.nbeta (dets.getD k []) (s y) = .hole then 1 else 0) * q (z * W) .hole else 0) := by
    rw [sum_congr rfl fun k _ => mul_sum _ _ _, sum_comm]
    refine sum_congr rfl fun z _ => ?_
    split_ifs
    · rw [e]
    · simp
  rw [e2, e, e, e, ← sum_add_distrib, mul_sum, mul_sum, mul_sum, ← sum_add_distrib, ← sum_add_distrib]
  refine sum_congr rfl fun k _ => by ring

/-- The probabilities that the code reads from a normalised state of the neighbour. -/
theorem neighbourLaw_site {c : Config} {dets : List (List Nat)} (hb : constructBasis c = .ok dets) (hn : c.nholes + c.nbeta ≤ c.nsites)
    (rev : Bool) (w : List K) (h1 : ∑ k ∈ range dets.length, w.getD k 0 * w.getD k 0 = 1) (o : Occ) {r : Nat} (hr : r < c.nsites) :
    neighbourLaw c dets rev w o r = sitePart c dets w r (if rev then o.rev else o) := by
  unfold neighbourLaw
  rw [dif_pos hr, born_dets hb hn w h1]
  rfl

/-- C150. In every iteration the matrix is the Hamiltonian of the block whose diagonal is increased, side by side, by the energy of the
occupations of the determinant on that side with the probabilities of the first sites of the rows of the neighbour. -/
theorem C150_field (E : Env) (sqrt : K → K) (solve : Solver K) (fuel : Nat) (I : Interactions K) (c : Config)
    (hc : RectConf c c.nbh c.nbv c.nblocs) (dets : List (List Nat)) (hsol : solve.Good dets.length) (hb : constructBasis c = .ok dets)
    (hn : c.nholes + c.nbeta ≤ c.nsites) (o : BlockOptions K) (ho : o.dynamic = false)
    (hsq : o.neighbor = false → c.nbh * c.nblocs = c.nbv * c.nblocs)
    (hE : ∀ su, blockSetup E.toSetSem c dets o.reverse = .ok su →
      GeomLattice E su.cE (twoPos (c.nbh * c.nblocs) (c.nbv * c.nblocs)))
    (ham : SpMat K) (hd : ham.dim = dets.length) (eigvals : List K) (eigvects : List (List K)) (gs0 : List K)
    (h0 : eigvects[0]? = some gs0) (hgs0 : gs0.length = dets.length) (tol : K) (maxIter : Nat)
    (r : BlockResult K ⊕ List (BlockStep K))
    (h : embeddingBlocks E sqrt solve fuel I c o dets ham eigvals eigvects tol maxIter = .ok r) (k : Nat) (x : BlockStep K)
    (hx : (r.elim (fun q => q.trace) id)[k]? = some x) (w : List K)
    (hw : w = (gs0 :: (r.elim (fun q => q.trace) id).map (·.gs)).getD k []) (hw1 : ∑ k ∈ range dets.length, w.getD k 0 * w.getD k 0 = 1) :
    x.ham.dim = ham.dim ∧ ∀ i j, i < dets.length → x.ham.entry i j = ham.entry i j + if i = j then
      ∑ q ∈ range (if o.neighbor then 1 else 4), facePair I (c.nbh * c.nblocs) (c.nbv * c.nblocs) (sideSite (c.nbh * c.nblocs) q)
        (fun a z => if occ c.nholes c.nbeta (dets.getD i []) a = z then 1 else 0)
        (fun a z => sitePart c dets w a (if o.reverse then z.rev else z)) else 0 := by
  obtain ⟨k1, k2⟩ := C74_static_dressing E sqrt solve fuel I c hc dets hsol hb hn o ho hsq hE ham hd eigvals eigvects gs0 h0 hgs0 tol maxIter r h k x hx
  refine ⟨k1, fun i j hi => ?_⟩
  rw [k2 i j hi, ← hw]
  have hns : c.nsites = c.nbh * c.nblocs * (c.nbv * c.nblocs) := hc.spec.1
  have hW : 1 ≤ c.nbh * c.nblocs := Nat.mul_pos hc.hh hc.hb
  congr 1
  by_cases hij : i = j
  swap
  · rw [if_neg hij, if_neg hij]
  rw [if_pos hij, if_pos hij, getD_dets hi]
  have hq : ∀ s : Nat → Nat, facePair I (c.nbh * c.nblocs) (c.nbv * c.nblocs) s (fun a z => if occ c.nholes c.nbeta dets[i] a = z then 1 else 0)
      (fun a z => neighbourLaw c dets o.reverse w z a) = facePair I (c.nbh * c.nblocs) (c.nbv * c.nblocs) s
      (fun a z => if occ c.nholes c.nbeta dets[i] a = z then 1 else 0) (fun a z => sitePart c dets w a (if o.reverse then z.rev else z)) := by
    intro s
    refine facePair_congr I _ _ s _ fun y hy z => neighbourLaw_site hb hn _ w hw1 z ?_
    rw [hns, Nat.mul_comm (c.nbh * c.nblocs)]
    exact Nat.mul_lt_mul_of_pos_right hy hW
  cases hnb : o.neighbor with
  | true =>
    rw [if_pos rfl, if_pos rfl, sum_range_one, ← hq]
    refine rightEnergy_face hc o.reverse w (fun a _ b _ h => gridPos_inj h) (fun a ha => gridPos_range hW (hns ▸ ha)) (fun y hy => ?_) _
    have e : ((c.nbh * c.nblocs - 1 : Nat) : Int) = ((c.nbh * c.nblocs : Nat) : Int) - 1 := by omega
    refine ⟨?_, ?_⟩
    · rw [hns]
      show y * (c.nbh * c.nblocs) + (c.nbh * c.nblocs - 1) < _
      calc y * (c.nbh * c.nblocs) + (c.nbh * c.nblocs - 1) < y * (c.nbh * c.nblocs) + c.nbh * c.nblocs := by omega
        _ = (c.nbh * c.nblocs) * (y + 1) := by ring
        _ ≤ _ := Nat.mul_le_mul_left _ hy
    · show gridPos _ (y * (c.nbh * c.nblocs) + (c.nbh * c.nblocs - 1)) = _
      rw [gridPos_mk (by omega), e]
  | false =>
    have s1 := hsq hnb
    rw [if_neg (by simp), if_neg (by simp)]
    refine sum_congr rfl fun q hq' => ?_
    rw [← hq]
    have hq4 := mem_range.1 hq'
    refine rightEnergy_face hc o.reverse w (fun a _ b _ h => gridPos_inj (turn_pow_inj q h)) (fun a ha => ?_) (fun y hy => ?_) _
    · rw [hns, ← s1] at ha
      rw [← s1]
      have g := inBox_zpow (q : Int) (inBox_gridPos ha)
      rw [zpow_natCast] at g
      unfold InBox at g
      omega
    · rw [hns, ← s1]
      rw [← s1] at hy
      exact sideSite_face hq4 hy

/-- C150. The mean value of the matrix of an iteration in any normalised state is its energy in the isolated block and, side by side, the
energy of independent occupations: the probabilities of the state on that side times those of the neighbour. -/
theorem C150_mean (E : Env) (sqrt : K → K) (solve : Solver K) (fuel : Nat) (I : Interactions K) (c : Config)
    (hc : RectConf c c.nbh c.nbv c.nblocs) (dets : List (List Nat)) (hsol : solve.Good dets.length) (hb : constructBasis c = .ok dets)
    (hn : c.nholes + c.nbeta ≤ c.nsites) (o : BlockOptions K) (ho : o.dynamic = false)
    (hsq : o.neighbor = false → c.nbh * c.nblocs = c.nbv * c.nblocs)
    (hE : ∀ su, blockSetup E.toSetSem c dets o.reverse = .ok su →
      GeomLattice E su.cE (twoPos (c.nbh * c.nblocs) (c.nbv * c.nblocs)))
    (ham : SpMat K) (hd : ham.dim = dets.length) (eigvals : List K) (eigvects : List (List K)) (gs0 : List K)
    (h0 : eigvects[0]? = some gs0) (hgs0 : gs0.length = dets.length) (tol : K) (maxIter : Nat)
    (r : BlockResult K ⊕ List (BlockStep K))
    (h : embeddingBlocks E sqrt solve fuel I c o dets ham eigvals eigvects tol maxIter = .ok r) (k : Nat) (x : BlockStep K)
    (hx : (r.elim (fun q => q.trace) id)[k]? = some x) (w : List K)
    (hw : w = (gs0 :: (r.elim (fun q => q.trace) id).map (·.gs)).getD k []) (hw1 : ∑ k ∈ range dets.length, w.getD k 0 * w.getD k 0 = 1)
    (v : List K) :
    meanValue x.ham v = meanValue ham v + ∑ q ∈ range (if o.neighbor then 1 else 4),
      facePair I (c.nbh * c.nblocs) (c.nbv * c.nblocs) (sideSite (c.nbh * c.nblocs) q) (sitePart c dets v)
        (fun a z => sitePart c dets w a (if o.reverse then z.rev else z)) := by
  obtain ⟨k1, k2⟩ := C150_field E sqrt solve fuel I c hc dets hsol hb hn o ho hsq hE ham hd eigvals eigvects gs0 h0 hgs0 tol maxIter r h k x hx w hw hw1
  rw [sum_congr rfl fun q _ => (facePair_mean I _ _ _ c dets v _).symm, sum_comm]
  unfold meanValue
  rw [k1, hd, ← sum_add_distrib]
  refine sum_congr rfl fun i hi => ?_
  have hi' := mem_range.1 hi
  rw [sum_congr rfl fun j _ => by rw [k2 i j hi', mul_add, add_mul], sum_add_distrib, ← mul_sum]
  congr 1
  rw [sum_eq_single i]
  · rw [if_pos rfl]
    ring
  · intro j _ hj
    rw [if_neg (Ne.symm hj)]
    ring
  · exact fun h => absurd hi h

/-- C150. Only the probabilities of the first sites of the rows of the neighbour matter: two iterations, of the same or of different runs,
whose states before agree there diagonalise the same matrix. -/
theorem C150_first_column (E : Env) (sqrt : K → K) (solve solve' : Solver K) (fuel fuel' : Nat) (I : Interactions K) (c : Config)
    (hc : RectConf c c.nbh c.nbv c.nblocs) (dets : List (List Nat)) (hsol : solve.Good dets.length) (hsol' : solve'.Good dets.length)
    (hb : constructBasis c = .ok dets)
    (hn : c.nholes + c.nbeta ≤ c.nsites) (o : BlockOptions K) (ho : o.dynamic = false)
    (hsq : o.neighbor = false → c.nbh * c.nblocs = c.nbv * c.nblocs)
    (hE : ∀ su, blockSetup E.toSetSem c dets o.reverse = .ok su →
      GeomLattice E su.cE (twoPos (c.nbh * c.nblocs) (c.nbv * c.nblocs)))
    (ham : SpMat K) (hd : ham.dim = dets.length) (eigvals eigvals' : List K) (eigvects eigvects' : List (List K)) (gs0 gs0' : List K)
    (h0 : eigvects[0]? = some gs0) (hgs0 : gs0.length = dets.length) (h0' : eigvects'[0]? = some gs0') (hgs0' : gs0'.length = dets.length)
    (tol tol' : K) (maxIter maxIter' : Nat)
    (r r' : BlockResult K ⊕ List (BlockStep K))
    (h : embeddingBlocks E sqrt solve fuel I c o dets ham eigvals eigvects tol maxIter = .ok r)
    (h' : embeddingBlocks E sqrt solve' fuel' I c o dets ham eigvals' eigvects' tol' maxIter' = .ok r') (k k' : Nat) (x x' : BlockStep K)
    (hx : (r.elim (fun q => q.trace) id)[k]? = some x) (hx' : (r'.elim (fun q => q.trace) id)[k']? = some x') (w w' : List K)
    (hw : w = (gs0 :: (r.elim (fun q => q.trace) id).map (·.gs)).getD k []) (hw1 : ∑ k ∈ range dets.length, w.getD k 0 * w.getD k 0 = 1)
    (hw' : w' = (gs0' :: (r'.elim (fun q => q.trace) id).map (·.gs)).getD k' []) (hw1' : ∑ k ∈ range dets.length, w'.getD k 0 * w'.getD k 0 = 1)
    (hsame : ∀ y < c.nbv * c.nblocs, ∀ z, sitePart c dets w (y * (c.nbh * c.nblocs)) z = sitePart c dets w' (y * (c.nbh * c.nblocs)) z) :
    ∀ i j, i < dets.length → x.ham.entry i j = x'.ham.entry i j := by
  obtain ⟨_, k2⟩ := C150_field E sqrt solve fuel I c hc dets hsol hb hn o ho hsq hE ham hd eigvals eigvects gs0 h0 hgs0 tol maxIter r h k x hx w hw hw1
  obtain ⟨_, k2'⟩ := C150_field E sqrt solve' fuel' I c hc dets hsol' hb hn o ho hsq hE ham hd eigvals' eigvects' gs0' h0' hgs0' tol' maxIter' r' h' k' x' hx'
    w' hw' hw1'
  intro i j hi
  rw [k2 i j hi, k2' i j hi]
  congr 2
  exact sum_congr rfl fun q _ => facePair_congr I _ _ _ _ fun y hy z => hsame y hy _

end

/-- The hypotheses of C150 hold for the runs of C74, and the energy of four up spins next to four down spins is that of independent sites:
two bonds of `-J/2` with one neighbour and `J = 2`, eight with four. -/
example (b : Bool) (r) (h : embeddingBlocks twoEnv sqrtUpTo4 oneSolver 1 exI (rectConf 1 1 2 0 0) ⟨false, b, true, 0⟩ [[0, 1, 2, 3]] ⟨1, []⟩ [0] [[1]] 1 5 = .ok r)
    (x : BlockStep ℚ) (hx : (r.elim (fun q => q.trace) id)[0]? = some x) :=
  C150_mean twoEnv sqrtUpTo4 oneSolver 1 exI (rectConf 1 1 2 0 0)
    (rectConf_ok _ _ _ _ _ (by decide) (by decide) (by decide)) [[0, 1, 2, 3]] oneSolver_good rfl (by decide) ⟨false, b, true, 0⟩ rfl (fun _ => rfl)
    (two_squares_geom 0 0 [[0, 1, 2, 3]] true) ⟨1, []⟩ rfl [0] [[1]] [1] rfl rfl 1 5 r h 0 x hx [1] rfl (by decide +kernel) [1]

example : facePair exI 2 2 (sideSite 2 0) (sitePart (rectConf 1 1 2 0 0) [[0, 1, 2, 3]] [1])
    (fun a z => sitePart (rectConf 1 1 2 0 0) [[0, 1, 2, 3]] [1] a z.rev) = -2 ∧
  ∑ q ∈ range 4, facePair exI 2 2 (sideSite 2 q) (sitePart (rectConf 1 1 2 0 0) [[0, 1, 2, 3]] [1])
    (fun a z => sitePart (rectConf 1 1 2 0 0) [[0, 1, 2, 3]] [1] a z.rev) = -8 := by decide +kernel

/-- Two different states with the same probabilities in the first column. -/
example : ∀ y < 2, ∀ z, sitePart (rectConf 1 1 2 0 1) [[0, 1, 2, 3], [1, 0, 2, 3], [2, 0, 1, 3], [3, 0, 1, 2]] [(3 : ℚ) / 5, 4 / 5, 0, 0] (y * 2) z =
    sitePart (rectConf 1 1 2 0 1) [[0, 1, 2, 3], [1, 0, 2, 3], [2, 0, 1, 3], [3, 0, 1, 2]] [-3 / 5, 0, 0, 4 / 5] (y * 2) z := by
  intro y hy z
  interval_cases y <;> cases z <;> decide +kernel

end TJ
