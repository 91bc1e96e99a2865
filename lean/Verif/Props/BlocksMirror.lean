/-
Property C152: the embedding of a square block in four neighbours keeps the symmetries of the square.
-/
import Verif.Props.BlocksDescent
import Verif.Props.Symmetry

namespace TJ

open Finset

/-- The mirror image in the diagonal of a square. -/
def transposed (p : Pt) : Pt := (p.2, p.1)

/-- The two mirror images that generate the symmetries of a square. -/
inductive SquareMirror (L : Nat) : (Pt → Pt) → Prop
  | side : SquareMirror L (mirrorX L)
  | diagonal : SquareMirror L transposed

/-- The probabilities keep both mirror images. -/
def SquareSym {K : Type} (L : Nat) (p : Nat → Occ → K) : Prop :=
  (∀ x < L, ∀ y < L, p (y * L + x) = p (y * L + (L - 1 - x))) ∧ ∀ x < L, ∀ y < L, p (y * L + x) = p (x * L + y)

theorem SquareMirror.latSym {L : Nat} {f : Pt → Pt} (h : SquareMirror L f) : LatSym L L f := by
  cases h with
  | side => exact LatSym.mirX LatSym.one
  | diagonal =>
    have := LatSym.mirY (LatSym.quarter rfl (LatSym.one (W := L) (H := L)))
    convert this using 1
    funext p
    show (p.2, p.1) = (p.2, (L : Int) - 1 - ((L : Int) - 1 - p.1))
    exact Prod.ext rfl (by dsimp only; omega)

/-- Where the sides are. -/
theorem side_pos {L q y : Nat} (hq : q < 4) (hy : y < L) : sideSite L q y < L * L ∧ gridPos L (sideSite L q y) =
    (if q = 0 then ((L : Int) - 1, (y : Int)) else if q = 1 then ((L : Int) - 1 - y, (L : Int) - 1) else if q = 2 then (0, (L : Int) - 1 - y) else ((y : Int), 0)) := by
  refine ⟨(sideSite_face hq hy).1, ?_⟩
  obtain rfl | rfl | rfl | rfl : q = 0 ∨ q = 1 ∨ q = 2 ∨ q = 3 := by omega
  · show gridPos L (y * L + (L - 1)) = _
    rw [gridPos_mk (by omega)]
    exact Prod.ext (by show ((L - 1 : Nat) : Int) = (L : Int) - 1; omega) rfl
  · show gridPos L ((L - 1) * L + (L - 1 - y)) = _
    rw [gridPos_mk (by omega)]
    exact Prod.ext (by show ((L - 1 - y : Nat) : Int) = (L : Int) - 1 - y; omega) (by show ((L - 1 : Nat) : Int) = (L : Int) - 1; omega)
  · show gridPos L ((L - 1 - y) * L + 0) = _
    rw [gridPos_mk (by omega)]
    exact Prod.ext rfl (by show ((L - 1 - y : Nat) : Int) = (L : Int) - 1 - y; omega)
  · show gridPos L y = _
    have := gridPos_mk (L := L) (x := y) (y := 0) hy
    rw [Nat.zero_mul, Nat.zero_add] at this
    rw [this]
    rfl

/-- A mirror image takes each side to a side, run through backwards. -/
theorem SquareMirror.sides {L : Nat} {f : Pt → Pt} (h : SquareMirror L f) : ∃ ρ : Nat → Nat, (∀ q < 4, ρ q < 4 ∧ ρ (ρ q) = q) ∧
    ∀ q < 4, ∀ y < L, gridPos L (sideSite L (ρ q) (L - 1 - y)) = f (gridPos L (sideSite L q y)) := by
  cases h with
  | side =>
    refine ⟨fun q => if q = 0 then 2 else if q = 2 then 0 else q, ?_, ?_⟩
    · intro q hq
      interval_cases q <;> decide
    · intro q hq y hy
      have hy' : L - 1 - y < L := by omega
      have hc : ((L - 1 - y : Nat) : Int) = (L : Int) - 1 - y := by omega
      rw [(side_pos hq hy).2]
      obtain rfl | rfl | rfl | rfl : q = 0 ∨ q = 1 ∨ q = 2 ∨ q = 3 := by omega
      all_goals
        simp only [if_true, if_false, OfNat.ofNat_ne_zero, one_ne_zero, zero_ne_one, OfNat.one_ne_ofNat, OfNat.ofNat_ne_one, Nat.reduceEqDiff, OfNat.zero_ne_ofNat]
        rw [(side_pos (by decide) hy').2]
        simp [mirrorX, hc]
  | diagonal =>
    refine ⟨fun q => if q = 0 then 1 else if q = 1 then 0 else if q = 2 then 3 else 2, ?_, ?_⟩
    · intro q hq
      interval_cases q <;> decide
    · intro q hq y hy
      have hy' : L - 1 - y < L := by omega
      have hc : ((L - 1 - y : Nat) : Int) = (L : Int) - 1 - y := by omega
      rw [(side_pos hq hy).2]
      obtain rfl | rfl | rfl | rfl : q = 0 ∨ q = 1 ∨ q = 2 ∨ q = 3 := by omega
      all_goals
        simp only [if_true, if_false, OfNat.ofNat_ne_zero, one_ne_zero, zero_ne_one, OfNat.one_ne_ofNat, OfNat.ofNat_ne_one, Nat.reduceEqDiff, OfNat.zero_ne_ofNat]
        rw [(side_pos (by decide) hy').2]
        simp [transposed, hc]

section
variable {K : Type} [Field K] [LinearOrder K] [IsStrictOrderedRing K]

theorem SquareSym.column {L : Nat} {p : Nat → Occ → K} (h : SquareSym L p) {y : Nat} (hy : y < L) : p ((L - 1 - y) * L) = p (y * L) := by
  have h1 := h.2 0 (by omega) (L - 1 - y) (by omega)
  have h2 := h.1 (L - 1 - y) (by omega) 0 (by omega)
  have h3 := h.2 y hy 0 (by omega)
  rw [show L - 1 - (L - 1 - y) = y by omega] at h2
  rw [Nat.add_zero] at h1 h3
  rw [h1, h2, h3]

/-- A side run through backwards, next to a column that is its own mirror image. -/
theorem facePair_reflect (I : Interactions K) {L : Nat} {s s' : Nat → Nat} {p p' Q : Nat → Occ → K}
    (hp : ∀ y < L, ∀ o, p' (s' (L - 1 - y)) o = p (s y) o) (hQ : ∀ y < L, ∀ o, Q ((L - 1 - y) * L) o = Q (y * L) o) :
    facePair I L L s' p' Q = facePair I L L s p Q := by
  unfold facePair
  rw [← sum_range_reflect]
  refine sum_congr rfl fun y hy => ?_
  have hy' := mem_range.1 hy
  simp only [hp y hy', hQ y hy']
  congr 2
  rw [← sum_range_reflect]
  refine sum_congr rfl fun z hz => ?_
  have hz' := mem_range.1 hz
  rw [hQ z hz']
  have : (L - 1 - z = L - 1 - y + 1 ∨ L - 1 - y = L - 1 - z + 1) ↔ (z = y + 1 ∨ y = z + 1) := by omega
  simp only [this]

/-- C152. If the state before keeps both mirror images of the square, so does the matrix that is diagonalised: its elements between
determinants moved by a mirror image are equal. -/
theorem C152_matrix (E E' : Env) (sqrt : K → K) (solve : Solver K) (fuel : Nat) (I : Interactions K) (c : Config)
    (hc : RectConf c c.nbh c.nbv c.nblocs) (hf : c.Full) (B : BoolInteractions) (l : List Nat) (vb : Bool)
    (dets : List (List Nat)) (hsol : solve.Good dets.length) (hb : constructBasis c = .ok dets)
    (hn : c.nholes + c.nbeta ≤ c.nsites) (o : BlockOptions K) (ho : o.dynamic = false) (hfour : o.neighbor = false)
    (hsq : c.nbh * c.nblocs = c.nbv * c.nblocs)
    (hE : ∀ su, blockSetup E.toSetSem c dets o.reverse = .ok su →
      GeomLattice E su.cE (twoPos (c.nbh * c.nblocs) (c.nbv * c.nblocs)))
    (ham : SpMat K) (hH : buildHamiltonian E' c I dets B l vb = .ok ham) (hd : ham.dim = dets.length) (eigvals : List K) (eigvects : List (List K)) (gs0 : List K)
    (h0 : eigvects[0]? = some gs0) (hgs0 : gs0.length = dets.length) (tol : K) (maxIter : Nat)
    (r : BlockResult K ⊕ List (BlockStep K))
    (h : embeddingBlocks E sqrt solve fuel I c o dets ham eigvals eigvects tol maxIter = .ok r) (k : Nat) (x : BlockStep K)
    (hx : (r.elim (fun q => q.trace) id)[k]? = some x) (w : List K)
    (hw : w = (gs0 :: (r.elim (fun q => q.trace) id).map (·.gs)).getD k []) (hw1 : ∑ k ∈ range dets.length, w.getD k 0 * w.getD k 0 = 1)
    (hsym : SquareSym (c.nbh * c.nblocs) (sitePart c dets w)) (f : Pt → Pt) (hm : SquareMirror (c.nbh * c.nblocs) f)
    (i j i' j' : Nat) (hi : i < dets.length) (hj : j < dets.length) (hi' : i' < dets.length) (hj' : j' < dets.length)
    (m1 : MovedBy (c.nbh * c.nblocs) f (conf c dets[i]) (conf c dets[i'])) (m2 : MovedBy (c.nbh * c.nblocs) f (conf c dets[j]) (conf c dets[j'])) :
    x.ham.entry i' j' = x.ham.entry i j := by
  obtain ⟨_, k2⟩ := C150_field E sqrt solve fuel I c hc dets hsol hb hn o ho (fun _ => hsq) hE ham hd eigvals eigvects gs0 h0 hgs0 tol maxIter r h k x hx w hw hw1
  have hl : LatSym (c.nbh * c.nblocs) (c.nbv * c.nblocs) f := by rw [← hsq]; exact hm.latSym
  have hns : c.nsites = c.nbh * c.nblocs * (c.nbh * c.nblocs) := by rw [hc.spec.1, ← hsq]
  rw [k2 i j hi, k2 i' j' hi', C98_hamiltonian E' c _ _ _ hc hf hn I B l vb dets hb ham hH f hl i j i' j' hi hj hi' hj' m1 m2]
  congr 1
  obtain ⟨e, he⟩ := exists_perm (n := c.nsites) hc.spec.1 hl.keeps
  have hij : i' = j' ↔ i = j := by
    rw [movedBy_iff he] at m1 m2
    constructor
    · rintro rfl
      exact conf_inj hb hi hj (m1.trans m2.symm)
    · rintro rfl
      refine conf_inj hb hi' hj' ?_
      funext s
      have := congrFun (m1.symm.trans m2) (e.symm s)
      simpa using this
  simp only [hij]
  by_cases hd' : i = j
  swap
  · rw [if_neg hd', if_neg hd']
  rw [if_pos hd', if_pos hd', hfour, if_neg (by simp), ← hsq]
  obtain ⟨ρ, r1, r2⟩ := hm.sides
  refine sum_nbij' ρ ρ (fun q hq => mem_range.2 (r1 q (mem_range.1 hq)).1) (fun q hq => mem_range.2 (r1 q (mem_range.1 hq)).1)
    (fun q hq => (r1 q (mem_range.1 hq)).2) (fun q hq => (r1 q (mem_range.1 hq)).2) fun q hq => ?_
  have hq4 := mem_range.1 hq
  have hρ := (r1 q hq4).1
  refine facePair_reflect I (fun y hy z => ?_) (fun y hy z => by rw [hsym.column hy])
  have hy' : c.nbh * c.nblocs - 1 - y < c.nbh * c.nblocs := by omega
  have key : occ c.nholes c.nbeta dets[i'] (sideSite (c.nbh * c.nblocs) q (c.nbh * c.nblocs - 1 - y)) =
      occ c.nholes c.nbeta dets[i] (sideSite (c.nbh * c.nblocs) (ρ q) y) :=
    m1 ⟨sideSite (c.nbh * c.nblocs) (ρ q) y, by rw [hns]; exact (sideSite_face hρ hy).1⟩
      ⟨sideSite (c.nbh * c.nblocs) q (c.nbh * c.nblocs - 1 - y), by rw [hns]; exact (sideSite_face hq4 hy').1⟩
      (by have := r2 (ρ q) hρ y hy; rw [(r1 q hq4).2] at this; exact this)
  rw [getD_dets hi, getD_dets hi', key]

/-- A state of a matrix, of a value that only its multiples have. -/
def OnlyState (n : Nat) (M : SpMat K) (μ : K) (v : List K) : Prop :=
  (∀ i < n, ∑ j ∈ range n, M.entry i j * v.getD j 0 = μ * v.getD i 0) ∧
    ∀ u : Nat → K, (∀ i < n, ∑ j ∈ range n, M.entry i j * u j = μ * u i) → ∃ a, ∀ i < n, u i = a * v.getD i 0

/-- The only state of a matrix that does not change under a permutation of the determinants has probabilities that do not change. -/
theorem sitePart_moved {c : Config} {dets : List (List Nat)} {M : SpMat K} {μ : K} {v : List K} (hv : OnlyState dets.length M μ v)
    (h1 : ∑ k ∈ range dets.length, v.getD k 0 * v.getD k 0 = 1) (π : Fin dets.length ≃ Fin dets.length)
    (hM : ∀ i j : Fin dets.length, M.entry (π i) (π j) = M.entry i j) {s t : Nat}
    (hst : ∀ i : Fin dets.length, occ c.nholes c.nbeta dets[(π i).1] t = occ c.nholes c.nbeta dets[i.1] s) (o : Occ) :
    sitePart c dets v t o = sitePart c dets v s o := by
  set u : Nat → K := fun i => if hi : i < dets.length then v.getD (π ⟨i, hi⟩) 0 else 0 with hu
  have hu' : ∀ i : Fin dets.length, u i = v.getD (π i) 0 := fun i => dif_pos i.2
  obtain ⟨a, ha⟩ := hv.2 u (by
    intro i hi
    have e := hv.1 (π ⟨i, hi⟩) (π ⟨i, hi⟩).2
    rw [sum_range] at e ⊢
    rw [← Equiv.sum_comp π] at e
    rw [hu' ⟨i, hi⟩, ← e]
    exact sum_congr rfl fun j _ => by rw [hu' j, hM ⟨i, hi⟩ j])
  have ha' : ∀ i : Fin dets.length, v.getD (π i) 0 = a * v.getD i 0 := fun i => by rw [← hu', ha i i.2]
  have ha1 : a * a = 1 := by
    have e := h1
    rw [sum_range, ← Equiv.sum_comp π, sum_congr rfl fun i _ => by rw [ha' i, mul_mul_mul_comm], ← mul_sum] at e
    rw [sum_range] at h1
    rw [h1, mul_one] at e
    exact e
  unfold sitePart
  rw [sum_range, sum_range, ← Equiv.sum_comp π]
  refine sum_congr rfl fun i _ => ?_
  rw [getD_dets (π i).2, getD_dets i.2, hst i, ha' i, mul_mul_mul_comm, ha1, one_mul]

/-- C152. If the state before keeps both mirror images of the square and the ground state of the iteration is the only state of its
energy, then it keeps them as well, and its sides are even as C151 asks. -/
theorem C152_state (E E' : Env) (sqrt : K → K) (solve : Solver K) (fuel : Nat) (I : Interactions K) (c : Config)
    (hc : RectConf c c.nbh c.nbv c.nblocs) (hf : c.Full) (B : BoolInteractions) (l : List Nat) (vb : Bool)
    (dets : List (List Nat)) (hsol : solve.Good dets.length) (hb : constructBasis c = .ok dets)
    (hn : c.nholes + c.nbeta ≤ c.nsites) (o : BlockOptions K) (ho : o.dynamic = false) (hfour : o.neighbor = false)
    (hsq : c.nbh * c.nblocs = c.nbv * c.nblocs)
    (hE : ∀ su, blockSetup E.toSetSem c dets o.reverse = .ok su →
      GeomLattice E su.cE (twoPos (c.nbh * c.nblocs) (c.nbv * c.nblocs)))
    (ham : SpMat K) (hH : buildHamiltonian E' c I dets B l vb = .ok ham) (hd : ham.dim = dets.length) (eigvals : List K) (eigvects : List (List K)) (gs0 : List K)
    (h0 : eigvects[0]? = some gs0) (hgs0 : gs0.length = dets.length) (tol : K) (maxIter : Nat)
    (r : BlockResult K ⊕ List (BlockStep K))
    (h : embeddingBlocks E sqrt solve fuel I c o dets ham eigvals eigvects tol maxIter = .ok r) (k : Nat) (x : BlockStep K)
    (hx : (r.elim (fun q => q.trace) id)[k]? = some x) (w : List K)
    (hw : w = (gs0 :: (r.elim (fun q => q.trace) id).map (·.gs)).getD k []) (hw1 : ∑ k ∈ range dets.length, w.getD k 0 * w.getD k 0 = 1)
    (hsym : SquareSym (c.nbh * c.nblocs) (sitePart c dets w)) (hx1 : ∑ k ∈ range dets.length, x.gs.getD k 0 * x.gs.getD k 0 = 1) (μ : K)
    (hv : OnlyState dets.length x.ham μ x.gs) :
    SquareSym (c.nbh * c.nblocs) (sitePart c dets x.gs) ∧
      EvenSides (c.nbh * c.nblocs) (c.nbv * c.nblocs) (nbNeighbours o) (sitePart c dets x.gs) := by
  have hns : c.nsites = c.nbh * c.nblocs * (c.nbh * c.nblocs) := by rw [hc.spec.1, ← hsq]
  have key : ∀ f, SquareMirror (c.nbh * c.nblocs) f → ∀ s t, s < c.nsites → t < c.nsites → gridPos (c.nbh * c.nblocs) t = f (gridPos (c.nbh * c.nblocs) s) →
      sitePart c dets x.gs t = sitePart c dets x.gs s := by
    intro f hm s t hs ht hst
    have hl : LatSym (c.nbh * c.nblocs) (c.nbv * c.nblocs) f := by rw [← hsq]; exact hm.latSym
    have hex := fun i : Fin dets.length => (C98_moved_exists c _ _ _ hc hn dets hb f hl i.1 i.2).exists
    choose g hg using hex
    obtain ⟨e, he⟩ := exists_perm (n := c.nsites) hc.spec.1 hl.keeps
    have hinj : Function.Injective g := by
      intro i j hij
      have m1 := (movedBy_iff he _ _).1 (hg i)
      have m2 := (movedBy_iff he _ _).1 (hg j)
      rw [hij] at m1
      exact Fin.ext (conf_inj hb i.2 j.2 (m1.trans m2.symm))
    funext z
    refine sitePart_moved hv hx1 (Equiv.ofBijective g (Finite.injective_iff_bijective.1 hinj)) (fun i j => ?_) (fun i => ?_) z
    · exact C152_matrix E E' sqrt solve fuel I c hc hf B l vb dets hsol hb hn o ho hfour hsq hE ham hH hd eigvals eigvects gs0 h0 hgs0 tol maxIter r h k x hx w
        hw hw1 hsym f hm i j _ _ i.2 j.2 _ _ (hg i) (hg j)
    · exact hg i ⟨s, hs⟩ ⟨t, ht⟩ hst
  have hlt : ∀ x' y', x' < c.nbh * c.nblocs → y' < c.nbh * c.nblocs → y' * (c.nbh * c.nblocs) + x' < c.nsites := by
    intro x' y' a1 a2
    rw [hns]
    calc y' * (c.nbh * c.nblocs) + x' < y' * (c.nbh * c.nblocs) + c.nbh * c.nblocs := by omega
      _ = (y' + 1) * (c.nbh * c.nblocs) := by ring
      _ ≤ c.nbh * c.nblocs * (c.nbh * c.nblocs) := Nat.mul_le_mul_right _ a2
  have hS : SquareSym (c.nbh * c.nblocs) (sitePart c dets x.gs) := by
    constructor
    · intro x' hx' y hy
      have h1 : c.nbh * c.nblocs - 1 - x' < c.nbh * c.nblocs := by omega
      refine (key _ .side _ _ (hlt x' y hx' hy) (hlt _ y h1 hy) ?_).symm
      rw [gridPos_mk hx', gridPos_mk h1]
      exact Prod.ext (by show ((c.nbh * c.nblocs - 1 - x' : Nat) : Int) = ((c.nbh * c.nblocs : Nat) : Int) - 1 - x'; omega) rfl
    · intro x' hx' y hy
      refine (key _ .diagonal _ _ (hlt x' y hx' hy) (hlt y x' hy hx') ?_).symm
      rw [gridPos_mk hx', gridPos_mk hy]
      rfl
  refine ⟨hS, ?_⟩
  rw [← hsq]
  refine C151_square ?_ hS.1 hS.2
  unfold nbNeighbours
  rw [hfour]
  decide

/-- C152. Started from a state that keeps both mirror images of the square, a run with four neighbours whose ground states are the only
states of their energies keeps them in every iteration. -/
theorem C152_run (E E' : Env) (sqrt : K → K) (solve : Solver K) (fuel : Nat) (I : Interactions K) (c : Config)
    (hc : RectConf c c.nbh c.nbv c.nblocs) (hf : c.Full) (B : BoolInteractions) (l : List Nat) (vb : Bool)
    (dets : List (List Nat)) (hsol : solve.Good dets.length) (hb : constructBasis c = .ok dets)
    (hn : c.nholes + c.nbeta ≤ c.nsites) (o : BlockOptions K) (ho : o.dynamic = false) (hfour : o.neighbor = false)
    (hsq : c.nbh * c.nblocs = c.nbv * c.nblocs)
    (hE : ∀ su, blockSetup E.toSetSem c dets o.reverse = .ok su →
      GeomLattice E su.cE (twoPos (c.nbh * c.nblocs) (c.nbv * c.nblocs)))
    (ham : SpMat K) (hH : buildHamiltonian E' c I dets B l vb = .ok ham) (hd : ham.dim = dets.length) (eigvals : List K) (eigvects : List (List K)) (gs0 : List K)
    (h0 : eigvects[0]? = some gs0) (hgs0 : gs0.length = dets.length) (tol : K) (maxIter : Nat)
    (r : BlockResult K ⊕ List (BlockStep K))
    (h : embeddingBlocks E sqrt solve fuel I c o dets ham eigvals eigvects tol maxIter = .ok r) (states : List (List K))
    (hst : states = gs0 :: (r.elim (fun q => q.trace) id).map (·.gs))
    (h1 : ∀ v ∈ states, ∑ k ∈ range dets.length, v.getD k 0 * v.getD k 0 = 1)
    (hsym : SquareSym (c.nbh * c.nblocs) (sitePart c dets gs0))
    (hv : ∀ x ∈ r.elim (fun q => q.trace) id, ∃ μ, OnlyState dets.length x.ham μ x.gs) :
    ∀ v ∈ states, SquareSym (c.nbh * c.nblocs) (sitePart c dets v) ∧
      EvenSides (c.nbh * c.nblocs) (c.nbv * c.nblocs) (nbNeighbours o) (sitePart c dets v) := by
  have hall : ∀ m (hm : m < states.length), SquareSym (c.nbh * c.nblocs) (sitePart c dets states[m]) := by
    intro m
    induction m with
    | zero =>
      intro hm
      simp only [hst, List.getElem_cons_zero]
      exact hsym
    | succ m ih =>
      intro hm
      have ih := ih (by omega)
      have hlen : m < (r.elim (fun q => q.trace) id).length := by
        rw [hst, List.length_cons, List.length_map] at hm
        omega
      have hx := List.getElem?_eq_getElem hlen
      have hgs : states[m + 1] = (r.elim (fun q => q.trace) id)[m].gs := by
        simp only [hst, List.getElem_cons_succ, List.getElem_map]
      obtain ⟨μ, hμ⟩ := hv _ (List.getElem_mem hlen)
      rw [hgs]
      refine (C152_state E E' sqrt solve fuel I c hc hf B l vb dets hsol hb hn o ho hfour hsq hE ham hH hd eigvals eigvects gs0 h0 hgs0 tol maxIter r h m _ hx
        states[m] ?_ (h1 _ (List.getElem_mem _)) ih ?_ μ hμ).1
      · rw [← hst, List.getD_eq_getElem _ _ (by omega)]
      · rw [← hgs]
        exact h1 _ (List.getElem_mem _)
  intro v hvm
  obtain ⟨m, hm, rfl⟩ := List.getElem_of_mem hvm
  refine ⟨hall m hm, ?_⟩
  rw [← hsq]
  refine C151_square ?_ (hall m hm).1 (hall m hm).2
  unfold nbNeighbours
  rw [hfour]
  decide

/-- C152. Hence the iterations of such a run with reversed spins lower the mean field energy as C151 says, without any assumption on the
later states but that they are the lowest and only ones of their matrices. -/
theorem C152_descends (E E' : Env) (sqrt : K → K) (solve : Solver K) (fuel : Nat) (I : Interactions K) (c : Config)
    (hc : RectConf c c.nbh c.nbv c.nblocs) (hf : c.Full) (B : BoolInteractions) (l : List Nat) (vb : Bool)
    (dets : List (List Nat)) (hsol : solve.Good dets.length) (hb : constructBasis c = .ok dets)
    (hn : c.nholes + c.nbeta ≤ c.nsites) (o : BlockOptions K) (ho : o.dynamic = false) (hfour : o.neighbor = false) (hrev : o.reverse = true)
    (hsq : c.nbh * c.nblocs = c.nbv * c.nblocs)
    (hE : ∀ su, blockSetup E.toSetSem c dets o.reverse = .ok su →
      GeomLattice E su.cE (twoPos (c.nbh * c.nblocs) (c.nbv * c.nblocs)))
    (ham : SpMat K) (hH : buildHamiltonian E' c I dets B l vb = .ok ham) (hd : ham.dim = dets.length) (eigvals : List K) (eigvects : List (List K)) (gs0 : List K)
    (h0 : eigvects[0]? = some gs0) (hgs0 : gs0.length = dets.length) (tol : K) (maxIter : Nat)
    (r : BlockResult K ⊕ List (BlockStep K))
    (h : embeddingBlocks E sqrt solve fuel I c o dets ham eigvals eigvects tol maxIter = .ok r)
    (hV : c.nholes = 0 ∨ (I.VNN ≤ 0 ∧ I.VNNNper = 0)) (states : List (List K))
    (hst : states = gs0 :: (r.elim (fun q => q.trace) id).map (·.gs))
    (h1 : ∀ v ∈ states, ∑ k ∈ range dets.length, v.getD k 0 * v.getD k 0 = 1)
    (hsym : SquareSym (c.nbh * c.nblocs) (sitePart c dets gs0))
    (hv : ∀ x ∈ r.elim (fun q => q.trace) id, ∃ μ, OnlyState dets.length x.ham μ x.gs)
    (hlow : ∀ k x, (r.elim (fun q => q.trace) id)[k]? = some x → meanValue x.ham x.gs ≤ meanValue x.ham (states.getD k [])) (m : Nat)
    (hm : m < states.length) :
    blockField I c dets o ham (states.getD m []) + I.J * ∑ k ∈ range m, columnChange c dets (states.getD k []) (states.getD (k + 1) []) ≤
      blockField I c dets o ham gs0 := by
  have hev := C152_run E E' sqrt solve fuel I c hc hf B l vb dets hsol hb hn o ho hfour hsq hE ham hH hd eigvals eigvects gs0 h0 hgs0 tol maxIter r h states hst
    h1 hsym hv
  have key := C151_total E sqrt solve fuel I c hc dets hsol hb hn o ho hrev (fun _ => hsq) hE ham hd eigvals eigvects gs0 h0 hgs0 tol maxIter r h hV states hst
    h1 (fun v hvm => (hev v hvm).2) hlow m hm
  have hfac : (nbNeighbours o : K) * (I.J / 4) = I.J := by
    unfold nbNeighbours
    rw [hfour, if_neg (by simp)]
    push_cast
    ring
  rwa [hfac] at key

end

/-- The hypotheses hold for the runs of C74 on the 2×2 block with four up spins. -/
example (B : BoolInteractions) (ham : SpMat ℚ) (hH : buildHamiltonian exEnv (rectConf 1 1 2 0 0) exI [[0, 1, 2, 3]] B [] false = .ok ham) (hd : ham.dim = 1) (n : Nat) (r)
    (h : embeddingBlocks twoEnv sqrtUpTo4 oneSolver 1 exI (rectConf 1 1 2 0 0) ⟨false, false, true, 0⟩ [[0, 1, 2, 3]] ham [0] [[1]] 0 n = .ok r)
    (hg : ∀ x ∈ r.elim (fun q => q.trace) id, x.gs = [1]) :=
  C152_run twoEnv exEnv sqrtUpTo4 oneSolver 1 exI (rectConf 1 1 2 0 0)
    (rectConf_ok _ _ _ _ _ (by decide) (by decide) (by decide)) (by unfold Config.Full; decide +kernel) B [] false [[0, 1, 2, 3]] oneSolver_good rfl (by decide)
    ⟨false, false, true, 0⟩ rfl rfl rfl
    (two_squares_geom 0 0 [[0, 1, 2, 3]] true) ham hH hd [0] [[1]] [1] rfl rfl 0 n r h _ rfl
    (fun v hv => by
      have : v = [1] := by
        rcases List.mem_cons.1 hv with rfl | hv
        · rfl
        · obtain ⟨x, hx, rfl⟩ := List.mem_map.1 hv
          exact hg x hx
      rw [this]; decide +kernel)
    ⟨fun x hx y hy => by
      change x < 2 at hx
      change y < 2 at hy
      funext z
      interval_cases x <;> interval_cases y <;> cases z <;> decide +kernel, fun x hx y hy => by
      change x < 2 at hx
      change y < 2 at hy
      funext z
      interval_cases x <;> interval_cases y <;> cases z <;> decide +kernel⟩
    (fun x hx => ⟨x.ham.entry 0 0, by
      rw [hg x hx]
      refine ⟨fun i hi => ?_, fun u _ => ⟨u 0, fun i hi => ?_⟩⟩
      · obtain rfl : i = 0 := by simpa using hi
        simp
      · obtain rfl : i = 0 := by simpa using hi
        simp⟩)

/-- Such a Hamiltonian exists. -/
example : ((buildHamiltonian exEnv (rectConf 1 1 2 0 0) exI [[0, 1, 2, 3]] ⟨true, true, true, true, true, true⟩ [] false).toOption.map (·.dim)) = some 1 := by decide +kernel

end TJ
