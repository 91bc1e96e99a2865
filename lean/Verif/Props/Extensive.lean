/-
C135: two rectangular lattices put together (/repo/latticeFunctions.py build_rectangular_bond_matrix,
/repo/hamiltonianConstruction.py build_hamiltonian): the lowest energy of the whole lattice is at most the sum of those of the parts.
-/
import Verif.Lemmas.TwoParts
import Verif.Props.Couplings

namespace TJ

open Finset Matrix

section sites
variable {p q n : Nat}

theorem count_parts (e : Fin p ⊕ Fin q ≃ Fin n) (σ : Conf n) (o : Occ) :
    σ.count o = Conf.count (fun a => σ (e (.inl a))) o + Conf.count (fun b => σ (e (.inr b))) o := by
  have h := sum_parts (K := ℚ) e (fun x => if σ x = o then 1 else 0)
  unfold Conf.count
  have c : ∀ {m : Nat} (ρ : Conf m), (∑ x, if ρ x = o then (1 : ℚ) else 0) = ((univ.filter fun s => ρ s = o).card : ℚ) := by
    intro m ρ
    rw [← sum_filter, sum_const, nsmul_eq_mul, mul_one]
  rw [c, c (fun a => σ (e (.inl a))), c (fun b => σ (e (.inr b)))] at h
  exact_mod_cast h

theorem prod_sector {K : Type} [Field K] (e : Fin p ⊕ Fin q ≃ Fin n) {ψ : Conf p → K} {hA bA : Nat} (hψ : InSector hA bA ψ) {χ : Conf q → K} {hB bB : Nat}
    (hχ : InSector hB bB χ) : InSector (hA + hB) (bA + bB) (prodState e ψ χ) := by
  intro σ hσ
  unfold prodState at hσ
  obtain ⟨x1, x2⟩ := hψ _ (left_ne_zero_of_mul hσ)
  obtain ⟨y1, y2⟩ := hχ _ (right_ne_zero_of_mul hσ)
  rw [count_parts e, count_parts e, x1, x2, y1, y2]
  exact ⟨rfl, rfl⟩

theorem grid_split {W k r : Nat} (hr : r < W) : gridPos W (k * W + r) = ((r : Int), (k : Int)) := by
  unfold gridPos
  rw [Nat.mul_comm, Nat.mul_add_mod, Nat.mod_eq_of_lt hr, Nat.mul_add_div (by omega), Nat.div_eq_of_lt hr, Nat.add_zero]

theorem grid_site {W : Nat} (s : Nat) : s = s / W * W + s % W := (Nat.div_add_mod' s W).symm

/-- The sites of two rectangles side by side. -/
def besideFun (W1 W2 : Nat) : Nat ⊕ Nat → Nat
  | .inl a => a / W1 * (W1 + W2) + a % W1
  | .inr b => b / W2 * (W1 + W2) + (W1 + b % W2)

theorem beside_pos {W1 W2 : Nat} (h1 : 0 < W1) (h2 : 0 < W2) :
    (∀ a, gridPos (W1 + W2) (besideFun W1 W2 (.inl a)) = ((gridPos W1 a).1, (gridPos W1 a).2)) ∧
    ∀ b, gridPos (W1 + W2) (besideFun W1 W2 (.inr b)) = ((gridPos W2 b).1 + W1, (gridPos W2 b).2) := by
  constructor
  · intro a
    unfold besideFun
    have := Nat.mod_lt a h1
    rw [grid_split (by omega)]
    rfl
  · intro b
    unfold besideFun
    have := Nat.mod_lt b h2
    rw [grid_split (by omega)]
    unfold gridPos
    rw [Prod.mk.injEq]
    exact ⟨by push_cast; ring, rfl⟩

theorem grid_inj {W : Nat} {s t : Nat} (h : gridPos W s = gridPos W t) : s = t := by
  unfold gridPos at h
  rw [Prod.mk.injEq] at h
  have h1 : s % W = t % W := by exact_mod_cast h.1
  have h2 : s / W = t / W := by exact_mod_cast h.2
  rw [grid_site (W := W) s, grid_site (W := W) t, h1, h2]

theorem grid_bounds {W s : Nat} (h : 0 < W) : 0 ≤ (gridPos W s).1 ∧ (gridPos W s).1 < W ∧ 0 ≤ (gridPos W s).2 := by
  unfold gridPos
  have := Nat.mod_lt s h
  refine ⟨by positivity, ?_, by positivity⟩
  show ((s % W : Nat) : Int) < W
  exact_mod_cast this

theorem beside_lt {W1 W2 H : Nat} (h1 : 0 < W1) (h2 : 0 < W2) :
    (∀ a, a < W1 * H → besideFun W1 W2 (.inl a) < (W1 + W2) * H) ∧ ∀ b, b < W2 * H → besideFun W1 W2 (.inr b) < (W1 + W2) * H := by
  constructor
  · intro a ha
    have m := Nat.mod_lt a h1
    have d : a / W1 < H := Nat.div_lt_of_lt_mul ha
    unfold besideFun
    have : (a / W1 + 1) * (W1 + W2) ≤ H * (W1 + W2) := Nat.mul_le_mul_right _ d
    dsimp only
    nlinarith
  · intro b hb
    have m := Nat.mod_lt b h2
    have d : b / W2 < H := Nat.div_lt_of_lt_mul hb
    unfold besideFun
    have : (b / W2 + 1) * (W1 + W2) ≤ H * (W1 + W2) := Nat.mul_le_mul_right _ d
    dsimp only
    nlinarith

theorem split_lt {W k r k' r' : Nat} (hr : r < W) (hr' : r' < W) : k * W + r < k' * W + r' ↔ k < k' ∨ k = k' ∧ r < r' := by
  constructor
  · intro h
    rcases lt_trichotomy k k' with h1 | h1 | h1
    · exact .inl h1
    · subst h1; exact .inr ⟨rfl, by omega⟩
    · have : (k' + 1) * W ≤ k * W := Nat.mul_le_mul_right _ h1
      exfalso; nlinarith
  · rintro (h1 | ⟨rfl, h1⟩)
    · have : (k + 1) * W ≤ k' * W := Nat.mul_le_mul_right _ h1
      nlinarith
    · omega

/-- Two rectangles side by side. -/
theorem beside_parts {W1 W2 H : Nat} (h1 : 0 < W1) (h2 : 0 < W2) (hp : p = W1 * H) (hq : q = W2 * H) (hn : n = (W1 + W2) * H) :
    ∃ e : Fin p ⊕ Fin q ≃ Fin n, TwoParts e (fun s => gridPos (W1 + W2) s) (fun s => gridPos W1 s) (fun s => gridPos W2 s) (0, 0) (W1, 0) := by
  obtain ⟨l1, l2⟩ := beside_lt (H := H) h1 h2
  obtain ⟨p1, p2⟩ := beside_pos h1 h2
  let f : Fin p ⊕ Fin q → Fin n := Sum.elim (fun a => ⟨besideFun W1 W2 (.inl a), hn ▸ l1 a (hp ▸ a.2)⟩) (fun b => ⟨besideFun W1 W2 (.inr b), hn ▸ l2 b (hq ▸ b.2)⟩)
  have fl : ∀ a : Fin p, ((f (.inl a) : Fin n) : Nat) = besideFun W1 W2 (.inl a) := fun _ => rfl
  have fr : ∀ b : Fin q, ((f (.inr b) : Fin n) : Nat) = besideFun W1 W2 (.inr b) := fun _ => rfl
  have hf : Function.Injective f := by
    rintro (a | a) (b | b) hab
    · have := congrArg (fun x : Fin n => gridPos (W1 + W2) x) hab
      simp only [fl, p1] at this
      exact congrArg _ (Fin.ext (grid_inj this))
    · have := congrArg (fun x : Fin n => gridPos (W1 + W2) x) hab
      simp only [fl, fr, p1, p2] at this
      rw [Prod.mk.injEq] at this
      have x1 := grid_bounds (s := a) h1
      have x2 := grid_bounds (s := b) h2
      omega
    · have := congrArg (fun x : Fin n => gridPos (W1 + W2) x) hab
      simp only [fl, fr, p1, p2] at this
      rw [Prod.mk.injEq] at this
      have x1 := grid_bounds (s := b) h1
      have x2 := grid_bounds (s := a) h2
      omega
    · have := congrArg (fun x : Fin n => gridPos (W1 + W2) x) hab
      simp only [fr, p2] at this
      rw [Prod.mk.injEq] at this
      exact congrArg _ (Fin.ext (grid_inj (W := W2) (Prod.ext (by omega) this.2)))
  have hbij : Function.Bijective f := (Fintype.bijective_iff_injective_and_card f).2 ⟨hf, by simp [hp, hq, hn]; ring⟩
  refine ⟨Equiv.ofBijective f hbij, ?_, ?_, ?_, ?_, ?_, ?_⟩
  all_goals simp only [Equiv.ofBijective_apply, Fin.lt_def, fl, fr, p1, p2]
  · intro a; rw [add_zero, add_zero]
  · intro b; rw [add_zero]
  · intro a a'
    unfold besideFun
    have m := Nat.mod_lt a h1
    have m' := Nat.mod_lt a' h1
    conv_rhs => rw [grid_site (W := W1) a, grid_site (W := W1) a']
    rw [split_lt (by omega) (by omega), split_lt m m']
  · intro b b'
    unfold besideFun
    have m := Nat.mod_lt b h2
    have m' := Nat.mod_lt b' h2
    conv_rhs => rw [grid_site (W := W2) b, grid_site (W := W2) b']
    rw [split_lt (by omega) (by omega), split_lt m m', Nat.add_lt_add_iff_left]
  · intro a a' b ha hb
    have x1 := grid_bounds (s := a) h1
    have x2 := grid_bounds (s := a') h1
    have x3 := grid_bounds (s := b) h2
    unfold Near at ha hb
    dsimp only at ha hb
    exact Fin.ext (grid_inj (W := W1) (Prod.ext (by omega) (by omega)))
  · intro a b b' ha hb
    have x1 := grid_bounds (s := a) h1
    have x2 := grid_bounds (s := b) h2
    have x3 := grid_bounds (s := b') h2
    unfold Near at ha hb
    dsimp only at ha hb
    exact Fin.ext (grid_inj (W := W2) (Prod.ext (by omega) (by omega)))

/-- One rectangle on top of another. -/
theorem stacked_parts {W H1 H2 : Nat} (hW : 0 < W) (hp : p = W * H1) (hq : q = W * H2) (hn : n = W * (H1 + H2)) :
    ∃ e : Fin p ⊕ Fin q ≃ Fin n, TwoParts e (fun s => gridPos W s) (fun s => gridPos W s) (fun s => gridPos W s) (0, 0) (0, H1) := by
  have hn' : p + q = n := by rw [hp, hq, hn]; ring
  let e : Fin p ⊕ Fin q ≃ Fin n := finSumFinEquiv.trans (finCongr hn')
  have el : ∀ a : Fin p, ((e (.inl a) : Fin n) : Nat) = a := fun a => by simp [e]
  have er : ∀ b : Fin q, ((e (.inr b) : Fin n) : Nat) = p + b := fun b => by simp [e]
  have top : ∀ b : Nat, gridPos W (p + b) = ((gridPos W b).1, (gridPos W b).2 + H1) := by
    intro b
    unfold gridPos
    rw [hp, Nat.mul_add_mod, Nat.mul_add_div hW, Prod.mk.injEq]
    exact ⟨rfl, by push_cast; ring⟩
  have low : ∀ a : Fin p, (gridPos W a).2 < H1 := by
    intro a
    unfold gridPos
    have : (a : Nat) / W < H1 := Nat.div_lt_of_lt_mul (hp ▸ a.2)
    show (((a : Nat) / W : Nat) : Int) < H1
    exact_mod_cast this
  refine ⟨e, ?_, ?_, ?_, ?_, ?_, ?_⟩
  all_goals simp only [Fin.lt_def, el, er, top]
  · intro a; rw [add_zero, add_zero]
  · intro b; rw [add_zero]
  · intro a a'; trivial
  · intro b b'; rw [Nat.add_lt_add_iff_left]
  · intro a a' b ha hb
    have x1 := low a
    have x2 := low a'
    have x3 := grid_bounds (s := b) hW
    unfold Near at ha hb
    dsimp only at ha hb
    exact Fin.ext (grid_inj (W := W) (Prod.ext (by omega) (by omega)))
  · intro a b b' ha hb
    have x1 := low a
    have x2 := grid_bounds (s := b) hW
    have x3 := grid_bounds (s := b') hW
    unfold Near at ha hb
    dsimp only at ha hb
    exact Fin.ext (grid_inj (W := W) (Prod.ext (by omega) (by omega)))

end sites

section
variable {K : Type} [Field K] [LinearOrder K] [IsStrictOrderedRing K]

/-- What the repulsions of holes on both sides of a cut of `L` bonds can add: nothing without the repulsion or if one part has no hole. -/
def cutCost (B : BoolInteractions) (hA hB L : Nat) (I : Interactions K) : K :=
  if B.bV = false ∨ hA = 0 ∨ hB = 0 then 0 else L * max I.VNN 0 + (2 * (L - 1) : Nat) * max I.VNNNper 0

omit [LinearOrder K] [IsStrictOrderedRing K] in
theorem state_surj {c : Config} {dets : List (List Nat)} (hb : constructBasis c = .ok dets) (hn : c.nholes + c.nbeta ≤ c.nsites) {d : Nat}
    (hd : d = dets.length) {φ : Conf c.nsites → K} (hφ : InSector c.nholes c.nbeta φ) : ∃ z : Fin d → K, state c dets z = φ := by
  subst hd
  refine ⟨fun i => φ (conf c dets[i]), ?_⟩
  funext σ
  by_cases h : σ.count .hole = c.nholes ∧ σ.count .down = c.nbeta
  · obtain ⟨k, hk, rfl⟩ := exists_conf hb hn h.1 h.2
    rw [state_conf hb _ rfl hk]
    rfl
  · rw [state, amp_outside hb hn _ h]
    by_contra hne
    exact h (hφ σ (Ne.symm hne))

/-- The lowest energy of a lattice with two parts. -/
theorem joined_energy (E : Env) {cA cB c : Config} {wA vA nA wB vB nB w v n : Nat} (hcA : RectConf cA wA vA nA) (hcB : RectConf cB wB vB nB)
    (hc : RectConf c w v n) (hfA : cA.Full) (hfB : cB.Full) (hf : c.Full) (hnA : cA.nholes + cA.nbeta ≤ cA.nsites)
    (hnB : cB.nholes + cB.nbeta ≤ cB.nsites) (hh : c.nholes = cA.nholes + cB.nholes) (hd : c.nbeta = cA.nbeta + cB.nbeta)
    {e : Fin cA.nsites ⊕ Fin cB.nsites ≃ Fin c.nsites} {u u' : Pt}
    (he : TwoParts e (fun s => gridPos (w * n) s) (fun s => gridPos (wA * nA) s) (fun s => gridPos (wB * nB) s) u u')
    {I : Interactions K} (hI : Growing I) (B : BoolInteractions) (hBz : B.bij = true → B.bz = true) (X : K)
    (hX : (B.bV = false ∨ cA.nholes = 0 ∨ cB.nholes = 0) ∧ X = 0 ∨ X = crossCost e (fun s => gridPos (w * n) s) I)
    {r r' r'' : List Nat} {b b' b'' : Bool} {detsA detsB dets : List (List Nat)} (hbA : constructBasis cA = .ok detsA)
    (hbB : constructBasis cB = .ok detsB) (hb : constructBasis c = .ok dets) {HA HB H : SpMat K}
    (hHA : buildHamiltonian E cA I detsA B r b = .ok HA) (hHB : buildHamiltonian E cB I detsB B r' b' = .ok HB)
    (hH : buildHamiltonian E c I dets B r'' b'' = .ok H) {zA : Fin HA.dim → K} {zB : Fin HB.dim → K} {mA mB : K} (hzA : zA ≠ 0) (hzB : zB ≠ 0)
    (heA : HA.toMatrix *ᵥ zA = mA • zA) (heB : HB.toMatrix *ᵥ zB = mB • zB) {mu : Fin H.dim → K} {y : Fin H.dim → Fin H.dim → K}
    (hy : ∀ k, H.toMatrix *ᵥ y k = mu k • y k) (hyo : ∀ i j, y i ⬝ᵥ y j = if i = j then 1 else 0) {m : K} (hm : ∀ k, m ≤ mu k) :
    m ≤ mA + mB + X := by
  have hn : c.nholes + c.nbeta ≤ c.nsites := by
    have : cA.nsites + cB.nsites = c.nsites := by simpa using Fintype.card_congr e
    omega
  obtain ⟨d1, d2, d3⟩ := built_form hc hf hn hb hH
  obtain ⟨a1, a2, a3⟩ := built_form hcA hfA hnA hbA hHA
  obtain ⟨b1, b2, b3⟩ := built_form hcB hfB hnB hbB hHB
  have sA := state_sector hbA hnA zA
  have sB := state_sector hbB hnB zB
  have sP := prod_sector e sA sB
  rw [← hh, ← hd] at sP
  obtain ⟨z, hz⟩ := state_surj hb hn d1 sP
  have l1 := lowest_le_quotient d2 hy hyo m hm z
  rw [d3 z, hz, state_dot hb hn d1, hz, norm_prod] at l1
  have l2 := form_joined he sA sB hI B hBz X hX
  have qA := a3 zA
  have qB := b3 zB
  rw [heA, dotProduct_smul, smul_eq_mul, state_dot hbA hnA a1] at qA
  rw [heB, dotProduct_smul, smul_eq_mul, state_dot hbB hnB b1] at qB
  rw [← qA, ← qB] at l2
  have pA : 0 < zA ⬝ᵥ zA := by
    obtain ⟨i, hi⟩ := Function.ne_iff.1 hzA
    exact sum_pos' (fun i _ => mul_self_nonneg _) ⟨i, mem_univ i, mul_self_pos.2 hi⟩
  have pB : 0 < zB ⬝ᵥ zB := by
    obtain ⟨i, hi⟩ := Function.ne_iff.1 hzB
    exact sum_pos' (fun i _ => mul_self_nonneg _) ⟨i, mem_univ i, mul_self_pos.2 hi⟩
  rw [state_dot hbA hnA a1] at pA
  rw [state_dot hbB hnB b1] at pB
  refine le_of_mul_le_mul_right ?_ (mul_pos pA pB)
  refine l1.trans (l2.trans (le_of_eq ?_))
  ring

theorem cut_near {W1 W2 L N : Nat} (h1 : 0 < W1) (h2 : 0 < W2) (h3 : 0 < L)
    (h : (W1 + W2) * (L - 1) + L * (W1 + W2 - 1) = (W1 * (L - 1) + L * (W1 - 1)) + (W2 * (L - 1) + L * (W2 - 1)) + N) : N = L := by
  obtain ⟨x, rfl⟩ := Nat.exists_eq_add_of_le' h1
  obtain ⟨y, rfl⟩ := Nat.exists_eq_add_of_le' h2
  obtain ⟨l, rfl⟩ := Nat.exists_eq_add_of_le' h3
  rw [show x + 1 + (y + 1) - 1 = x + y + 1 by omega] at h
  simp only [Nat.add_sub_cancel] at h
  nlinarith

theorem cut_diag {W1 W2 L N : Nat} (h1 : 0 < W1) (h2 : 0 < W2) (h3 : 0 < L)
    (h : 2 * ((W1 + W2 - 1) * (L - 1)) = 2 * ((W1 - 1) * (L - 1)) + 2 * ((W2 - 1) * (L - 1)) + N) : N = 2 * (L - 1) := by
  obtain ⟨x, rfl⟩ := Nat.exists_eq_add_of_le' h1
  obtain ⟨y, rfl⟩ := Nat.exists_eq_add_of_le' h2
  obtain ⟨l, rfl⟩ := Nat.exists_eq_add_of_le' h3
  rw [show x + 1 + (y + 1) - 1 = x + y + 1 by omega] at h
  simp only [Nat.add_sub_cancel] at h ⊢
  nlinarith

/-- C135. Two rectangular lattices of the same height side by side: the lowest energy of the whole lattice, in the sector with the holes and the down
spins of both, is at most the sum of any two energies of the parts, plus what the repulsions across the cut can add. The exchange couplings are
antiferromagnetic and do not fall when holes come next to the bond. -/
theorem C135_side_by_side (E : Env) (cA cB c : Config) (wA wB v n : Nat) (hcA : RectConf cA wA v n) (hcB : RectConf cB wB v n)
    (hc : RectConf c (wA + wB) v n) (hfA : cA.Full) (hfB : cB.Full) (hf : c.Full) (hnA : cA.nholes + cA.nbeta ≤ cA.nsites)
    (hnB : cB.nholes + cB.nbeta ≤ cB.nsites) (hh : c.nholes = cA.nholes + cB.nholes) (hd : c.nbeta = cA.nbeta + cB.nbeta)
    (I : Interactions K) (hJ : 0 ≤ I.J) (hJper : I.J ≤ I.Jhper) (hJpar : I.Jhper ≤ I.Jhpar) (B : BoolInteractions) (hBz : B.bij = true → B.bz = true)
    (r r' r'' : List Nat) (b b' b'' : Bool) (detsA detsB dets : List (List Nat)) (hbA : constructBasis cA = .ok detsA)
    (hbB : constructBasis cB = .ok detsB) (hb : constructBasis c = .ok dets) (HA HB H : SpMat K)
    (hHA : buildHamiltonian E cA I detsA B r b = .ok HA) (hHB : buildHamiltonian E cB I detsB B r' b' = .ok HB)
    (hH : buildHamiltonian E c I dets B r'' b'' = .ok H) (zA : Fin HA.dim → K) (zB : Fin HB.dim → K) (mA mB : K) (hzA : zA ≠ 0) (hzB : zB ≠ 0)
    (heA : HA.toMatrix *ᵥ zA = mA • zA) (heB : HB.toMatrix *ᵥ zB = mB • zB) (mu : Fin H.dim → K) (y : Fin H.dim → Fin H.dim → K)
    (hy : ∀ k, H.toMatrix *ᵥ y k = mu k • y k) (hyo : ∀ i j, y i ⬝ᵥ y j = if i = j then 1 else 0) (m : K) (hm : ∀ k, m ≤ mu k) :
    m ≤ mA + mB + cutCost B cA.nholes cB.nholes (v * n) I := by
  have hWA : 0 < wA * n := Nat.mul_pos hcA.hh hcA.hb
  have hWB : 0 < wB * n := Nat.mul_pos hcB.hh hcB.hb
  have hL : 0 < v * n := Nat.mul_pos hc.hv hc.hb
  obtain ⟨e, he⟩ := beside_parts (n := c.nsites) (H := v * n) hWA hWB hcA.spec.1 hcB.spec.1 (by rw [← Nat.add_mul]; exact hc.spec.1)
  rw [← Nat.add_mul] at he
  refine joined_energy E hcA hcB hc hfA hfB hf hnA hnB hh hd he ⟨hJ, hJper, hJpar⟩ B hBz _ ?_ hbA hbB hb hHA hHB hH hzA hzB heA heB hy hyo hm
  unfold cutCost
  split_ifs with h0
  · exact .inl ⟨h0, rfl⟩
  · right
    have k1 := card_near_parts he
    have k2 := card_diag_parts he
    rw [card_nearPairs (Nat.mul_pos hc.hh hc.hb) hc.spec.1, card_nearPairs hWA hcA.spec.1, card_nearPairs hWB hcB.spec.1] at k1
    rw [card_diagonalPairs (Nat.mul_pos hc.hh hc.hb) hc.spec.1, card_diagonalPairs hWA hcA.spec.1, card_diagonalPairs hWB hcB.spec.1] at k2
    unfold crossCost
    have t1 : crossNear e (fun s => gridPos ((wA + wB) * n) s) = v * n := cut_near hWA hWB hL (by rw [← Nat.add_mul]; exact k1)
    have t2 : crossDiag e (fun s => gridPos ((wA + wB) * n) s) = 2 * (v * n - 1) := cut_diag hWA hWB hL (by rw [← Nat.add_mul]; exact k2)
    rw [t1, t2]

/-- C135. The same for one rectangular lattice on top of another of the same width. -/
theorem C135_stacked (E : Env) (cA cB c : Config) (w vA vB n : Nat) (hcA : RectConf cA w vA n) (hcB : RectConf cB w vB n)
    (hc : RectConf c w (vA + vB) n) (hfA : cA.Full) (hfB : cB.Full) (hf : c.Full) (hnA : cA.nholes + cA.nbeta ≤ cA.nsites)
    (hnB : cB.nholes + cB.nbeta ≤ cB.nsites) (hh : c.nholes = cA.nholes + cB.nholes) (hd : c.nbeta = cA.nbeta + cB.nbeta)
    (I : Interactions K) (hJ : 0 ≤ I.J) (hJper : I.J ≤ I.Jhper) (hJpar : I.Jhper ≤ I.Jhpar) (B : BoolInteractions) (hBz : B.bij = true → B.bz = true)
    (r r' r'' : List Nat) (b b' b'' : Bool) (detsA detsB dets : List (List Nat)) (hbA : constructBasis cA = .ok detsA)
    (hbB : constructBasis cB = .ok detsB) (hb : constructBasis c = .ok dets) (HA HB H : SpMat K)
    (hHA : buildHamiltonian E cA I detsA B r b = .ok HA) (hHB : buildHamiltonian E cB I detsB B r' b' = .ok HB)
    (hH : buildHamiltonian E c I dets B r'' b'' = .ok H) (zA : Fin HA.dim → K) (zB : Fin HB.dim → K) (mA mB : K) (hzA : zA ≠ 0) (hzB : zB ≠ 0)
    (heA : HA.toMatrix *ᵥ zA = mA • zA) (heB : HB.toMatrix *ᵥ zB = mB • zB) (mu : Fin H.dim → K) (y : Fin H.dim → Fin H.dim → K)
    (hy : ∀ k, H.toMatrix *ᵥ y k = mu k • y k) (hyo : ∀ i j, y i ⬝ᵥ y j = if i = j then 1 else 0) (m : K) (hm : ∀ k, m ≤ mu k) :
    m ≤ mA + mB + cutCost B cA.nholes cB.nholes (w * n) I := by
  have hLA : 0 < vA * n := Nat.mul_pos hcA.hv hcA.hb
  have hLB : 0 < vB * n := Nat.mul_pos hcB.hv hcB.hb
  have hW : 0 < w * n := Nat.mul_pos hc.hh hc.hb
  obtain ⟨e, he⟩ := stacked_parts (n := c.nsites) hW hcA.spec.1 hcB.spec.1 (by rw [← Nat.add_mul]; exact hc.spec.1)
  refine joined_energy E hcA hcB hc hfA hfB hf hnA hnB hh hd he ⟨hJ, hJper, hJpar⟩ B hBz _ ?_ hbA hbB hb hHA hHB hH hzA hzB heA heB hy hyo hm
  unfold cutCost
  split_ifs with h0
  · exact .inl ⟨h0, rfl⟩
  · right
    have k1 := card_near_parts he
    have k2 := card_diag_parts he
    rw [card_nearPairs hW hc.spec.1, card_nearPairs hW hcA.spec.1, card_nearPairs hW hcB.spec.1] at k1
    rw [card_diagonalPairs hW hc.spec.1, card_diagonalPairs hW hcA.spec.1, card_diagonalPairs hW hcB.spec.1] at k2
    rw [Nat.add_mul] at k1 k2
    unfold crossCost
    have t1 : crossNear e (fun s => gridPos (w * n) s) = w * n := cut_near hLA hLB hW (by linarith)
    have t2 : crossDiag e (fun s => gridPos (w * n) s) = 2 * (w * n - 1) := cut_diag hLA hLB hW (by simp only [mul_comm _ (w * n - 1)]; exact k2)
    rw [t1, t2]

end

/-- Every sector has a lowest energy. -/
theorem exists_ground (E : Env) {c : Config} {w v n : Nat} (hc : RectConf c w v n) (hf : c.Full) (hn : c.nholes + c.nbeta ≤ c.nsites)
    {I : Interactions ℝ} {B : BoolInteractions} {r : List Nat} {b : Bool} {dets : List (List Nat)} (hb : constructBasis c = .ok dets) {H : SpMat ℝ}
    (hH : buildHamiltonian E c I dets B r b = .ok H) : ∃ (mu : Fin H.dim → ℝ) (y : Fin H.dim → Fin H.dim → ℝ) (k : Fin H.dim),
      (∀ k, H.toMatrix *ᵥ y k = mu k • y k) ∧ (∀ i j, y i ⬝ᵥ y j = if i = j then 1 else 0) ∧ (∀ j, mu k ≤ mu j) ∧ y k ≠ 0 := by
  obtain ⟨d1, d2, _⟩ := built_form hc hf hn hb hH
  obtain ⟨mu, y, h1, h2, h3⟩ := exists_sorted H.toMatrix d2
  have h0 : 0 < H.dim := by
    rw [d1, C02_dimension c _ hb, C02_dimension_value, if_pos hn]
    exact Nat.mul_pos (Nat.choose_pos (by omega)) (Nat.choose_pos (by omega))
  refine ⟨mu, y, ⟨0, h0⟩, h1, h2, fun j => h3 (Fin.mk_le_of_le_val (Nat.zero_le _)), fun hz => ?_⟩
  have := h2 ⟨0, h0⟩ ⟨0, h0⟩
  rw [hz] at this
  simp at this

theorem rectConf_full (w v n h b : Nat) (h1 : 1 ≤ w) (h2 : 1 ≤ v) (h3 : 1 ≤ n) :
    (rectConf w v n h b).Full ∧ (rectConf w v n h b).nholes = h ∧ (rectConf w v n h b).nbeta = b ∧
      (rectConf w v n h b).nsites = (w * n) * (v * n) := by
  have hs := (rectConf_ok w v n h b h1 h2 h3).spec.1
  obtain ⟨m, a, _⟩ := rect_eq w v n h1 h2 h3
  have e : rectConf w v n h b = ⟨m, h, b, (List.range m.rows, List.range m.rows), .periodic, w, v, n⟩ := by unfold rectConf; rw [a]
  refine ⟨?_, ?_, ?_, hs⟩
  · rw [e]
    intro s hs
    exact ⟨List.mem_range.2 hs, List.mem_range.2 hs⟩
  · rw [e]
  · rw [e]

/-- C135. A row of `k` copies of a rectangular lattice, each with the same numbers of holes and of down spins, has an energy that is at most `k` times
any energy of one copy, plus what the repulsions across the `k - 1` cuts can add: the energies grow at most in proportion to the size. -/
theorem C135_copies (E : Env) (w v n h b : Nat) (hw : 1 ≤ w) (hv : 1 ≤ v) (hn : 1 ≤ n) (hs : h + b ≤ (w * n) * (v * n)) (I : Interactions ℝ)
    (hJ : 0 ≤ I.J) (hJper : I.J ≤ I.Jhper) (hJpar : I.Jhper ≤ I.Jhpar) (B : BoolInteractions) (hBz : B.bij = true → B.bz = true) (r : List Nat) (d : Bool)
    (dets : List (List Nat)) (hb : constructBasis (rectConf w v n h b) = .ok dets) (H : SpMat ℝ)
    (hH : buildHamiltonian E (rectConf w v n h b) I dets B r d = .ok H) (z : Fin H.dim → ℝ) (m : ℝ) (hz : z ≠ 0) (he : H.toMatrix *ᵥ z = m • z) (k : Nat) :
    ∃ dets' H', constructBasis (rectConf ((k + 1) * w) v n ((k + 1) * h) ((k + 1) * b)) = .ok dets' ∧
      buildHamiltonian E (rectConf ((k + 1) * w) v n ((k + 1) * h) ((k + 1) * b)) I dets' B r d = .ok H' ∧
      ∃ (m' : ℝ) (z' : Fin H'.dim → ℝ), z' ≠ 0 ∧ H'.toMatrix *ᵥ z' = m' • z' ∧ m' ≤ (k + 1) * m + k * cutCost B h h (v * n) I := by
  induction k with
  | zero =>
    rw [Nat.zero_add, Nat.one_mul, Nat.one_mul, Nat.one_mul]
    exact ⟨dets, H, hb, hH, m, z, hz, he, by simp⟩
  | succ k ih =>
    obtain ⟨dets', H', hb', hH', m', z', hz', he', hm'⟩ := ih
    have hk : 1 ≤ (k + 1) * w := Nat.mul_pos (by omega) hw
    have hk2 : 1 ≤ (k + 1 + 1) * w := Nat.mul_pos (by omega) hw
    obtain ⟨f1, g1, g2, g3⟩ := rectConf_full w v n h b hw hv hn
    obtain ⟨f2, i1, i2, i3⟩ := rectConf_full ((k + 1) * w) v n ((k + 1) * h) ((k + 1) * b) hk hv hn
    obtain ⟨f3, j1, j2, j3⟩ := rectConf_full ((k + 1 + 1) * w) v n ((k + 1 + 1) * h) ((k + 1 + 1) * b) hk2 hv hn
    have fits : ∀ x : Nat, x * h + x * b ≤ (x * w * n) * (v * n) := by
      intro x
      rw [← Nat.mul_add, Nat.mul_assoc, Nat.mul_assoc]
      refine Nat.mul_le_mul_left _ ?_
      rw [← Nat.mul_assoc]
      exact hs
    have r3 := rectConf_ok ((k + 1 + 1) * w) v n ((k + 1 + 1) * h) ((k + 1 + 1) * b) hk2 hv hn
    have n3 : (rectConf ((k + 1 + 1) * w) v n ((k + 1 + 1) * h) ((k + 1 + 1) * b)).nholes + (rectConf ((k + 1 + 1) * w) v n ((k + 1 + 1) * h) ((k + 1 + 1) * b)).nbeta ≤
        (rectConf ((k + 1 + 1) * w) v n ((k + 1 + 1) * h) ((k + 1 + 1) * b)).nsites := by rw [j1, j2, j3]; exact fits _
    obtain ⟨dets'', H'', hb'', hH'', _⟩ := C30_no_failure E _ _ v n r3 f3 n3 I B r d
    obtain ⟨mu, y, l, y1, y2, y3, y4⟩ := exists_ground E r3 f3 n3 hb'' hH''
    refine ⟨dets'', H'', hb'', hH'', mu l, y l, y4, y1 l, ?_⟩
    have key := C135_side_by_side E _ _ _ ((k + 1) * w) w v n (rectConf_ok ((k + 1) * w) v n ((k + 1) * h) ((k + 1) * b) hk hv hn)
      (rectConf_ok w v n h b hw hv hn) (by rw [← Nat.succ_mul]; exact r3) f2 f1 f3 (by rw [i1, i2, i3]; exact fits _) (by rw [g1, g2, g3]; exact hs)
      (by rw [i1, g1, j1]; ring) (by rw [i2, g2, j2]; ring) I hJ hJper hJpar B hBz r r r d d d dets' dets dets'' hb' hb hb'' H' H H'' hH' hH hH''
      z' z m' m hz' hz he' he mu y y1 y2 (mu l) y3
    rw [i1, g1] at key
    have hcut : cutCost B ((k + 1) * h) h (v * n) I = cutCost B h h (v * n) I := by
      unfold cutCost
      have : (k + 1) * h = 0 ↔ h = 0 := by simp
      simp only [this]
    rw [hcut] at key
    push_cast
    linarith

/-- Exchange couplings that vanish next to a hole. -/
def exQuenched : Interactions ℚ := ⟨0, 1, 0, 0, 0, 0, 0, 0, 0, 0⟩

/-- C135. The condition on the exchange couplings is needed: if the exchange vanishes next to a hole, two sites with a singlet have the energy -1 and one
site with a hole has the energy 0, while every energy of the row of three sites with one hole and one down spin is 0. -/
theorem C135_condition : ∃ HA HB H : SpMat ℚ,
    buildHamiltonian exEnv (rectConf 2 1 1 0 1) exQuenched (basisList 2 0 1) ⟨true, true, true, true, true, true⟩ = .ok HA ∧
    buildHamiltonian exEnv (rectConf 1 1 1 1 0) exQuenched (basisList 1 1 0) ⟨true, true, true, true, true, true⟩ = .ok HB ∧
    buildHamiltonian exEnv (rectConf (2 + 1) 1 1 (0 + 1) (1 + 0)) exQuenched (basisList 3 1 1) ⟨true, true, true, true, true, true⟩ = .ok H ∧
    (∃ z, z ≠ 0 ∧ HA.toMatrix *ᵥ z = (-1 : ℚ) • z) ∧ (∃ z, z ≠ 0 ∧ HB.toMatrix *ᵥ z = (0 : ℚ) • z) ∧
    H.dim = 6 ∧ ∀ (m : ℚ) z, z ≠ 0 → H.toMatrix *ᵥ z = m • z → m = 0 := by
  have tA : (buildHamiltonian exEnv (rectConf 2 1 1 0 1) exQuenched (basisList 2 0 1) ⟨true, true, true, true, true, true⟩).map
      (fun H => (H.dim, H.entry 0 0, H.entry 0 1, H.entry 1 0, H.entry 1 1)) = .ok (2, -1 / 2, 1 / 2, 1 / 2, -1 / 2) := by decide +kernel
  have tB : (buildHamiltonian exEnv (rectConf 1 1 1 1 0) exQuenched (basisList 1 1 0) ⟨true, true, true, true, true, true⟩).map
      (fun H => (H.dim, H.entry 0 0)) = .ok (1, 0) := by decide +kernel
  have tC : (buildHamiltonian exEnv (rectConf (2 + 1) 1 1 (0 + 1) (1 + 0)) exQuenched (basisList 3 1 1) ⟨true, true, true, true, true, true⟩).map
      (fun H => (H.dim, (List.range 6).all fun i => (List.range 6).all fun j => H.entry i j = 0)) = .ok (6, true) := by decide +kernel
  cases hA : buildHamiltonian exEnv (rectConf 2 1 1 0 1) exQuenched (basisList 2 0 1) ⟨true, true, true, true, true, true⟩ with
  | error x => rw [hA] at tA; exact absurd tA (by simp [Except.map])
  | ok HA =>
  cases hB : buildHamiltonian exEnv (rectConf 1 1 1 1 0) exQuenched (basisList 1 1 0) ⟨true, true, true, true, true, true⟩ with
  | error x => rw [hB] at tB; exact absurd tB (by simp [Except.map])
  | ok HB =>
  cases hC : buildHamiltonian exEnv (rectConf (2 + 1) 1 1 (0 + 1) (1 + 0)) exQuenched (basisList 3 1 1) ⟨true, true, true, true, true, true⟩ with
  | error x => rw [hC] at tC; exact absurd tC (by simp [Except.map])
  | ok H =>
  rw [hA] at tA
  rw [hB] at tB
  rw [hC] at tC
  have tA := Except.ok.inj tA
  have tB := Except.ok.inj tB
  have tC := Except.ok.inj tC
  simp only [Prod.mk.injEq] at tA tB tC
  refine ⟨HA, HB, H, rfl, rfl, rfl, ?_, ?_, tC.1, ?_⟩
  · obtain ⟨d, coo⟩ := HA
    obtain ⟨h1, h2, h3, h4, h5⟩ := tA
    dsimp only at h1
    subst h1
    refine ⟨![1, -1], fun h => absurd (congrFun h 0) (by simp), ?_⟩
    funext i
    fin_cases i
    · simp [mulVec, dotProduct, SpMat.toMatrix, Fin.sum_univ_two, h2, h3]; norm_num
    · simp [mulVec, dotProduct, SpMat.toMatrix, Fin.sum_univ_two, h4, h5]; norm_num
  · obtain ⟨d, coo⟩ := HB
    obtain ⟨h1, h2⟩ := tB
    dsimp only at h1
    subst h1
    refine ⟨![1], fun h => absurd (congrFun h 0) (by simp), ?_⟩
    funext i
    fin_cases i
    simp [mulVec, dotProduct, SpMat.toMatrix, h2]
  · intro m z hz he
    obtain ⟨i, hi⟩ := Function.ne_iff.1 hz
    have h0 := congrFun he i
    have : H.toMatrix i = 0 := by
      funext j
      have := tC.2
      simp only [List.all_eq_true, List.mem_range, decide_eq_true_eq] at this
      exact this i (tC.1 ▸ i.2) j (tC.1 ▸ j.2)
    rw [mulVec, this, zero_dotProduct] at h0
    exact (mul_eq_zero.1 h0.symm).resolve_right hi

/-- Exchange couplings that grow next to a hole, and repulsions. -/
noncomputable def exGrown : Interactions ℝ := ⟨1, 1, 3, 2, 1, 1, 1, 1, 1, 1⟩

/-- A row of `k + 1` squares with one hole and one down spin each: every energy of a square bounds one of the row. The cut has 2 pairs of neighbours
and 2 diagonal pairs. -/
example (k : Nat) : ∃ (dets : List (List Nat)) (H : SpMat ℝ) (m : ℝ) (dets' : List (List Nat)) (H' : SpMat ℝ) (m' : ℝ) (z' : Fin H'.dim → ℝ),
    constructBasis (rectConf 2 2 1 1 1) = .ok dets ∧ buildHamiltonian exEnv (rectConf 2 2 1 1 1) exGrown dets ⟨true, true, true, true, true, true⟩ [] true = .ok H ∧
    Module.End.HasEigenvalue (Matrix.toLin' H.toMatrix) m ∧
    buildHamiltonian exEnv (rectConf ((k + 1) * 2) 2 1 ((k + 1) * 1) ((k + 1) * 1)) exGrown dets' ⟨true, true, true, true, true, true⟩ [] true = .ok H' ∧ z' ≠ 0 ∧
    H'.toMatrix *ᵥ z' = m' • z' ∧ m' ≤ (k + 1) * m + k * 4 := by
  obtain ⟨hf, h1, h2, h3⟩ := rectConf_full 2 2 1 1 1 (by decide) (by decide) (by decide)
  have hc := rectConf_ok 2 2 1 1 1 (by decide) (by decide) (by decide)
  have hn : (rectConf 2 2 1 1 1).nholes + (rectConf 2 2 1 1 1).nbeta ≤ (rectConf 2 2 1 1 1).nsites := by rw [h1, h2, h3]; decide
  obtain ⟨dets, H, hb, hH, _⟩ := C30_no_failure exEnv _ 2 2 1 hc hf hn exGrown ⟨true, true, true, true, true, true⟩ [] true
  obtain ⟨mu, y, l, y1, y2, y3, y4⟩ := exists_ground exEnv hc hf hn hb hH
  obtain ⟨dets', H', _, hH', m', z', hz', he', hm'⟩ := C135_copies exEnv 2 2 1 1 1 (by decide) (by decide) (by decide) (by decide) exGrown
    (by simp [exGrown]) (by simp [exGrown]) (by simp only [exGrown]; norm_num) _ (fun _ => rfl) [] true dets hb H hH (y l) (mu l) y4 (y1 l) k
  refine ⟨dets, H, mu l, dets', H', m', z', hb, hH, ?_, hH', hz', he', ?_⟩
  · refine Module.End.hasEigenvalue_of_hasEigenvector (x := y l) ⟨?_, y4⟩
    rw [Module.End.mem_eigenspace_iff, Matrix.toLin'_apply]
    exact y1 l
  · have : cutCost ⟨true, true, true, true, true, true⟩ 1 1 (2 * 1) exGrown = 4 := by
      unfold cutCost exGrown
      norm_num
    rw [this] at hm'
    exact hm'

/-- A row of two sites with a hole below a row of two sites with a down spin: the lowest energy of the square is at most the sum of those of the rows. -/
example : ∃ (dA dB d : List (List Nat)) (HA HB H : SpMat ℝ) (mA mB m : ℝ),
    buildHamiltonian exEnv (rectConf 2 1 1 1 0) exGrown dA ⟨true, true, true, true, true, true⟩ [] true = .ok HA ∧
    buildHamiltonian exEnv (rectConf 2 1 1 0 1) exGrown dB ⟨true, true, true, true, true, true⟩ [] true = .ok HB ∧
    buildHamiltonian exEnv (rectConf 2 2 1 1 1) exGrown d ⟨true, true, true, true, true, true⟩ [] true = .ok H ∧
    (∃ z, z ≠ 0 ∧ HA.toMatrix *ᵥ z = mA • z) ∧ (∃ z, z ≠ 0 ∧ HB.toMatrix *ᵥ z = mB • z) ∧ (∃ z, z ≠ 0 ∧ H.toMatrix *ᵥ z = m • z) ∧ m ≤ mA + mB := by
  obtain ⟨f1, g1, g2, g3⟩ := rectConf_full 2 1 1 1 0 (by decide) (by decide) (by decide)
  obtain ⟨f2, i1, i2, i3⟩ := rectConf_full 2 1 1 0 1 (by decide) (by decide) (by decide)
  obtain ⟨f3, j1, j2, j3⟩ := rectConf_full 2 2 1 1 1 (by decide) (by decide) (by decide)
  have c1 := rectConf_ok 2 1 1 1 0 (by decide) (by decide) (by decide)
  have c2 := rectConf_ok 2 1 1 0 1 (by decide) (by decide) (by decide)
  have c3 := rectConf_ok 2 2 1 1 1 (by decide) (by decide) (by decide)
  have n1 : (rectConf 2 1 1 1 0).nholes + (rectConf 2 1 1 1 0).nbeta ≤ (rectConf 2 1 1 1 0).nsites := by rw [g1, g2, g3]; decide
  have n2 : (rectConf 2 1 1 0 1).nholes + (rectConf 2 1 1 0 1).nbeta ≤ (rectConf 2 1 1 0 1).nsites := by rw [i1, i2, i3]; decide
  have n3 : (rectConf 2 2 1 1 1).nholes + (rectConf 2 2 1 1 1).nbeta ≤ (rectConf 2 2 1 1 1).nsites := by rw [j1, j2, j3]; decide
  obtain ⟨dA, HA, bA, hA, _⟩ := C30_no_failure exEnv _ 2 1 1 c1 f1 n1 exGrown ⟨true, true, true, true, true, true⟩ [] true
  obtain ⟨dB, HB, bB, hB, _⟩ := C30_no_failure exEnv _ 2 1 1 c2 f2 n2 exGrown ⟨true, true, true, true, true, true⟩ [] true
  obtain ⟨d, H, b, hH, _⟩ := C30_no_failure exEnv _ 2 2 1 c3 f3 n3 exGrown ⟨true, true, true, true, true, true⟩ [] true
  obtain ⟨mA, yA, lA, a1, _, _, a4⟩ := exists_ground exEnv c1 f1 n1 bA hA
  obtain ⟨mB, yB, lB, b1, _, _, b4⟩ := exists_ground exEnv c2 f2 n2 bB hB
  obtain ⟨mu, y, l, y1, y2, y3, y4⟩ := exists_ground exEnv c3 f3 n3 b hH
  refine ⟨dA, dB, d, HA, HB, H, mA lA, mB lB, mu l, hA, hB, hH, ⟨_, a4, a1 lA⟩, ⟨_, b4, b1 lB⟩, ⟨_, y4, y1 l⟩, ?_⟩
  have := C135_stacked exEnv _ _ _ 2 1 1 1 c1 c2 c3 f1 f2 f3 n1 n2 (by rw [g1, i1, j1]) (by rw [g2, i2, j2]) exGrown (by simp [exGrown]) (by simp [exGrown])
    (by simp only [exGrown]; norm_num) _ (fun _ => rfl) [] [] [] true true true dA dB d bA bB b HA HB H hA hB hH _ _ _ _ a4 b4 (a1 lA) (b1 lB) mu y y1 y2 (mu l) y3
  rw [g1, i1, cutCost, if_pos (.inr (.inr rfl)), add_zero] at this
  exact this

end TJ
