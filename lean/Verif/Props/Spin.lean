/-
Properties C38-C41: spin operators.
-/
import Verif.Lemmas.HoleOrder
import Verif.Props.Hamiltonian
import Mathlib.Tactic.NormNum
import Mathlib.Tactic.Positivity
import Mathlib.Tactic.FieldSimp
import Mathlib.Algebra.Order.Floor.Ring

namespace TJ

open Finset

/-! ### C39 -/

/-- C39, part: when the set order lists the hole sites increasingly (always the case with at
most one hole, see `C39_one_hole_in_order`), `S+_p S-_m` moves the coefficient of every
determinant with a down spin on `p` and an up spin on `m` to the determinant with the two
spins exchanged. Without this hypothesis the claim is false: `C39_set_order_matters`. -/
theorem C39_s_plus_s_minus_partial {K : Type} [Field K] (S : SetSem) (c : Config) (hf : c.Full) (ho : HolesInOrder S c)
    (hn : c.nholes + c.nbeta ≤ c.nsites) (dets : List (List Nat)) (hb : constructBasis c = .ok dets)
    (v : List K) (hv : v.length = dets.length) (p m : Fin c.nsites) :
    ∃ w, sPlusSMinus S c v p m = .ok w ∧ w.length = dets.length ∧ ∀ k (hk : k < dets.length),
      w.getD k 0 = if conf c dets[k] p = .up ∧ conf c dets[k] m = .down
        then amp c dets v (exch (conf c dets[k]) p m) else 0 :=
  sPlusSMinus_spec S hf ho hn hb v hv p m

/-- C39. With at most one hole the hypothesis of the previous theorem holds for every set
order. -/
theorem C39_one_hole_in_order (S : SetSem) (c : Config) (h : c.nholes ≤ 1) : HolesInOrder S c := holesInOrder_sorted S h

/-- The hypothesis also holds for the increasing order, whatever the number of holes. -/
theorem C39_increasing_in_order (c : Config) : HolesInOrder SetSem.sorted c := by
  intro l _ _ _
  have h1 : (SetSem.sorted.inter l c.restr.1).Nodup := SetSem.sorted.nodup_inter _ _
  have h2 : (SetSem.sorted.inter l c.restr.1).Pairwise (· ≤ ·) := List.pairwise_insertionSort _ _
  exact (h2.and h1).imp (fun ⟨a, b⟩ => lt_of_le_of_ne a b)

/-- C39 fails on the 3 x 3 lattice with two holes and one down spin: CPython iterates over
the hole sites {1, 8} in the order 8, 1, the hash of the unsorted determinant is 253 while
there are 252 determinants, and `IndexError` is raised. -/
theorem C39_set_order_matters :
    sPlusSMinusDet SetSem.slots8 (rectConf 3 3 1 2 1) [1, 8, 0, 2, 3, 4, 5, 6, 7] 0 2 = .ok (some [8, 1, 2, 0, 3, 4, 5, 6, 7]) ∧
    computeHashTable (rectConf 3 3 1 2 1) [8, 1, 2, 0, 3, 4, 5, 6, 7] = 253 ∧ (rectConf 3 3 1 2 1).nbConf = 252 ∧
    sPlusSMinus SetSem.slots8 (rectConf 3 3 1 2 1) (List.replicate 252 (1 : ℚ)) 0 2 = .error .indexError := by
  refine ⟨by decide +kernel, by decide +kernel, by decide +kernel, by decide +kernel⟩

/-- C39. Exactly when the claim holds: for a set order, `S+_p S-_m` is right on all vectors and for all pairs of sites if and only if all
spins are parallel or the order lists the hole sites of every determinant increasingly. -/
theorem C39_right_iff {K : Type} [Field K] (S : SetSem) (c : Config) (hf : c.Full) (hn : c.nholes + c.nbeta ≤ c.nsites)
    (dets : List (List Nat)) (hb : constructBasis c = .ok dets) :
    (∀ (v : List K) (_ : v.length = dets.length) (p m : Fin c.nsites), ∃ w, sPlusSMinus S c v p m = .ok w ∧ w.length = dets.length ∧
      ∀ k (hk : k < dets.length), w.getD k 0 = if conf c dets[k] p = .up ∧ conf c dets[k] m = .down
        then amp c dets v (exch (conf c dets[k]) p m) else 0) ↔
      c.nalpha = 0 ∨ c.nbeta = 0 ∨ HolesInOrder S c := by
  constructor
  · intro h
    by_contra hcon
    push Not at hcon
    obtain ⟨h1, h2, h3⟩ := hcon
    obtain ⟨i, hi, k, hk, hki, p, m, e1, e2, e3, hmiss⟩ := exists_missed S hf (by unfold Config.nalpha at h1; omega) (by omega) hb h3
    obtain ⟨w, w1, w2, w3⟩ := h ((List.replicate dets.length 0).set i 1) (by simp) p m
    have h0 := sPlusSMinus_misses S hb _ hi (fun j hj => unit_getD_ne hj) (hmiss p m) w1
    rw [w3 k hk, if_pos ⟨e2, e3⟩, ← e1, amp_conf hb _ hi, unit_getD_self hi] at h0
    exact one_ne_zero h0
  · rintro (h | h | h) v hv p m
    · exact sPlusSMinus_of_swaps S (swapsRight_parallel S hf hn (Or.inl h)) hn hb v hv p m
    · exact sPlusSMinus_of_swaps S (swapsRight_parallel S hf hn (Or.inr h)) hn hb v hv p m
    · exact sPlusSMinus_spec S hf h hn hb v hv p m

/-- Two sites, one up and one down spin: the coefficient of down-up goes to up-down. -/
example : sPlusSMinus SetSem.listed (rectConf 2 1 1 0 1) [(3 : ℚ), 5] 0 1 = .ok [0, 3] := by decide +kernel

/-! ### C40 -/

/-- C40, part: `compute_S2` is 3/4 per electron plus (exchange - 1/2) per pair of electrons,
when the set order lists hole sites increasingly (see C39). -/
theorem C40_total_spin_partial {K : Type} [Field K] [CharZero K] (S : SetSem) (c : Config) (hf : c.Full) (ho : HolesInOrder S c)
    (hn : c.nholes + c.nbeta ≤ c.nsites) (dets : List (List Nat)) (hb : constructBasis c = .ok dets)
    (v : List K) (hv : v.length = dets.length) :
    ∃ w, computeS2 S c v = .ok w ∧ w.length = dets.length ∧ ∀ k (hk : k < dets.length),
      w.getD k 0 = spin2 (amp c dets v) (conf c dets[k]) :=
  computeS2_spec two_ne_zero S hf ho hn hb v hv

/-- C40. Exactly when the claim holds: for a set order, `compute_S2` is the total spin operator on all vectors if and only if all spins are
parallel or the order lists the hole sites of every determinant increasingly. -/
theorem C40_total_spin_iff {K : Type} [Field K] [CharZero K] (S : SetSem) (c : Config) (hf : c.Full)
    (hn : c.nholes + c.nbeta ≤ c.nsites) (dets : List (List Nat)) (hb : constructBasis c = .ok dets) :
    (∀ v : List K, v.length = dets.length → ∃ w, computeS2 S c v = .ok w ∧ w.length = dets.length ∧
      ∀ k (hk : k < dets.length), w.getD k 0 = spin2 (amp c dets v) (conf c dets[k])) ↔
      c.nalpha = 0 ∨ c.nbeta = 0 ∨ HolesInOrder S c := by
  constructor
  · intro h
    by_contra hcon
    push Not at hcon
    obtain ⟨h1, h2, h3⟩ := hcon
    obtain ⟨i, hi, k, hk, hki, p, m, e1, e2, e3, hmiss⟩ := exists_missed S hf (by unfold Config.nalpha at h1; omega) (by omega) hb h3
    obtain ⟨w, w1, w2, w3⟩ := h ((List.replicate dets.length 0).set i 1) (by simp)
    have h0 := computeS2_misses S hb _ hi (fun j hj => unit_getD_ne hj) hki hmiss w1
    rw [w3 k hk, spin2_eq two_ne_zero, amp_conf hb _ hk, unit_getD_ne hki, mul_zero, zero_add] at h0
    have hunit : ∀ σ : Conf c.nsites, amp c dets ((List.replicate dets.length (0 : K)).set i 1) σ =
        ((if conf c dets[i] = σ then 1 else 0 : Nat) : K) := by
      intro σ
      unfold amp
      rw [sum_eq_single_of_mem i (mem_range.2 hi), getD_dets hi, unit_getD_self hi]
      · split_ifs <;> simp
      · intro j _ hj
        rw [unit_getD_ne hj, ite_self]
    have hcast : (∑ a, ∑ b, if a < b ∧ conf c dets[k] a ≠ .hole ∧ conf c dets[k] b ≠ .hole ∧ conf c dets[k] a ≠ conf c dets[k] b
        then amp c dets ((List.replicate dets.length (0 : K)).set i 1) (exch (conf c dets[k]) a b) else 0) =
        ((∑ a, ∑ b, if a < b ∧ conf c dets[k] a ≠ .hole ∧ conf c dets[k] b ≠ .hole ∧ conf c dets[k] a ≠ conf c dets[k] b
          then (if conf c dets[i] = exch (conf c dets[k]) a b then 1 else 0) else 0 : Nat) : K) := by
      push_cast
      refine sum_congr rfl fun a _ => sum_congr rfl fun b _ => ?_
      rw [hunit]
      push_cast
      rfl
    rw [hcast, Nat.cast_eq_zero, sum_eq_zero_iff] at h0
    have hval : ∀ a b : Fin c.nsites, a < b → conf c dets[k] a ≠ .hole → conf c dets[k] b ≠ .hole → conf c dets[k] a ≠ conf c dets[k] b →
        conf c dets[i] ≠ exch (conf c dets[k]) a b := by
      intro a b q1 q2 q3 q4 q5
      have := sum_eq_zero_iff.1 (h0 a (mem_univ a)) b (mem_univ b)
      rw [if_pos ⟨q1, q2, q3, q4⟩, if_pos q5] at this
      exact one_ne_zero this
    rcases lt_trichotomy p m with q | q | q
    · exact hval p m q (by rw [e2]; simp) (by rw [e3]; simp) (by rw [e2, e3]; simp) e1
    · rw [q, e3] at e2
      cases e2
    · exact hval m p q (by rw [e3]; simp) (by rw [e2]; simp) (by rw [e2, e3]; simp) (by rw [exch_comm]; exact e1)
  · rintro (h | h | h) v hv
    · exact computeS2_of_swaps two_ne_zero S (swapsRight_parallel S hf hn (Or.inl h)) hn hb v hv
    · exact computeS2_of_swaps two_ne_zero S (swapsRight_parallel S hf hn (Or.inr h)) hn hb v hv
    · exact computeS2_spec two_ne_zero S hf h hn hb v hv

/-- C40, part: the operator is symmetric. -/
theorem C40_symmetric_partial {K : Type} [Field K] [CharZero K] (S : SetSem) (c : Config) (hf : c.Full) (ho : HolesInOrder S c)
    (hn : c.nholes + c.nbeta ≤ c.nsites) (dets : List (List Nat)) (hb : constructBasis c = .ok dets)
    (u v : List K) (hu : u.length = dets.length) (hv : v.length = dets.length) :
    ∃ su sv, computeS2 S c u = .ok su ∧ computeS2 S c v = .ok sv ∧ vdot u sv = vdot su v := by
  obtain ⟨su, u1, u2, u3⟩ := computeS2_spec (two_ne_zero (α := K)) S hf ho hn hb u hu
  obtain ⟨sv, v1, v2, v3⟩ := computeS2_spec (two_ne_zero (α := K)) S hf ho hn hb v hv
  refine ⟨su, sv, u1, v1, ?_⟩
  rw [vdot_amp hb hn u sv hu v2, vdot_amp hb hn su v u2 hv, amp_S2 hb hn u su u3, amp_S2 hb hn v sv v3, spin2_symm]

/-- The support of a vector. -/
theorem amp_support {K : Type} [Field K] {c : Config} {dets : List (List Nat)} (hb : constructBasis c = .ok dets)
    (hn : c.nholes + c.nbeta ≤ c.nsites) (v : List K) (σ : Conf c.nsites) (h : amp c dets v σ ≠ 0) :
    σ.count .up = c.nalpha.toNat ∧ σ.count .down = c.nbeta := by
  by_cases g : σ.count .hole = c.nholes ∧ σ.count .down = c.nbeta
  · obtain ⟨k, hk, rfl⟩ := exists_conf hb hn g.1 g.2
    have := count_conf_up hn (canonical_getElem hb k hk).1
    exact ⟨by omega, g.2⟩
  · exact absurd (amp_outside hb hn v g) h

/-- C40, part: the expectation value computed by `compute_S2_exp_val` is at least m(m + 1)
with m = |nalpha - nbeta| / 2 (for a zero vector the code returns 0). -/
theorem C40_lower_bound_partial {K : Type} [Field K] [LinearOrder K] [IsStrictOrderedRing K] (S : SetSem) (c : Config)
    (hf : c.Full) (ho : HolesInOrder S c) (hn : c.nholes + c.nbeta ≤ c.nsites) (dets : List (List Nat))
    (hb : constructBasis c = .ok dets) (v : List K) (hv : v.length = dets.length) :
    ∃ x, computeS2ExpVal S c v = .ok x ∧ (vdot v v = 0 → x = 0) ∧
      (vdot v v ≠ 0 → |(c.nalpha : K) - c.nbeta| / 2 * (|(c.nalpha : K) - c.nbeta| / 2 + 1) ≤ x) := by
  unfold computeS2ExpVal
  by_cases h0 : vdot v v = 0
  · exact ⟨0, if_neg (not_not.2 h0), fun _ => rfl, fun h => absurd h0 h⟩
  · obtain ⟨w, w1, w2, w3⟩ := computeS2_spec (two_ne_zero (α := K)) S hf ho hn hb v hv
    refine ⟨_, (if_pos h0).trans (bind_ok w1 rfl), fun h => absurd h h0, fun _ => ?_⟩
    have hpos : 0 < vdot v v := by
      refine lt_of_le_of_ne ?_ (Ne.symm h0)
      rw [vdot_amp hb hn v v hv hv]
      exact sum_nonneg fun σ _ => mul_self_nonneg _
    rw [le_div_iff₀ hpos, vdot_amp hb hn v w hv w2, vdot_amp hb hn v v hv hv, amp_S2 hb hn v w w3]
    have hb' := spin2_bound (amp c dets v) c.nalpha.toNat c.nbeta (amp_support hb hn v)
    have hna : ((c.nalpha.toNat : Nat) : K) = (c.nalpha : K) := by
      have : ((c.nalpha.toNat : Nat) : Int) = c.nalpha := by unfold Config.nalpha; omega
      rw [← this, Int.cast_natCast, this]
    rw [hna] at hb'
    exact hb'

/-- C40. With parallel spins every vector has the maximal spin N/2, whatever the set order. -/
theorem C40_parallel {K : Type} [Field K] [CharZero K] (S : SetSem) (c : Config) (hf : c.Full)
    (hn : c.nholes + c.nbeta ≤ c.nsites) (hp : c.nalpha = 0 ∨ c.nbeta = 0) (dets : List (List Nat)) (hb : constructBasis c = .ok dets)
    (v : List K) (hv : v.length = dets.length) :
    computeS2 S c v = .ok (v.map (fun x => ((c.nalpha : K) + c.nbeta) / 2 * (((c.nalpha : K) + c.nbeta) / 2 + 1) * x)) := by
  obtain ⟨w, w1, w2, w3⟩ := computeS2_of_swaps (two_ne_zero (α := K)) S (swapsRight_parallel S hf hn hp) hn hb v hv
  rw [w1]
  congr 1
  apply List.ext_getElem (by rw [List.length_map, w2, hv])
  intro k hk hk'
  have hk1 : k < dets.length := by omega
  have hk2 : k < v.length := by omega
  have e1 : w[k] = w.getD k 0 := by simp [List.getD_eq_getElem?_getD, hk]
  have e2 : v[k] = v.getD k 0 := by simp [List.getD_eq_getElem?_getD, hk2]
  rw [List.getElem_map, e1, e2, w3 k hk1, spin2_eq two_ne_zero, amp_conf hb v hk1]
  have hval := (canonical_getElem hb k hk1).1
  have u0 := count_conf_up hn hval
  have d0 := count_conf_down hn hval
  have u1 : ((conf c dets[k]).count .up : K) = (c.nalpha : K) := by rw [← u0, Int.cast_natCast]
  have h0 : (∑ a, ∑ b, if a < b ∧ conf c dets[k] a ≠ .hole ∧ conf c dets[k] b ≠ .hole ∧ conf c dets[k] a ≠ conf c dets[k] b
      then amp c dets v (exch (conf c dets[k]) a b) else 0) = 0 := by
    refine sum_eq_zero fun a _ => sum_eq_zero fun b _ => if_neg ?_
    rintro ⟨_, g1, g2, g3⟩
    have none_of : ∀ o : Occ, (conf c dets[k]).count o = 0 → ∀ s, conf c dets[k] s ≠ o := by
      intro o h s hs
      unfold Conf.count at h
      rw [card_eq_zero] at h
      have : s ∈ univ.filter (fun s => conf c dets[k] s = o) := by simp [hs]
      rw [h] at this
      simp at this
    rcases hp with h | h
    · have q := none_of .up (by omega)
      have q1 := q a
      have q2 := q b
      cases ha : conf c dets[k] a <;> cases hb' : conf c dets[k] b <;> simp_all
    · have q := none_of .down (by omega)
      have q1 := q a
      have q2 := q b
      cases ha : conf c dets[k] a <;> cases hb' : conf c dets[k] b <;> simp_all
  rw [h0, add_zero]
  congr 1
  unfold Conf.electrons
  rw [Nat.cast_add, u1, d0]
  rcases hp with h | h
  · rw [h]; push_cast; ring
  · rw [h]; push_cast; ring

/-- Singlet and triplet of two electrons. -/
example : computeS2 SetSem.listed (rectConf 2 1 1 0 1) [(1 : ℚ), -1] = .ok [0, 0] := by decide +kernel
example : computeS2 SetSem.listed (rectConf 2 1 1 0 1) [(1 : ℚ), 1] = .ok [2, 2] := by decide +kernel
example : computeS2ExpVal SetSem.listed (rectConf 2 2 1 1 1) [(1 : ℚ), 0, 0, 0, 0, 0, 0, 0, 0, 0, 0, 0] = .ok (7 / 4) := by
  decide +kernel
/-- A quartet of three parallel electrons and a hole. -/
example : computeS2 SetSem.listed (rectConf 2 2 1 1 0) [(1 : ℚ), 2, 3, 4] = .ok [15 / 4, 15 / 2, 45 / 4, 15] := by decide +kernel

/-! ### C38 -/

/-- C38. With the static and the flip part of the spin coupling both on or both off, the
Hamiltonian commutes with the total spin operator on every vector. -/
theorem C38_conserves_total_spin {K : Type} [Field K] [CharZero K] (E : Env) (c : Config) (nbh nbv nb : Nat)
    (hc : RectConf c nbh nbv nb) (hf : c.Full) (hn : c.nholes + c.nbeta ≤ c.nsites) (I : Interactions K) (B : BoolInteractions)
    (hB : B.bz = B.bij) (r : List Nat) (vb : Bool) (dets : List (List Nat)) (hb : constructBasis c = .ok dets) (H : SpMat K)
    (hH : buildHamiltonian E c I dets B r vb = .ok H) (v w : List K)
    (hw : ∀ k (hk : k < dets.length), w.getD k 0 = spin2 (amp c dets v) (conf c dets[k])) (k : Nat) (hk : k < dets.length) :
    (matVec H w).getD k 0 = spin2 (amp c dets (matVec H v)) (conf c dets[k]) := by
  obtain ⟨H', h1, h2, _, _⟩ := buildHamiltonian_spec I (hc.tj E) hf hn hb B r vb
  obtain rfl := Except.ok.inj (hH.symm.trans h1)
  have hM : ExchKernel (hamEl I (fun s : Fin c.nsites => gridPos (nbh * nb) s) B) := ham_kernel two_ne_zero I _ B hB
  have he := C31_matrix_elements E c nbh nbv nb hc hf hn I B r vb dets hb H hH
  rw [(matVec_amp hb hn h2 hM (fun i hi j hj => he i j hi hj) w).1 k hk,
    (matVec_amp hb hn h2 hM (fun i hi j hj => he i j hi hj) v).2, amp_S2 hb hn v w hw, hM.comm]

/-- C38, part: it commutes with the operator computed by `compute_S2` (under the hypothesis
of C39, without which `compute_S2` may raise an exception). -/
theorem C38_commutes_partial {K : Type} [Field K] [CharZero K] (E : Env) (S : SetSem) (c : Config) (nbh nbv nb : Nat)
    (hc : RectConf c nbh nbv nb) (hf : c.Full) (ho : HolesInOrder S c) (hn : c.nholes + c.nbeta ≤ c.nsites)
    (I : Interactions K) (B : BoolInteractions)
    (hB : B.bz = B.bij) (r : List Nat) (vb : Bool) (dets : List (List Nat)) (hb : constructBasis c = .ok dets) (H : SpMat K)
    (hH : buildHamiltonian E c I dets B r vb = .ok H) (v : List K) (hv : v.length = dets.length) :
    ∃ w, computeS2 S c v = .ok w ∧ computeS2 S c (matVec H v) = .ok (matVec H w) := by
  obtain ⟨H', h1, h2, _, _⟩ := buildHamiltonian_spec I (hc.tj E) hf hn hb B r vb
  obtain rfl := Except.ok.inj (hH.symm.trans h1)
  have hlen : ∀ u : List K, (matVec H u).length = dets.length := by intro u; simp [matVec, h2]
  obtain ⟨w, w1, w2, w3⟩ := computeS2_spec (two_ne_zero (α := K)) S hf ho hn hb v hv
  obtain ⟨u, u1, u2, u3⟩ := computeS2_spec (two_ne_zero (α := K)) S hf ho hn hb (matVec H v) (hlen v)
  refine ⟨w, w1, u1.trans ?_⟩
  congr 1
  apply List.ext_getElem (by rw [u2, hlen])
  intro k hk hk'
  have hk1 : k < dets.length := by omega
  have := C38_conserves_total_spin E c nbh nbv nb hc hf hn I B hB r vb dets hb H hH v w w3 k hk1
  have e1 : u[k] = u.getD k 0 := by simp [List.getD_eq_getElem?_getD, hk]
  have e2 : (matVec H w)[k] = (matVec H w).getD k 0 := by
    rw [List.getD_eq_getElem?_getD, List.getElem?_eq_getElem hk']; rfl
  rw [e1, e2, u3 k hk1, this]

/-- C38, part: so the image of an eigenvector under `compute_S2` is zero or an eigenvector
with the same eigenvalue. -/
theorem C38_eigenspaces_partial {K : Type} [Field K] [CharZero K] (E : Env) (S : SetSem) (c : Config) (nbh nbv nb : Nat)
    (hc : RectConf c nbh nbv nb) (hf : c.Full) (ho : HolesInOrder S c) (hn : c.nholes + c.nbeta ≤ c.nsites)
    (I : Interactions K) (B : BoolInteractions)
    (hB : B.bz = B.bij) (r : List Nat) (vb : Bool) (dets : List (List Nat)) (hb : constructBasis c = .ok dets) (H : SpMat K)
    (hH : buildHamiltonian E c I dets B r vb = .ok H) (v : List K) (hv : v.length = dets.length) (x : K)
    (hx : matVec H v = v.map (fun y => x * y)) :
    ∃ w, computeS2 S c v = .ok w ∧ matVec H w = w.map (fun y => x * y) := by
  obtain ⟨w, w1, w2⟩ := C38_commutes_partial E S c nbh nbv nb hc hf ho hn I B hB r vb dets hb H hH v hv
  refine ⟨w, w1, ?_⟩
  obtain ⟨w', w1', w2', w3'⟩ := computeS2_spec (two_ne_zero (α := K)) S hf ho hn hb v hv
  obtain rfl := Except.ok.inj (w1.symm.trans w1')
  have hlen : (matVec H v).length = dets.length := by rw [hx, List.length_map, hv]
  obtain ⟨u, u1, u2, u3⟩ := computeS2_spec (two_ne_zero (α := K)) S hf ho hn hb (matVec H v) hlen
  obtain rfl := Except.ok.inj (w2.symm.trans u1)
  apply List.ext_getElem (by rw [u2, List.length_map, w2'])
  intro k hk hk'
  have hk1 : k < dets.length := by omega
  have hk2 : k < w.length := by omega
  have e2 : (matVec H w)[k] = (matVec H w).getD k 0 := by
    rw [List.getD_eq_getElem?_getD, List.getElem?_eq_getElem hk]; rfl
  have e3 : w[k] = w.getD k 0 := by rw [List.getD_eq_getElem?_getD, List.getElem?_eq_getElem hk2]; rfl
  rw [e2, u3 k hk1, List.getElem_map, e3, w3' k hk1, hx]
  have ha : amp c dets (v.map (fun y => x * y)) = fun σ => x * amp c dets v σ := by
    funext σ
    unfold amp
    rw [mul_sum]
    refine sum_congr rfl fun j hj => ?_
    have hj : j < v.length := by rw [hv]; exact mem_range.1 hj
    rw [mul_ite, mul_zero]
    congr 1
    simp [List.getD_eq_getElem?_getD, hj]
  rw [ha, spin2_eq two_ne_zero, spin2_eq two_ne_zero, mul_add, mul_sum]
  congr 1
  · ring
  · refine sum_congr rfl fun a _ => ?_
    rw [mul_sum]
    refine sum_congr rfl fun b _ => ?_
    rw [mul_ite, mul_zero]

/-- The hypothesis `B.bz = B.bij` is needed: with the flip part alone (no static part) the two
operators do not commute on three electrons in a row. -/
example : (do
    let H ← buildHamiltonian exEnv (rectConf 3 1 1 0 1) exI (basisList 3 0 1) ⟨false, false, true, false, false, false⟩
    let a ← computeS2 SetSem.listed (rectConf 3 1 1 0 1) (matVec H [(1 : ℚ), 0, 0])
    let w ← computeS2 SetSem.listed (rectConf 3 1 1 0 1) [(1 : ℚ), 0, 0]
    pure (decide (a = matVec H w))) = .ok false := by decide +kernel

example : (do
    let H ← buildHamiltonian exEnv (rectConf 3 1 1 0 1) exI (basisList 3 0 1) ⟨true, true, true, true, true, true⟩
    let a ← computeS2 SetSem.listed (rectConf 3 1 1 0 1) (matVec H [(1 : ℚ), 0, 0])
    let w ← computeS2 SetSem.listed (rectConf 3 1 1 0 1) [(1 : ℚ), 0, 0]
    pure (decide (a = matVec H w))) = .ok true := by decide +kernel

/-! ### C41 -/

theorem pyRound_int (k : ℤ) : pyRound (k : ℝ) = k := by
  unfold pyRound
  rw [Int.fract_intCast, if_pos (by norm_num), Int.floor_intCast]

theorem pyRound_near (x : ℝ) : |(pyRound x : ℝ) - x| ≤ 1 / 2 := by
  have h := Int.floor_add_fract x
  have h0 := Int.fract_nonneg x
  have h1 := Int.fract_lt_one x
  unfold pyRound
  rw [abs_le]
  split_ifs <;> push_cast <;> constructor <;> linarith

/-- The positive root is chosen in both orders. -/
theorem rootRounded_eq (swap : Bool) (x : ℝ) (hx : 0 ≤ x) :
    rootRounded swap x = .ok ((pyRound (-1 + Real.sqrt (1 + 4 * x)) : ℝ) / 2) := by
  have h1 : 1 ≤ Real.sqrt (1 + 4 * x) := by
    rw [Real.one_le_sqrt]; linarith
  have h2 : 2 * ((-1 + Real.sqrt (1 + 4 * x)) / 2) = -1 + Real.sqrt (1 + 4 * x) := by ring
  unfold rootRounded
  rw [if_neg (by linarith)]
  cases swap
  · simp only [Bool.false_eq_true, if_false]
    rw [if_pos (by linarith), h2]
  · simp only [if_true]
    rw [if_neg (by linarith), h2]

/-- C41. For an expectation value s(s + 1) with a half-integer s >= 0 the result is s, in
both orders of the roots. -/
theorem C41_spin_number_exact (S : SetSem) (swap : Bool) (c : Config) (v : List ℝ) (k : Nat)
    (hx : computeS2ExpVal S c v = .ok ((k : ℝ) / 2 * ((k : ℝ) / 2 + 1))) :
    ∃ s, computeSpinNumber S swap c v = .ok (.num s) ∧ s = (k : ℝ) / 2 := by
  have hk : (0 : ℝ) ≤ k := Nat.cast_nonneg k
  have hs : Real.sqrt (1 + 4 * ((k : ℝ) / 2 * ((k : ℝ) / 2 + 1))) = k + 1 := by
    rw [show 1 + 4 * ((k : ℝ) / 2 * ((k : ℝ) / 2 + 1)) = (k + 1) ^ 2 by ring]
    exact Real.sqrt_sq (by linarith)
  have hr := rootRounded_eq swap ((k : ℝ) / 2 * ((k : ℝ) / 2 + 1)) (by positivity)
  rw [hs, show -1 + ((k : ℝ) + 1) = ((k : ℤ) : ℝ) by push_cast; ring, pyRound_int] at hr
  refine ⟨_, ?_, rfl⟩
  unfold computeSpinNumber
  have : (do let x ← computeS2ExpVal S c v; rootRounded swap x) = .ok ((k : ℝ) / 2) := by
    rw [hx]
    exact hr.trans (by push_cast; rfl)
  rw [this]

/-- C41. For every expectation value >= 0 the result is half an integer, at most 1/4 away
from the root r >= 0 of r(r + 1) = <S^2>, in both orders of the roots. -/
theorem C41_spin_number_rounded (S : SetSem) (swap : Bool) (c : Config) (v : List ℝ) (x : ℝ) (hx0 : 0 ≤ x)
    (hx : computeS2ExpVal S c v = .ok x) :
    ∃ s r : ℝ, computeSpinNumber S swap c v = .ok (.num s) ∧ (∃ k : ℤ, s = (k : ℝ) / 2) ∧ 0 ≤ r ∧ r * (r + 1) = x ∧ |s - r| ≤ 1 / 4 := by
  have h1 : 1 ≤ Real.sqrt (1 + 4 * x) := by
    rw [Real.one_le_sqrt]; linarith
  have h2 : Real.sqrt (1 + 4 * x) * Real.sqrt (1 + 4 * x) = 1 + 4 * x := Real.mul_self_sqrt (by linarith)
  refine ⟨(pyRound (-1 + Real.sqrt (1 + 4 * x)) : ℝ) / 2, (-1 + Real.sqrt (1 + 4 * x)) / 2, ?_, ⟨_, rfl⟩, by linarith, by linarith, ?_⟩
  · unfold computeSpinNumber
    have : (do let x ← computeS2ExpVal S c v; rootRounded swap x) = .ok ((pyRound (-1 + Real.sqrt (1 + 4 * x)) : ℝ) / 2) := by
      rw [hx]
      exact rootRounded_eq swap x hx0
    rw [this]
  · have := pyRound_near (-1 + Real.sqrt (1 + 4 * x))
    rw [← sub_div, abs_div, abs_of_pos (show (0 : ℝ) < 2 by norm_num)]
    linarith

/-- C41. An `IndexError` in the computation (see C39) is reported as "-". -/
theorem C41_index_error (S : SetSem) (swap : Bool) (c : Config) (v : List ℝ) (h : computeS2ExpVal S c v = .error .indexError) :
    computeSpinNumber S swap c v = .ok .dash := by
  unfold computeSpinNumber
  rw [h]
  rfl

/-- C41. Names of the multiplicities: `k` is twice the spin number. -/
theorem C41_multiplicity_name {K : Type} [Field K] [LinearOrder K] [IsStrictOrderedRing K] (k : Nat) :
    computeSpinMultiplicity ((k : K) / 2) =
      some (["singlet", "doublet", "triplet", "quartet", "quintet"].getD k "multiplet") := by
  have h : 2 * ((k : K) / 2) + 1 = ((k + 1 : Nat) : K) := by push_cast; field_simp
  unfold computeSpinMultiplicity
  simp only [h]
  have e : ∀ m : Nat, (((k + 1 : Nat) : K) = (m : K)) ↔ k + 1 = m := fun m => Nat.cast_inj
  have e1 := e 1
  have e2 := e 2
  have e3 := e 3
  have e4 := e 4
  have e5 := e 5
  have l5 : ((5 : Nat) : K) < ((k + 1 : Nat) : K) ↔ 5 < k + 1 := Nat.cast_lt
  simp only [Nat.cast_one, Nat.cast_ofNat] at e1 e2 e3 e4 e5 l5
  simp only [e1, e2, e3, e4, e5, l5]
  match k with
  | 0 => rfl
  | 1 => rfl
  | 2 => rfl
  | 3 => rfl
  | 4 => rfl
  | k + 5 => simp

/-- C41. Together with C40: on an unrestricted configuration, under the hypothesis of
C39 on the order of hole sites (always true with at most one hole), the spin number of every
vector is a number, never "-" nor an exception. -/
theorem C41_always_a_number (S : SetSem) (swap : Bool) (c : Config) (hf : c.Full) (ho : HolesInOrder S c)
    (hn : c.nholes + c.nbeta ≤ c.nsites) (dets : List (List Nat)) (hb : constructBasis c = .ok dets) (v : List ℝ)
    (hv : v.length = dets.length) :
    ∃ x s r : ℝ, computeS2ExpVal S c v = .ok x ∧ computeSpinNumber S swap c v = .ok (.num s) ∧ (∃ k : ℤ, s = (k : ℝ) / 2) ∧
      0 ≤ r ∧ r * (r + 1) = x ∧ |s - r| ≤ 1 / 4 := by
  obtain ⟨x, h1, h2, h3⟩ := C40_lower_bound_partial S c hf ho hn dets hb v hv
  have hx : 0 ≤ x := by
    by_cases h : vdot v v = 0
    · rw [h2 h]
    · refine le_trans ?_ (h3 h)
      positivity
  obtain ⟨s, r, q⟩ := C41_spin_number_rounded S swap c v x hx h1
  exact ⟨x, s, r, h1, q⟩

/-- An expectation value 2 = 1 (1 + 1) as used in `C41_spin_number_exact`. -/
example : (computeS2ExpVal SetSem.listed (rectConf 2 1 1 0 1) [(1 : ℚ), 1]) = .ok ((2 : ℚ) / 2 * ((2 : ℚ) / 2 + 1)) := by
  decide +kernel

end TJ
