/-
Properties C109 and C110: the ground states without holes of the antiferromagnet.
-/
import Verif.Lemmas.Perron
import Verif.Lemmas.Marshall
import Verif.Props.Ferromagnet

namespace TJ

open Finset Matrix

/-- The lowest eigenvalue is the lower bound of the quadratic form. -/
theorem least_min {d : Nat} {A : Matrix (Fin d) (Fin d) ℝ} (hA : A.IsSymm) {e : ℝ}
    (he : IsLeast {μ | Module.End.HasEigenvalue (Matrix.toLin' A) μ} e) (x : Fin d → ℝ) : e * (x ⬝ᵥ x) ≤ x ⬝ᵥ (A *ᵥ x) := by
  obtain ⟨w, h1, h2⟩ := exists_eigh d A
  have h1 := h1 hA
  refine lowest_le_quotient hA h1 h2 e (fun k => ?_) x
  refine he.2 (Module.End.hasEigenvalue_of_hasEigenvector (x := w.2 k) ⟨?_, ?_⟩)
  · rw [Module.End.mem_eigenspace_iff, Matrix.toLin'_apply]
    exact h1 k
  · intro h0
    have := h2 k k
    rw [h0, if_pos rfl, zero_dotProduct] at this
    exact zero_ne_one this

/-- A symmetric matrix that is not empty has a lowest eigenvalue. -/
theorem exists_least {d : Nat} {A : Matrix (Fin d) (Fin d) ℝ} (hA : A.IsSymm) (hd : 0 < d) :
    ∃ e, IsLeast {μ | Module.End.HasEigenvalue (Matrix.toLin' A) μ} e := by
  obtain ⟨w, h1, h2⟩ := exists_eigh d A
  have h1 := h1 hA
  have : Nonempty (Fin d) := ⟨⟨0, hd⟩⟩
  obtain ⟨k, _, hk⟩ := exists_min_image univ w.1 univ_nonempty
  refine ⟨w.1 k, ?_, ?_⟩
  · refine Module.End.hasEigenvalue_of_hasEigenvector (x := w.2 k) ⟨?_, ?_⟩
    · rw [Module.End.mem_eigenspace_iff, Matrix.toLin'_apply]
      exact h1 k
    · intro h0
      have := h2 k k
      rw [h0, if_pos rfl, zero_dotProduct] at this
      exact zero_ne_one this
  · intro μ hμ
    obtain ⟨x, hx, hne⟩ := hμ.exists_hasEigenvector
    rw [Module.End.mem_eigenspace_iff, Matrix.toLin'_apply] at hx
    have := lowest_le_quotient hA h1 h2 (w.1 k) (fun j => hk j (mem_univ _)) x
    rw [hx, dotProduct_smul, smul_eq_mul] at this
    have hp : 0 < x ⬝ᵥ x := lt_of_le_of_ne (sum_nonneg fun i _ => mul_self_nonneg _) (Ne.symm (fun h => hne (dotProduct_self_eq_zero.1 h)))
    exact le_of_mul_le_mul_right this hp

section
variable {E : Env} {c : Config} {nbh nbv nb : Nat} {I : Interactions ℝ} {B : BoolInteractions} {r : List Nat} {vb' : Bool}
  {dets : List (List Nat)} {H : SpMat ℝ}

/-- The elements of the Hamiltonian without holes follow the sign rule and connect all determinants. -/
theorem signs_ok (hc : RectConf c nbh nbv nb) (hf : c.Full) (h0 : c.nholes = 0) (hn : c.nbeta ≤ c.nsites) (hJ : 0 < I.J) (hij : B.bij = true)
    (hb : constructBasis c = .ok dets) (hH : buildHamiltonian E c I dets B r vb' = .ok H) :
    ∃ hd : H.dim = dets.length, ∀ s : Fin H.dim → ℝ,
      (∀ i, s i = marshall (fun t : Fin c.nsites => gridPos (nbh * nb) t) (conf c (dets[i.1]'(hd ▸ i.2)))) →
      H.toMatrix.IsSymm ∧ (∀ i, s i * s i = 1) ∧ (∀ i j, i ≠ j → s i * s j * H.toMatrix i j ≤ 0) ∧
        ∀ i j, Relation.ReflTransGen (fun i j => i ≠ j ∧ s i * s j * H.toMatrix i j < 0) i j := by
  have hn' : c.nholes + c.nbeta ≤ c.nsites := by omega
  obtain ⟨H', h1, hd, _, _⟩ := buildHamiltonian_spec I (hc.tj E) hf hn' hb B r vb'
  obtain rfl := Except.ok.inj (hH.symm.trans h1)
  have he := C31_matrix_elements E c nbh nbv nb hc hf hn' I B r vb' dets hb H hH
  set pos := (fun t : Fin c.nsites => gridPos (nbh * nb) t) with hpos
  have cnt : ∀ i (hi : i < dets.length), (conf c dets[i]).count .hole = 0 ∧ (conf c dets[i]).count .down = c.nbeta := fun i hi =>
    ⟨(count_conf_hole hn' (canonical_getElem hb i hi).1).trans h0, count_conf_down hn' (canonical_getElem hb i hi).1⟩
  have nohole : ∀ σ : Conf c.nsites, σ.count .hole = 0 → ∀ s, σ s ≠ .hole := by
    intro σ h s hs
    unfold Conf.count at h
    rw [card_eq_zero, filter_eq_empty_iff] at h
    exact h (mem_univ s) hs
  refine ⟨hd, fun s hs => ⟨?_, ?_, ?_, ?_⟩⟩
  · ext i j
    exact C32_symmetric E c nbh nbv nb hc hf hn' I B r vb' dets hb H hH j i
  · intro i
    rw [hs]
    exact marshall_sq _ _
  · intro i j hij'
    have hi : i.1 < dets.length := hd ▸ i.2
    have hj : j.1 < dets.length := hd ▸ j.2
    rw [hs, hs]
    show _ * _ * H.entry i.1 j.1 ≤ 0
    rw [he i.1 j.1 hi hj]
    refine marshall_ham_nonpos _ I hJ B hij (nohole _ (cnt i.1 hi).1) ?_
    intro e
    exact hij' (Fin.ext (conf_inj hb hj hi e)).symm
  · intro i j
    have hi : i.1 < dets.length := hd ▸ i.2
    have hj : j.1 < dets.length := hd ▸ j.2
    have hsame : ∀ o, (conf c dets[i.1]).count o = (conf c dets[j.1]).count o := by
      intro o
      have q1 := cnt i.1 hi
      have q2 := cnt j.1 hj
      have q3 := count_sum (conf c dets[i.1])
      have q4 := count_sum (conf c dets[j.1])
      cases o <;> omega
    have hreach := steps_all (pos := pos) (fun a b => grid_joined (nbh * nb) (nbv * nb) hc.spec.1 a b) _ _ hsame
    have key : ∀ τ, Relation.ReflTransGen (ExchStep pos) (conf c dets[i.1]) τ → ∃ k : Fin H.dim, conf c (dets[k.1]'(hd ▸ k.2)) = τ ∧
        Relation.ReflTransGen (fun i j => i ≠ j ∧ s i * s j * H.toMatrix i j < 0) i k := by
      intro τ hτ
      induction hτ with
      | refl => exact ⟨i, rfl, Relation.ReflTransGen.refl⟩
      | @tail τ τ' _ hstep ih =>
        obtain ⟨k, hk, hr⟩ := ih
        have hk' : k.1 < dets.length := hd ▸ k.2
        have c1 := cnt k.1 hk'
        rw [hk] at c1
        have hcnt : τ'.count .hole = 0 ∧ τ'.count .down = c.nbeta := by
          obtain ⟨a, b, _, _, rfl⟩ := hstep
          rw [exch_comp, count_comp, count_comp]
          exact c1
        obtain ⟨l, hl, e⟩ := exists_conf hb hn' (hcnt.1.trans h0.symm) hcnt.2
        obtain ⟨m1, m2⟩ := marshall_ham_neg pos I hJ B hij (nohole τ c1.1) hstep
        refine ⟨⟨l, hd ▸ hl⟩, e, hr.tail ⟨?_, ?_⟩⟩
        · rintro rfl
          exact m1 (e.symm.trans hk)
        · rw [hs, hs]
          show _ * _ * H.entry k.1 l < 0
          rw [he k.1 l hk' hl]
          simp only [hk, e]
          exact m2
    obtain ⟨k, hk, hr⟩ := key _ hreach
    have : k = j := Fin.ext (conf_inj hb (hd ▸ k.2) hj hk)
    rwa [this] at hr

end

/-! ### C109 -/

/-- C109. Without holes and with an antiferromagnetic coupling the coefficients of a lowest state of a sector are not zero, and their signs are
those of Marshall's rule up to a common sign. -/
theorem C109_signs (E : Env) (c : Config) (nbh nbv nb : Nat) (hc : RectConf c nbh nbv nb) (hf : c.Full) (h0 : c.nholes = 0)
    (hn : c.nbeta ≤ c.nsites) (I : Interactions ℝ) (hJ : 0 < I.J) (B : BoolInteractions) (hij : B.bij = true) (r : List Nat) (v : Bool)
    (dets : List (List Nat)) (hb : constructBasis c = .ok dets) (H : SpMat ℝ) (hH : buildHamiltonian E c I dets B r v = .ok H)
    (e : ℝ) (he : IsLeast {μ | Module.End.HasEigenvalue (Matrix.toLin' H.toMatrix) μ} e)
    (x : Fin H.dim → ℝ) (hx : H.toMatrix *ᵥ x = e • x) (hne : x ≠ 0) (i j : Fin H.dim) (hi : i.1 < dets.length) (hj : j.1 < dets.length) :
    0 < marshall (fun t : Fin c.nsites => gridPos (nbh * nb) t) (conf c dets[i.1]) * x i *
      (marshall (fun t : Fin c.nsites => gridPos (nbh * nb) t) (conf c dets[j.1]) * x j) := by
  obtain ⟨hd, h⟩ := signs_ok hc hf h0 hn hJ hij hb hH
  obtain ⟨p1, p2, p3, p4⟩ := h _ (fun i => rfl)
  exact perron p1 _ p2 p3 p4 (least_min p1 he) x hx hne i j

/-- C109. Without holes and with an antiferromagnetic coupling the lowest state of every sector is unique. -/
theorem C109_unique (E : Env) (c : Config) (nbh nbv nb : Nat) (hc : RectConf c nbh nbv nb) (hf : c.Full) (h0 : c.nholes = 0)
    (hn : c.nbeta ≤ c.nsites) (I : Interactions ℝ) (hJ : 0 < I.J) (B : BoolInteractions) (hij : B.bij = true) (r : List Nat) (v : Bool)
    (dets : List (List Nat)) (hb : constructBasis c = .ok dets) (H : SpMat ℝ) (hH : buildHamiltonian E c I dets B r v = .ok H) :
    ∃ e, IsLeast {μ | Module.End.HasEigenvalue (Matrix.toLin' H.toMatrix) μ} e ∧
      Module.finrank ℝ (Module.End.eigenspace (Matrix.toLin' H.toMatrix) e) = 1 := by
  obtain ⟨hd, h⟩ := signs_ok hc hf h0 hn hJ hij hb hH
  obtain ⟨p1, p2, p3, p4⟩ := h _ (fun i => rfl)
  have hpos : 0 < H.dim := by
    rw [hd]
    have hn' : c.nholes + c.nbeta ≤ c.nsites := by omega
    obtain ⟨k, hk, _⟩ := exists_conf hb hn' (σ := fun s : Fin c.nsites => if s.1 < c.nbeta then .down else .up)
      (by
        rw [h0]
        unfold Conf.count
        rw [card_eq_zero, filter_eq_empty_iff]
        intro s _
        show ¬ (if s.1 < c.nbeta then Occ.down else .up) = .hole
        split_ifs <;> simp)
      (by
        unfold Conf.count
        have : (univ.filter fun s : Fin c.nsites => (if s.1 < c.nbeta then Occ.down else .up) = .down) =
            univ.filter fun s : Fin c.nsites => s.1 < c.nbeta := by
          ext s
          simp only [mem_filter, mem_univ, true_and]
          split_ifs with h <;> simp [h]
        rw [this, Fin.card_filter_val_lt]
        omega)
    omega
  obtain ⟨e, he⟩ := exists_least p1 hpos
  refine ⟨e, he, ?_⟩
  obtain ⟨x, hx, hne⟩ := he.1.exists_hasEigenvector
  refine finrank_eq_one_iff'.2 ⟨⟨x, hx⟩, fun h => hne (congrArg Subtype.val h), ?_⟩
  rintro ⟨y, hy⟩
  rw [Module.End.mem_eigenspace_iff, Matrix.toLin'_apply] at hx hy
  obtain ⟨a, ha⟩ := perron_unique p1 _ p2 p3 p4 (least_min p1 he) x y hx hy hne
  exact ⟨a, Subtype.ext ha.symm⟩

/-! ### C110 -/

section
variable {n : Nat}

/-- The first `p` pairs of successive sites. -/
def pairUp (n p : Nat) (hp : 2 * p ≤ n) (s : Fin n) : Fin n :=
  if h : s.1 / 2 < p then ⟨if s.1 % 2 = 0 then s.1 + 1 else s.1 - 1, by split_ifs <;> omega⟩ else s

theorem pairUp_val {p : Nat} (hp : 2 * p ≤ n) (s : Fin n) (h : s.1 / 2 < p) : (pairUp n p hp s).1 = if s.1 % 2 = 0 then s.1 + 1 else s.1 - 1 := by
  unfold pairUp
  rw [dif_pos h]

theorem pairUp_pairUp {p : Nat} (hp : 2 * p ≤ n) (s : Fin n) : pairUp n p hp (pairUp n p hp s) = s := by
  apply Fin.ext
  by_cases h : s.1 / 2 < p
  · have e : (pairUp n p hp s).1 = if s.1 % 2 = 0 then s.1 + 1 else s.1 - 1 := pairUp_val hp s h
    have h' : (pairUp n p hp s).1 / 2 < p := by rw [e]; split_ifs <;> omega
    have e' : (pairUp n p hp (pairUp n p hp s)).1 = if (pairUp n p hp s).1 % 2 = 0 then (pairUp n p hp s).1 + 1 else (pairUp n p hp s).1 - 1 := pairUp_val hp _ h'
    rw [e', e]
    split_ifs <;> omega
  · have e : pairUp n p hp s = s := by unfold pairUp; rw [dif_neg h]
    rw [e, e]

theorem succ_colour (w s : Nat) (hw : 0 < w) (hs : s % 2 = 0) : (colourSign (gridPos w s) : ℝ) * colourSign (gridPos w (s + 1)) = -1 := by
  have e1 := Nat.div_add_mod s w
  have e2 := Nat.mod_lt s hw
  have hodd : (s % w + s / w) % 2 ≠ ((s + 1) % w + (s + 1) / w) % 2 := by
    by_cases h : s % w + 1 < w
    · have h1 : (s + 1) / w = s / w := by
        rw [Nat.div_eq_iff hw]
        rw [Nat.mul_comm] at e1
        constructor <;> omega
      have h2 : (s + 1) % w = s % w + 1 := by
        have e3 := Nat.div_add_mod (s + 1) w
        rw [h1] at e3
        omega
      rw [h1, h2]
      omega
    · have h3 : s + 1 = w * (s / w + 1) := by rw [Nat.mul_add]; omega
      have h1 : (s + 1) / w = s / w + 1 := by
        conv_lhs => rw [h3]
        exact Nat.mul_div_cancel_left _ hw
      have h2 : (s + 1) % w = 0 := by rw [h3]; exact Nat.mul_mod_right _ _
      have h4 : w % 2 = 1 := by
        have := congrArg (· % 2) h3
        simp only [Nat.mul_mod w] at this
        rcases Nat.mod_two_eq_zero_or_one w with q | q
        · rw [q, Nat.zero_mul] at this; omega
        · exact q
      rw [h1, h2]
      omega
  unfold colourSign gridPos
  dsimp only
  split_ifs <;> first | (exfalso; omega) | norm_num

theorem pairUp_colour {p w : Nat} (hp : 2 * p ≤ n) (hw : 0 < w) (s : Fin n) (h : pairUp n p hp s ≠ s) :
    (colourSign (gridPos w s) : ℝ) * colourSign (gridPos w (pairUp n p hp s)) = -1 := by
  have hs : s.1 / 2 < p := by
    by_contra h1
    apply h
    unfold pairUp
    rw [dif_neg h1]
  have e : (pairUp n p hp s).1 = if s.1 % 2 = 0 then s.1 + 1 else s.1 - 1 := pairUp_val hp s hs
  rw [e]
  split_ifs with h1
  · exact succ_colour w s hw h1
  · have := succ_colour w (s.1 - 1) hw (by omega)
    rw [Nat.sub_add_cancel (by omega), mul_comm] at this
    exact this

/-- Alternating spins on the pairs, `o` elsewhere. -/
def pairConf (n p : Nat) (o : Occ) : Conf n := fun s => if s.1 / 2 < p ∧ s.1 % 2 = 1 then o.rev else o

theorem pairConf_cond {p : Nat} (hp : 2 * p ≤ n) {o : Occ} (ho : o ≠ .hole) : VbCond (pairUp n p hp) o (pairConf n p o) := by
  have hor : o.rev ≠ .hole := by cases o <;> simp_all [Occ.rev]
  have horo : o.rev ≠ o := by cases o <;> simp_all [Occ.rev]
  intro s
  refine ⟨by unfold pairConf; split_ifs <;> assumption, ?_⟩
  by_cases h : s.1 / 2 < p
  · have e : (pairUp n p hp s).1 = if s.1 % 2 = 0 then s.1 + 1 else s.1 - 1 := pairUp_val hp s h
    have hne : pairUp n p hp s ≠ s := by
      intro h1
      have := congrArg Fin.val h1
      rw [e] at this
      split_ifs at this <;> omega
    rw [if_neg hne]
    unfold pairConf
    rw [e]
    by_cases h1 : s.1 % 2 = 0
    · rw [if_neg (by omega), if_pos h1, if_pos (by omega)]
      exact Ne.symm horo
    · rw [if_pos (by omega), if_neg h1, if_neg (by omega)]
      exact horo
  · have e : pairUp n p hp s = s := by unfold pairUp; rw [dif_neg h]
    rw [if_pos e]
    unfold pairConf
    rw [if_neg (by omega)]

theorem pairConf_count {p : Nat} (hp : 2 * p ≤ n) {o : Occ} (ho : o ≠ .hole) :
    (pairConf n p o).count .hole = 0 ∧ (pairConf n p o).count o.rev = p := by
  have hor : o.rev ≠ .hole := by cases o <;> simp_all [Occ.rev]
  have horo : o.rev ≠ o := by cases o <;> simp_all [Occ.rev]
  constructor
  · unfold Conf.count
    rw [card_eq_zero, filter_eq_empty_iff]
    intro s _
    unfold pairConf
    split_ifs <;> assumption
  · unfold Conf.count
    have : (univ.filter fun s : Fin n => pairConf n p o s = o.rev) = univ.filter fun s : Fin n => s.1 / 2 < p ∧ s.1 % 2 = 1 := by
      ext s
      simp only [mem_filter, mem_univ, true_and]
      unfold pairConf
      split_ifs with h
      · simp [h]
      · simp [h, Ne.symm horo]
    rw [this]
    conv_rhs => rw [← card_range p]
    refine card_bij' (fun s _ => s.1 / 2) (fun k hk => ⟨2 * k + 1, by have := mem_range.1 hk; omega⟩) ?_ ?_ ?_ ?_
    · intro s hs
      rw [mem_range]
      exact (mem_filter.1 hs).2.1
    · intro k hk
      have := mem_range.1 hk
      rw [mem_filter]
      refine ⟨mem_univ _, ?_, ?_⟩
      · show (2 * k + 1) / 2 < p
        omega
      · show (2 * k + 1) % 2 = 1
        omega
    · intro s hs
      have := (mem_filter.1 hs).2
      apply Fin.ext
      show 2 * (s.1 / 2) + 1 = s.1
      omega
    · intro k hk
      show (2 * k + 1) / 2 = k
      omega

/-- Turning a spin down is the adjoint of turning it up. -/
theorem lower_adjoint (φ ψ : Conf n → ℝ) :
    (∑ τ, ψ τ * lower φ τ) = ∑ σ, (∑ a, if σ a = .up then ψ (Function.update σ a .down) else 0) * φ σ := by
  have e1 : ∀ τ : Conf n, ψ τ * lower φ τ = ∑ a, if τ a = .down then ψ τ * φ (Function.update τ a .up) else 0 := by
    intro τ
    show ψ τ * (∑ a, if τ a = .down then φ (Function.update τ a .up) else 0) = _
    rw [mul_sum]
    exact sum_congr rfl fun a _ => by rw [mul_ite, mul_zero]
  have e2 : ∀ σ : Conf n, (∑ a, if σ a = .up then ψ (Function.update σ a .down) else 0) * φ σ =
      ∑ a, if σ a = .up then ψ (Function.update σ a .down) * φ σ else 0 := by
    intro σ
    rw [sum_mul]
    exact sum_congr rfl fun a _ => by rw [ite_mul, zero_mul]
  rw [sum_congr rfl fun τ _ => e1 τ, sum_congr rfl fun σ _ => e2 σ, sum_comm, sum_comm (s := univ (α := Conf n))]
  refine sum_congr rfl fun a _ => ?_
  rw [← flip_sum (o := .up) (p := .down) a (fun τ => ψ τ * φ (Function.update τ a .up))]
  refine sum_congr rfl fun σ _ => ?_
  split_ifs with h
  · rw [Function.update_idem, ← h, Function.update_eq_self]
  · rfl

end

section
variable {E : Env} {c : Config} {nbh nbv nb : Nat} {I : Interactions ℝ} {B : BoolInteractions} {r : List Nat} {vb' : Bool}
  {dets : List (List Nat)} {H : SpMat ℝ}

/-- The lowest state of a sector is not orthogonal to a product of singlets of the sector. -/
theorem vb_overlap (hc : RectConf c nbh nbv nb) (hf : c.Full) (h0 : c.nholes = 0) (hn : c.nbeta ≤ c.nsites) (hJ : 0 < I.J) (hij : B.bij = true)
    (hb : constructBasis c = .ok dets) (hH : buildHamiltonian E c I dets B r vb' = .ok H)
    {e : ℝ} (he : IsLeast {μ | Module.End.HasEigenvalue (Matrix.toLin' H.toMatrix) μ} e)
    {x : Fin H.dim → ℝ} (hx : H.toMatrix *ᵥ x = e • x) (hne : x ≠ 0) {p : Nat} (hp : 2 * p ≤ c.nsites) {o : Occ} (ho : o ≠ .hole)
    (hcnt : (pairConf c.nsites p o).count .down = c.nbeta) :
    (∑ σ, vb (fun t : Fin c.nsites => gridPos (nbh * nb) t) (pairUp c.nsites p hp) o σ * state c dets x σ) ≠ 0 := by
  have hn' : c.nholes + c.nbeta ≤ c.nsites := by omega
  obtain ⟨hd, h⟩ := signs_ok hc hf h0 hn hJ hij hb hH
  obtain ⟨p1, p2, p3, p4⟩ := h _ (fun i => rfl)
  have hpp := perron p1 _ p2 p3 p4 (least_min p1 he) x hx hne
  set pos := (fun t : Fin c.nsites => gridPos (nbh * nb) t) with hpos
  obtain ⟨k, hk, ek⟩ := exists_conf hb hn' ((pairConf_count hp ho).1.trans h0.symm) hcnt
  have hk' : k < H.dim := by omega
  set c0 := marshall pos (conf c dets[k]) * x ⟨k, hk'⟩ with hc0
  have key : ∀ σ, vb pos (pairUp c.nsites p hp) o σ ≠ 0 → state c dets x σ ≠ 0 → 0 < vb pos (pairUp c.nsites p hp) o σ * state c dets x σ * c0 := by
    intro σ hv hσ
    have hs := state_sector hb hn' x σ hσ
    obtain ⟨l, hl, rfl⟩ := exists_conf hb hn' hs.1 hs.2
    have e1 : vb pos (pairUp c.nsites p hp) o (conf c dets[l]) = marshall pos (conf c dets[l]) := by
      unfold vb at hv ⊢
      by_contra hcon
      apply hv
      rw [if_neg]
      intro hcond
      exact hcon (if_pos hcond)
    rw [e1, state_conf hb x hd hl]
    exact hpp ⟨l, hd ▸ hl⟩ ⟨k, hk'⟩
  intro hz
  have hpos' : 0 < ∑ σ, vb pos (pairUp c.nsites p hp) o σ * state c dets x σ * c0 := by
    refine sum_pos' (fun σ _ => ?_) ⟨conf c dets[k], mem_univ _, ?_⟩
    · by_cases h1 : vb pos (pairUp c.nsites p hp) o σ = 0
      · rw [h1]; simp
      by_cases h2 : state c dets x σ = 0
      · rw [h2]; simp
      exact (key σ h1 h2).le
    · have hkk := hpp ⟨k, hk'⟩ ⟨k, hk'⟩
      have hx0 : x ⟨k, hk'⟩ ≠ 0 := by
        intro hx0
        rw [hx0] at hkk
        simp at hkk
      refine key _ ?_ ?_
      · unfold vb
        rw [if_pos (by rw [ek]; exact pairConf_cond hp ho)]
        intro hm
        have := marshall_sq pos (conf c dets[k])
        rw [hm] at this
        simp at this
      · rw [state_conf hb x hd hk]
        exact hx0
  rw [← sum_mul, hz, zero_mul] at hpos'
  exact lt_irrefl _ hpos'

/-- The lowest state belongs to the eigenspace of the t-J operator in its sector. -/
theorem ground_mem (hc : RectConf c nbh nbv nb) (hf : c.Full) (hn : c.nholes + c.nbeta ≤ c.nsites)
    (hb : constructBasis c = .ok dets) (hH : buildHamiltonian E c I dets B r vb' = .ok H) {e : ℝ}
    {x : Fin H.dim → ℝ} (hx : H.toMatrix *ᵥ x = e • x) :
    state c dets x ∈ sectorEig I (fun t : Fin c.nsites => gridPos (nbh * nb) t) B c.nholes c.nbeta e := by
  obtain ⟨H', h1, hd, _, _⟩ := buildHamiltonian_spec I (hc.tj E) hf hn hb B r vb'
  obtain rfl := Except.ok.inj (hH.symm.trans h1)
  have he := C31_matrix_elements E c nbh nbv nb hc hf hn I B r vb' dets hb H hH
  refine ⟨state_sector hb hn x, fun σ => ?_⟩
  rw [← state_mulVec hb hn hd he x, hx]
  exact congrFun ((stateMap (K := ℝ) hb hn hd).map_smul e x) σ

/-- The states of the sector with the lowest energy are the multiples of one of them. -/
theorem ground_multiple (hc : RectConf c nbh nbv nb) (hf : c.Full) (h0 : c.nholes = 0) (hn : c.nbeta ≤ c.nsites) (hJ : 0 < I.J) (hij : B.bij = true)
    (hb : constructBasis c = .ok dets) (hH : buildHamiltonian E c I dets B r vb' = .ok H)
    {e : ℝ} (he : IsLeast {μ | Module.End.HasEigenvalue (Matrix.toLin' H.toMatrix) μ} e) {ψ φ : Conf c.nsites → ℝ}
    (hψ : ψ ∈ sectorEig I (fun t : Fin c.nsites => gridPos (nbh * nb) t) B c.nholes c.nbeta e) (hψ0 : ψ ≠ 0)
    (hφ : φ ∈ sectorEig I (fun t : Fin c.nsites => gridPos (nbh * nb) t) B c.nholes c.nbeta e) : ∃ a : ℝ, φ = a • ψ := by
  obtain ⟨e', he', hone⟩ := C109_unique E c nbh nbv nb hc hf h0 hn I hJ B hij r vb' dets hb H hH
  obtain rfl := he.unique he'
  rw [eigenspace_map hc hf (by omega) hb hH] at hone
  obtain ⟨a, ha⟩ := (finrank_eq_one_iff_of_nonzero' ⟨ψ, hψ⟩ (fun h => hψ0 (congrArg Subtype.val h))).1 hone ⟨φ, hφ⟩
  exact ⟨a, (congrArg Subtype.val ha).symm⟩

end

/-- C110. Without holes and with an antiferromagnetic coupling the lowest state of a sector has the total spin |nalpha - nbeta| / 2. -/
theorem C110_total_spin (E : Env) (c : Config) (nbh nbv nb : Nat) (hc : RectConf c nbh nbv nb) (hf : c.Full) (h0 : c.nholes = 0)
    (hn : c.nbeta ≤ c.nsites) (I : Interactions ℝ) (hJ : 0 < I.J) (B : BoolInteractions) (hz : B.bz = true) (hij : B.bij = true) (r : List Nat)
    (v : Bool) (dets : List (List Nat)) (hb : constructBasis c = .ok dets) (H : SpMat ℝ) (hH : buildHamiltonian E c I dets B r v = .ok H)
    (e : ℝ) (he : IsLeast {μ | Module.End.HasEigenvalue (Matrix.toLin' H.toMatrix) μ} e)
    (x : Fin H.dim → ℝ) (hx : H.toMatrix *ᵥ x = e • x) (hne : x ≠ 0) (σ : Conf c.nsites) :
    spin2 (state c dets x) σ = ((c.nalpha - c.nbeta).natAbs : ℝ) / 2 * (((c.nalpha - c.nbeta).natAbs : ℝ) / 2 + 1) * state c dets x σ := by
  have hn' : c.nholes + c.nbeta ≤ c.nsites := by omega
  obtain ⟨H', h1, hd, _, _⟩ := buildHamiltonian_spec I (hc.tj E) hf hn' hb B r v
  obtain rfl := Except.ok.inj (hH.symm.trans h1)
  have hmem := ground_mem (E := E) hc hf hn' hb hH hx
  have hne' : state c dets x ≠ 0 := fun h => hne (stateMap_injective (K := ℝ) hb hn' hd (h.trans ((stateMap (K := ℝ) hb hn' hd).map_zero).symm))
  have hM : ExchKernel (hamEl I (fun s : Fin c.nsites => gridPos (nbh * nb) s) B) := ham_kernel two_ne_zero I _ B (hz.trans hij.symm)
  have hs2 : spin2 (state c dets x) ∈ sectorEig I (fun t : Fin c.nsites => gridPos (nbh * nb) t) B c.nholes c.nbeta e := by
    refine ⟨fun τ hτ => ?_, fun τ => ?_⟩
    · by_contra hcon
      exact hτ (spin2_outside hb hn' _ hcon)
    · unfold tjOp
      have e1 := hM.comm (state c dets x) τ
      have e2 : (fun σ => ∑ τ, hamEl I (fun s : Fin c.nsites => gridPos (nbh * nb) s) B σ τ * state c dets x τ) = fun σ => e * state c dets x σ :=
        funext fun σ => hmem.2 σ
      rw [e2] at e1
      rw [e1]
      unfold spin2
      rw [mul_add, mul_sum]
      congr 1
      · ring
      · refine sum_congr rfl fun a _ => ?_
        rw [mul_sum]
        refine sum_congr rfl fun b _ => ?_
        split_ifs <;> ring
  obtain ⟨a, ha⟩ := ground_multiple hc hf h0 hn hJ hij hb hH he hmem hne' hs2
  -- a singlet product of the sector
  obtain ⟨p, o, ho, hp, hcnt, hm⟩ : ∃ (p : Nat) (o : Occ), o ≠ .hole ∧ ∃ hp : 2 * p ≤ c.nsites, (pairConf c.nsites p o).count .down = c.nbeta ∧
      ∀ τ : Conf c.nsites, τ.count .hole = c.nholes → τ.count .down = c.nbeta →
        ((τ.count o : ℝ) - τ.count o.rev) = ((c.nalpha - c.nbeta).natAbs : ℝ) := by
    have cast : ∀ (a b : Nat), b ≤ a → ((a : Int) - b).natAbs = (c.nalpha - c.nbeta).natAbs → (a : ℝ) - b = ((c.nalpha - c.nbeta).natAbs : ℝ) := by
      intro a b hab h
      rw [← h, show ((a : Int) - b).natAbs = a - b by omega, Nat.cast_sub hab]
    by_cases h2 : 2 * c.nbeta ≤ c.nsites
    · refine ⟨c.nbeta, .up, by decide, h2, (pairConf_count h2 (by decide)).2, fun τ t1 t2 => ?_⟩
      have t3 := count_sum τ
      refine cast _ _ ?_ ?_ <;> simp only [Occ.rev, Config.nalpha] <;> omega
    · have h3 : 2 * (c.nsites - c.nbeta) ≤ c.nsites := by omega
      refine ⟨c.nsites - c.nbeta, .down, by decide, h3, ?_, fun τ t1 t2 => ?_⟩
      · have q1 := pairConf_count h3 (o := .down) (by decide)
        have q2 := count_sum (pairConf c.nsites (c.nsites - c.nbeta) .down)
        simp only [Occ.rev] at q1
        omega
      · have t3 := count_sum τ
        refine cast _ _ ?_ ?_ <;> simp only [Occ.rev, Config.nalpha] <;> omega
  set pos := (fun t : Fin c.nsites => gridPos (nbh * nb) t) with hpos
  have hov := vb_overlap (E := E) hc hf h0 hn hJ hij hb hH he hx hne hp ho hcnt
  have hw : 0 < nbh * nb := Nat.mul_pos hc.hh hc.hb
  have hlad := vb_ladder (pos := pos) (pairUp_pairUp hp) (fun s hs => pairUp_colour hp hw s hs) ho
  have hext := fun τ => spin2_extremal ho (vb pos (pairUp c.nsites p hp) o) hlad τ
  have key := spin2_symm (state c dets x) (vb pos (pairUp c.nsites p hp) o)
  set m : ℝ := ((c.nalpha - c.nbeta).natAbs : ℝ) with hmdef
  have l1 : (∑ τ, vb pos (pairUp c.nsites p hp) o τ * spin2 (state c dets x) τ) = a * ∑ τ, vb pos (pairUp c.nsites p hp) o τ * state c dets x τ := by
    rw [ha, mul_sum]
    refine sum_congr rfl fun τ _ => ?_
    rw [Pi.smul_apply, smul_eq_mul]
    ring
  have l2 : (∑ τ, spin2 (vb pos (pairUp c.nsites p hp) o) τ * state c dets x τ) =
      m / 2 * (m / 2 + 1) * ∑ τ, vb pos (pairUp c.nsites p hp) o τ * state c dets x τ := by
    rw [mul_sum]
    refine sum_congr rfl fun τ _ => ?_
    by_cases hτ : state c dets x τ = 0
    · rw [hτ]; ring
    · have hs := state_sector hb hn' x τ hτ
      rw [hext, hm τ hs.1 hs.2]
      ring
  rw [l1, l2] at key
  have ha' : a = m / 2 * (m / 2 + 1) := mul_right_cancel₀ hov key
  rw [ha, Pi.smul_apply, smul_eq_mul, ha']

/-- C110. The number computed for that state by `compute_spin_number`. -/
theorem C110_spin_number (E : Env) (S : SetSem) (swap : Bool) (c : Config) (nbh nbv nb : Nat) (hc : RectConf c nbh nbv nb) (hf : c.Full)
    (h0 : c.nholes = 0) (hn : c.nbeta ≤ c.nsites) (I : Interactions ℝ) (hJ : 0 < I.J) (B : BoolInteractions) (hz : B.bz = true) (hij : B.bij = true)
    (r : List Nat) (v : Bool) (dets : List (List Nat)) (hb : constructBasis c = .ok dets) (H : SpMat ℝ)
    (hH : buildHamiltonian E c I dets B r v = .ok H)
    (e : ℝ) (he : IsLeast {μ | Module.End.HasEigenvalue (Matrix.toLin' H.toMatrix) μ} e)
    (x : Fin H.dim → ℝ) (hx : H.toMatrix *ᵥ x = e • x) (hne : x ≠ 0) :
    computeSpinNumber S swap c (List.ofFn x) = .ok (.num (((c.nalpha - c.nbeta).natAbs : ℝ) / 2)) := by
  have hn' : c.nholes + c.nbeta ≤ c.nsites := by omega
  obtain ⟨H', h1, hd, _, _⟩ := buildHamiltonian_spec I (hc.tj E) hf hn' hb B r v
  obtain rfl := Except.ok.inj (hH.symm.trans h1)
  have hm := C110_total_spin E c nbh nbv nb hc hf h0 hn I hJ B hz hij r v dets hb H hH e he x hx hne
  set m := (c.nalpha - c.nbeta).natAbs with hmdef
  have hlen : (List.ofFn x).length = dets.length := by rw [List.length_ofFn, hd]
  obtain ⟨w, w1, w2, w3⟩ := computeS2_spec (two_ne_zero (α := ℝ)) S hf (C39_one_hole_in_order S c (by omega)) hn' hb (List.ofFn x) hlen
  have hpos : vdot (List.ofFn x) (List.ofFn x) ≠ 0 := by
    rw [vdot_amp hb hn' _ _ hlen hlen]
    have hne' : state c dets x ≠ 0 :=
      fun h => hne (stateMap_injective (K := ℝ) hb hn' hd (h.trans ((stateMap (K := ℝ) hb hn' hd).map_zero).symm))
    obtain ⟨σ, hσ⟩ := Function.ne_iff.1 hne'
    apply ne_of_gt
    refine lt_of_lt_of_le (mul_self_pos.2 hσ) ?_
    exact single_le_sum (f := fun σ => amp c dets (List.ofFn x) σ * amp c dets (List.ofFn x) σ) (fun τ _ => mul_self_nonneg _) (mem_univ σ)
  have hexp : computeS2ExpVal S c (List.ofFn x) = .ok ((m : ℝ) / 2 * ((m : ℝ) / 2 + 1)) := by
    unfold computeS2ExpVal
    dsimp only
    rw [if_pos hpos, w1]
    have : vdot (List.ofFn x) w = (m : ℝ) / 2 * ((m : ℝ) / 2 + 1) * vdot (List.ofFn x) (List.ofFn x) := by
      rw [vdot_amp hb hn' _ _ hlen w2, vdot_amp hb hn' _ _ hlen hlen, amp_S2 hb hn' _ _ w3, mul_sum]
      refine sum_congr rfl fun σ _ => ?_
      rw [hm σ]; ring
    show Except.ok (vdot (List.ofFn x) w / vdot (List.ofFn x) (List.ofFn x)) = _
    rw [this, mul_div_cancel_right₀ _ hpos]
  obtain ⟨s, s1, rfl⟩ := C41_spin_number_exact S swap c (List.ofFn x) m hexp
  exact s1

/-- C110. The lowest energies of the sectors are strictly ordered: the closer nbeta is to half of the sites, the lower. -/
theorem C110_order (E : Env) (c : Config) (nbh nbv nb : Nat) (hc : RectConf c nbh nbv nb) (hf : c.Full) (h0 : c.nholes = 0)
    (b' : Nat) (h1 : c.nbeta < b') (h2 : 2 * b' ≤ c.nsites) (I : Interactions ℝ) (hJ : 0 < I.J) (B : BoolInteractions) (hz : B.bz = true)
    (hij : B.bij = true) (dets dets' : List (List Nat)) (hb : constructBasis c = .ok dets) (hb' : constructBasis { c with nbeta := b' } = .ok dets')
    (H H' : SpMat ℝ) (hH : buildHamiltonian E c I dets B = .ok H) (hH' : buildHamiltonian E { c with nbeta := b' } I dets' B = .ok H')
    (e e' : ℝ) (he : IsLeast {μ | Module.End.HasEigenvalue (Matrix.toLin' H.toMatrix) μ} e)
    (he' : IsLeast {μ | Module.End.HasEigenvalue (Matrix.toLin' H'.toMatrix) μ} e') : e' < e := by
  have hB : B.bz = B.bij := hz.trans hij.symm
  set pos := (fun t : Fin c.nsites => gridPos (nbh * nb) t) with hpos
  have hfin : 0 < Module.finrank ℝ (Module.End.eigenspace (Matrix.toLin' H.toMatrix) e) := by
    rw [Module.finrank_pos_iff, Submodule.nontrivial_iff_ne_bot]
    exact he.1
  have hle : e' ≤ e := by
    refine he'.2 ?_
    have := C88_energies_occur E c nbh nbv nb hc hf b' (by omega) (by omega) I B hB dets dets' hb hb' H H' hH hH' e
    have hpos' := lt_of_lt_of_le hfin this
    rw [Module.finrank_pos_iff, Submodule.nontrivial_iff_ne_bot] at hpos'
    exact hpos'
  refine lt_of_le_of_ne hle ?_
  rintro rfl
  -- a state of the sector just before with that energy
  rw [eigenspace_map hc hf (by omega) hb hH] at hfin
  have hmany := sectorEig_lower_many I pos B hB (h := c.nholes) (b := c.nbeta) e' (b' - 1 - c.nbeta) (by omega)
  have hfin' := lt_of_lt_of_le hfin hmany
  rw [show c.nbeta + (b' - 1 - c.nbeta) = b' - 1 by omega, Module.finrank_pos_iff] at hfin'
  obtain ⟨⟨φ, hφ⟩, hφ0⟩ := exists_ne (0 : sectorEig I pos B c.nholes (b' - 1) e')
  have hφ0 : φ ≠ 0 := fun h => hφ0 (Subtype.ext h)
  have hM : ExchKernel (hamEl I pos B) := ham_kernel two_ne_zero I _ B hB
  have hlow : lower φ ∈ sectorEig I pos B c.nholes b' e' := by
    refine ⟨?_, fun σ => ?_⟩
    · have := lower_sector hφ.1
      rwa [show b' - 1 + 1 = b' by omega] at this
    · unfold tjOp
      rw [lower_comm hM]
      have : (fun σ => ∑ τ, hamEl I pos B σ τ * φ τ) = e' • φ := funext fun σ => hφ.2 σ
      rw [this, LinearMap.map_smul]
      rfl
  have hlow0 : lower φ ≠ 0 := fun h => hφ0 (lower_injective (by omega) hφ.1 h)
  obtain ⟨x, hx, hne⟩ := he'.1.exists_hasEigenvector
  rw [Module.End.mem_eigenspace_iff, Matrix.toLin'_apply] at hx
  have hmem := ground_mem (E := E) (c := { c with nbeta := b' }) (hc.with_nbeta b') hf (show c.nholes + b' ≤ c.nsites by omega) hb' hH' hx
  obtain ⟨a, ha⟩ := ground_multiple (c := { c with nbeta := b' }) (hc.with_nbeta b') hf h0 (show b' ≤ c.nsites by omega) hJ hij hb' hH' he' hlow hlow0 hmem
  have hcnt := (pairConf_count (n := c.nsites) h2 (o := .up) (by decide)).2
  have hov := vb_overlap (E := E) (c := { c with nbeta := b' }) (hc.with_nbeta b') hf h0 (show b' ≤ c.nsites by omega) hJ hij hb' hH' he' hx hne h2
    (o := .up) (by decide) hcnt
  apply hov
  have hw : 0 < nbh * nb := Nat.mul_pos hc.hh hc.hb
  have hlad := vb_ladder (pos := pos) (o := .up) (pairUp_pairUp h2) (fun s hs => pairUp_colour h2 hw s hs) (by decide)
  have hz' : (∑ τ, vb pos (pairUp c.nsites b' h2) .up τ * lower φ τ) = 0 := by
    rw [lower_adjoint]
    refine sum_eq_zero fun σ _ => ?_
    have : (∑ a, if σ a = .up then vb pos (pairUp c.nsites b' h2) .up (Function.update σ a .down) else 0) = 0 := hlad σ
    rw [this, zero_mul]
  have : (∑ τ, vb pos (pairUp c.nsites b' h2) .up τ * (a • lower φ) τ) = 0 := by
    rw [← mul_zero a, ← hz', mul_sum]
    refine sum_congr rfl fun τ _ => ?_
    rw [Pi.smul_apply, smul_eq_mul]
    ring
  refine Eq.trans (sum_congr rfl fun τ _ => ?_) this
  exact congrArg _ (congrFun ha τ)

/-! ### A case that meets the hypotheses -/

/-- Couplings of the example: an antiferromagnet. -/
noncomputable def antiferroI : Interactions ℝ := ⟨-1, 2, 3, 4, 5, 6, 7, 8, 9, 10⟩

/-- 2 x 2 lattice without holes: the sectors with one and with two down spins. -/
example : ∃ dets dets' H H', constructBasis (rectConf 2 2 1 0 1) = .ok dets ∧ constructBasis (rectConf 2 2 1 0 2) = .ok dets' ∧
    buildHamiltonian exEnv (rectConf 2 2 1 0 1) antiferroI dets ⟨true, true, true, true, true, true⟩ = .ok H ∧
    buildHamiltonian exEnv (rectConf 2 2 1 0 2) antiferroI dets' ⟨true, true, true, true, true, true⟩ = .ok H' ∧ H.dim = 4 ∧ H'.dim = 6 ∧
    ∃ (e e' : ℝ) (x : Fin H.dim → ℝ) (x' : Fin H'.dim → ℝ), IsLeast {μ | Module.End.HasEigenvalue (Matrix.toLin' H.toMatrix) μ} e ∧
      IsLeast {μ | Module.End.HasEigenvalue (Matrix.toLin' H'.toMatrix) μ} e' ∧ H.toMatrix *ᵥ x = e • x ∧ H'.toMatrix *ᵥ x' = e' • x' ∧
      x ≠ 0 ∧ x' ≠ 0 ∧ e' < e ∧
      computeSpinNumber SetSem.listed false (rectConf 2 2 1 0 1) (List.ofFn x) = .ok (.num 1) ∧
      computeSpinNumber SetSem.listed false (rectConf 2 2 1 0 2) (List.ofFn x') = .ok (.num 0) := by
  have hc : RectConf (rectConf 2 2 1 0 1) 2 2 1 := rectConf_ok _ _ _ _ _ (by decide) (by decide) (by decide)
  have hf : Config.Full (rectConf 2 2 1 0 1) := by unfold Config.Full; decide
  have hJ : 0 < antiferroI.J := show (0 : ℝ) < 2 by norm_num
  obtain ⟨d, H, a1, a2, _, a3, _⟩ := C30_no_failure exEnv _ 2 2 1 hc hf (by decide) antiferroI ⟨true, true, true, true, true, true⟩ [] false
  obtain ⟨d', H', b1, b2, _, b3, _⟩ := C30_no_failure exEnv _ 2 2 1 (hc.with_nbeta 2) hf (by decide) antiferroI ⟨true, true, true, true, true, true⟩ [] false
  have g1 : H.dim = 4 := by
    have : (H.dim : Int) = 4 := a3.trans (by decide)
    omega
  have g2 : H'.dim = 6 := by
    have : (H'.dim : Int) = 6 := b3.trans (by decide)
    omega
  obtain ⟨e, he, _⟩ := C109_unique exEnv _ 2 2 1 hc hf rfl (by decide) antiferroI hJ _ rfl [] false d a1 H a2
  obtain ⟨e', he', _⟩ := C109_unique exEnv _ 2 2 1 (hc.with_nbeta 2) hf rfl (by decide) antiferroI hJ _ rfl [] false d' b1 H' b2
  obtain ⟨x, hx, hne⟩ := he.1.exists_hasEigenvector
  obtain ⟨x', hx', hne'⟩ := he'.1.exists_hasEigenvector
  rw [Module.End.mem_eigenspace_iff, Matrix.toLin'_apply] at hx hx'
  refine ⟨d, d', H, H', a1, b1, a2, b2, g1, g2, e, e', x, x', he, he', hx, hx', hne, hne', ?_, ?_, ?_⟩
  · exact C110_order exEnv _ 2 2 1 hc hf rfl 2 (by decide) (by decide) antiferroI hJ _ rfl rfl d d' a1 b1 H H' a2 b2 e e' he he'
  · rw [C110_spin_number exEnv SetSem.listed false _ 2 2 1 hc hf rfl (by decide) antiferroI hJ _ rfl rfl [] false d a1 H a2 e he x hx hne]
    have : (Config.nalpha (rectConf 2 2 1 0 1) - (rectConf 2 2 1 0 1).nbeta).natAbs = 2 := by decide
    rw [this]
    norm_num
  · have := C110_spin_number exEnv SetSem.listed false _ 2 2 1 (hc.with_nbeta 2) hf rfl (by decide) antiferroI hJ _ rfl rfl [] false d' b1 H' b2
      e' he' x' hx' hne'
    have h2 : (Config.nalpha (rectConf 2 2 1 0 2) - (rectConf 2 2 1 0 2).nbeta).natAbs = 0 := by decide
    refine Eq.trans this ?_
    show Except.ok (SpinNumber.num (((Config.nalpha (rectConf 2 2 1 0 2) - (rectConf 2 2 1 0 2).nbeta).natAbs : ℝ) / 2)) = _
    rw [h2]
    norm_num

end TJ
