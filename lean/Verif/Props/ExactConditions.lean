/-
Exact conditions for properties that the code satisfies only in part: C20, C43, C49, C71, C78, C94, C96.
-/
import Mathlib.LinearAlgebra.Dimension.Finite
import Mathlib.LinearAlgebra.Dimension.Constructions
import Verif.Props.Davidson2
import Verif.Props.GramSchmidt
import Verif.Props.Linear
import Verif.Props.Plots

namespace TJ

open Finset Matrix

section
variable {K : Type} [Field K] [LinearOrder K] [IsStrictOrderedRing K] {d : Nat}

/-! ### C20 -/

/-- C20, exact condition: on a block with peripheral sites the collinearity test is right for all triples of
neighbours if and only if the block has at least two rows and two columns. -/
theorem C20_right_iff (E : Env) (c : Config) (hc : PeriConf c) :
    (∀ a m b, a < c.nsites → m < c.nsites → b < c.nsites → a ≠ b → c.bond.e m a = 1 → c.bond.e m b = 1 →
      ∀ s1 s2 s3, [s1, s2, s3].Perm [a, m, b] → isBondLinear E c s1 s2 s3 =
        .ok (decide (Aligned (periPos (c.nbh * c.nblocs) (c.nbv * c.nblocs) a)
          (periPos (c.nbh * c.nblocs) (c.nbv * c.nblocs) m) (periPos (c.nbh * c.nblocs) (c.nbv * c.nblocs) b)))) ↔
    2 ≤ c.nbh * c.nblocs ∧ 2 ≤ c.nbv * c.nblocs := by
  have hW : 1 ≤ c.nbh * c.nblocs := Nat.mul_pos hc.hh hc.hb
  have hH : 1 ≤ c.nbv * c.nblocs := Nat.mul_pos hc.hv hc.hb
  constructor
  · intro h
    by_contra hne
    obtain ⟨a, b, h1, h2, h3, h4, h5, h6, h7⟩ := C20_thin_fails E c hc (by omega)
    have h0 : 0 < c.nsites := by omega
    have := h a 0 b h1 h0 h2 h3 h4 h5 a 0 b (List.Perm.refl _)
    rw [h7, decide_eq_true h6] at this
    cases this
  · rintro ⟨h1, h2⟩ a m b ha hm hb hab g1 g2 s1 s2 s3 hp
    exact C20_peripheral_linear_partial E c hc h1 h2 a m b ha hm hb hab g1 g2 s1 s2 s3 hp

/-! ### C43, C94 -/

/-- C43, exact condition: for a non-zero vector, the arrays hold the probabilities of the three species at every site if
and only if the vector has norm 1. -/
theorem C43_right_iff (c : Config) (hc : RectConf c c.nbh c.nbv c.nblocs) (dets : List (List Nat))
    (hb : constructBasis c = .ok dets) (hn : c.nholes + c.nbeta ≤ c.nsites) (v : List K) (hv : v.length = dets.length)
    (h0 : ∃ x ∈ v, x ≠ 0) :
    ∃ A : Occ → NdArr K, (∀ o, probabilityRectangular c dets v o.twice = .ok (A o)) ∧
      ((∀ o (x y : Nat), x < c.nbh * c.nblocs → y < c.nbv * c.nblocs → ∀ s : Fin c.nsites, gridPos (c.nbh * c.nblocs) s = ((x : Int), (y : Int)) →
        (A o).e (c.nbv * c.nblocs - 1 - y) x = born (amp c dets v) s o) ↔ vdot v v = 1) := by
  choose A A1 A2 A3 A4 using fun o => C43_placement_partial c hc dets hb hn v hv o
  refine ⟨A, A1, ?_⟩
  have hpos : 0 < c.nbh * c.nblocs := Nat.mul_pos hc.hh hc.hb
  have hpos2 : 0 < c.nbv * c.nblocs := Nat.mul_pos hc.hv hc.hb
  obtain ⟨q1, q2⟩ := norm_ne_zero c dets hb hn v hv h0
  constructor
  · intro h
    have hs0 : 0 < c.nsites := by rw [hc.spec.1]; exact Nat.mul_pos hpos hpos2
    have hg : gridPos (c.nbh * c.nblocs) ((⟨0, hs0⟩ : Fin c.nsites) : Nat) = (((0 : Nat) : Int), ((0 : Nat) : Int)) := by
      unfold gridPos; simp
    have e := fun o => (A4 o 0 0 hpos hpos2 ⟨0, hs0⟩ hg).symm.trans (h o 0 0 hpos hpos2 ⟨0, hs0⟩ hg)
    have hsum : born (amp c dets v) ⟨0, hs0⟩ .hole + born (amp c dets v) ⟨0, hs0⟩ .down + born (amp c dets v) ⟨0, hs0⟩ .up = 1 := born_sum _ _ q2
    have : (1 : K) / vdot v v = 1 := by
      rw [← hsum, add_div, add_div, e, e, e]
    exact ((div_eq_one_iff_eq q1).1 this).symm
  · intro h1 o x y hx hy s hs
    rw [A4 o x y hx hy s hs, h1, div_one]

/-- C94, exact condition: the picture of a normalised state shows every site at its place if and only if the probabilities of the sites
(x, y) and (x, H - 1 - y) are equal, for a lattice of H rows. -/
theorem C94_right_iff (c : Config) (hc : RectConf c c.nbh c.nbv c.nblocs) (dets : List (List Nat))
    (hb : constructBasis c = .ok dets) (hn : c.nholes + c.nbeta ≤ c.nsites) (v : List K) (hv : v.length = dets.length) (o : Occ)
    (hnorm : vdot v v = 1) :
    ∃ A, probabilityRectangular c dets v o.twice = .ok A ∧
      ((∀ x y : Nat, x < c.nbh * c.nblocs → y < c.nbv * c.nblocs → ∀ s : Fin c.nsites, gridPos (c.nbh * c.nblocs) s = ((x : Int), (y : Int)) →
        A.drawnAt x y = born (amp c dets v) s o) ↔
      ∀ s s' : Fin c.nsites, (gridPos (c.nbh * c.nblocs) s).1 = (gridPos (c.nbh * c.nblocs) s').1 →
        (gridPos (c.nbh * c.nblocs) s).2 + (gridPos (c.nbh * c.nblocs) s').2 = ((c.nbv * c.nblocs : Nat) : Int) - 1 →
        born (amp c dets v) s o = born (amp c dets v) s' o) := by
  obtain ⟨A, a1, a2, a3, a4⟩ := C94_flipped c hc dets hb hn v hv o
  refine ⟨A, a1, ?_⟩
  have hsize : c.nsites = (c.nbh * c.nblocs) * (c.nbv * c.nblocs) := hc.spec.1
  have hpos : 0 < c.nbh * c.nblocs := Nat.mul_pos hc.hh hc.hb
  rw [hnorm] at a4
  simp only [div_one] at a4
  constructor
  · intro h s s' h1 h2
    have hx : (s : Nat) % (c.nbh * c.nblocs) < c.nbh * c.nblocs := Nat.mod_lt _ hpos
    have hy : (s : Nat) / (c.nbh * c.nblocs) < c.nbv * c.nblocs := Nat.div_lt_of_lt_mul (hsize ▸ s.2)
    have hs : gridPos (c.nbh * c.nblocs) s = ((((s : Nat) % (c.nbh * c.nblocs) : Nat) : Int), (((s : Nat) / (c.nbh * c.nblocs) : Nat) : Int)) := by
      unfold gridPos; push_cast; rfl
    have hs' : gridPos (c.nbh * c.nblocs) s' = ((((s : Nat) % (c.nbh * c.nblocs) : Nat) : Int), ((c.nbv * c.nblocs - 1 - (s : Nat) / (c.nbh * c.nblocs) : Nat) : Int)) := by
      rw [hs] at h1 h2
      refine Prod.ext h1.symm ?_
      simp only at h2 ⊢
      omega
    rw [← h _ _ hx hy s hs, a4 _ _ hy s' hs' hx]
  · intro h x y hx hy s hs
    have hlt : (c.nbv * c.nblocs - 1 - y) * (c.nbh * c.nblocs) + x < c.nsites := by
      rw [hsize]
      calc (c.nbv * c.nblocs - 1 - y) * (c.nbh * c.nblocs) + x < (c.nbv * c.nblocs - 1 - y) * (c.nbh * c.nblocs) + c.nbh * c.nblocs := by omega
        _ = (c.nbv * c.nblocs - 1 - y + 1) * (c.nbh * c.nblocs) := by ring
        _ ≤ (c.nbv * c.nblocs) * (c.nbh * c.nblocs) := Nat.mul_le_mul_right _ (by omega)
        _ = _ := by ring
    have hp : gridPos (c.nbh * c.nblocs) ((c.nbv * c.nblocs - 1 - y) * (c.nbh * c.nblocs) + x) = ((x : Int), ((c.nbv * c.nblocs - 1 - y : Nat) : Int)) := by
      unfold gridPos
      rw [Nat.mul_comm, Nat.mul_add_mod, Nat.mod_eq_of_lt hx, Nat.mul_add_div (by omega), Nat.div_eq_of_lt hx, Nat.add_zero]
    rw [a4 x y hy ⟨_, hlt⟩ hp hx]
    refine h _ _ ?_ ?_
    · rw [hs]; simp only [hp]
    · rw [hs]; simp only [hp]; omega

/-! ### C96 -/

/-- C96, exact condition: for a normalised state the panel 'Charge density' is the sum of the first two panels if and only if there is no down
spin. -/
theorem C96_right_iff (c : Config) (hc : RectConf c c.nbh c.nbv c.nblocs) (dets : List (List Nat))
    (hb : constructBasis c = .ok dets) (hn : c.nholes + c.nbeta ≤ c.nsites) (eigvects : List (List K)) (k : Nat) (v : List K)
    (hk : eigvects[k]? = some v) (hv : v.length = dets.length) (h1 : vdot v v = 1) :
    ∃ a b p, electronPanels c dets eigvects k = .ok (some (a, b, p)) ∧
      ((∀ x y, x < c.nbh * c.nblocs → y < c.nbv * c.nblocs → p.drawnAt x y = a.drawnAt x y + b.drawnAt x y) ↔ c.nbeta = 0) := by
  have h0 : ∃ x ∈ v, x ≠ 0 := by
    by_contra hne
    push Not at hne
    rw [show vdot v v = 0 from ?_] at h1
    · exact zero_ne_one h1
    · rw [List.eq_replicate_of_mem hne]
      simp [vdot]
  have hsize : c.nsites = (c.nbh * c.nblocs) * (c.nbv * c.nblocs) := hc.spec.1
  obtain ⟨a, b, p, e1, e2⟩ := C96_third_panel c hc dets hb hn eigvects k v hk hv
  refine ⟨a, b, p, e1, ?_⟩
  constructor
  · intro h
    by_contra hbeta
    obtain ⟨a', b', p', f1, x, y, hx, hy, hne⟩ := C96_not_the_charge c hc dets hb hn eigvects k v hk hv h0 hbeta
    rw [e1] at f1
    obtain ⟨rfl, rfl, rfl⟩ : a = a' ∧ b = b' ∧ p = p' := by
      have := Option.some.inj (Except.ok.inj f1)
      exact ⟨congrArg Prod.fst this, congrArg (fun z => z.2.1) this, congrArg (fun z => z.2.2) this⟩
    exact hne (h x y hx hy)
  · intro hbeta x y hx hy
    have hlt : (c.nbv * c.nblocs - 1 - y) * (c.nbh * c.nblocs) + x < c.nsites := by
      rw [hsize]
      calc (c.nbv * c.nblocs - 1 - y) * (c.nbh * c.nblocs) + x < (c.nbv * c.nblocs - 1 - y) * (c.nbh * c.nblocs) + c.nbh * c.nblocs := by omega
        _ = (c.nbv * c.nblocs - 1 - y + 1) * (c.nbh * c.nblocs) := by ring
        _ ≤ (c.nbv * c.nblocs) * (c.nbh * c.nblocs) := Nat.mul_le_mul_right _ (by omega)
        _ = _ := by ring
    have hp : gridPos (c.nbh * c.nblocs) ((c.nbv * c.nblocs - 1 - y) * (c.nbh * c.nblocs) + x) = ((x : Int), ((c.nbv * c.nblocs - 1 - y : Nat) : Int)) := by
      unfold gridPos
      rw [Nat.mul_comm, Nat.mul_add_mod, Nat.mod_eq_of_lt hx, Nat.mul_add_div (by omega), Nat.div_eq_of_lt hx, Nat.add_zero]
    obtain ⟨q1, q2, q3⟩ := e2 x y hx hy ⟨_, hlt⟩ hp
    have hsum := born_down_sum c dets hb hn v hv h0
    obtain ⟨P, P1, P2, P3, _⟩ := C42_probabilities c dets hb hn v hv h0
    have hz : born (amp c dets v) ⟨_, hlt⟩ .down = 0 := by
      rw [hbeta, Nat.cast_zero] at hsum
      refine (Finset.sum_eq_zero_iff_of_nonneg fun s _ => ?_).1 hsum _ (Finset.mem_univ _)
      rw [← (P2 .down s).1]; exact (P2 .down s).2.1
    rw [q1, q2, q3, hz, sub_zero, zero_div, add_zero]

/-! ### C49 -/

/-- A correction that differs from the search space by at most `droptol` does not survive. -/
theorem project_small (L : LinAlg K) (hL : L.ExactSqrt) (krylov : List (Fin d → K)) (hV : Ortho krylov) (t e : Fin d → K) (droptol : K)
    (he : InSpan krylov (t - e)) (hd : L.norm e ≤ droptol) :
    L.norm (krylov.foldl (fun t q => (1 - vecMulVec q q) *ᵥ t) t) ≤ droptol := by
  obtain ⟨p1, p2⟩ := project_pass krylov hV t
  set s := krylov.foldl (fun t q => (1 - vecMulVec q q) *ᵥ t) t
  have hspan : InSpan krylov (e - s) := by
    have : e - s = (t - s) + (-1 : K) • (t - e) := by
      ext i; simp only [Pi.sub_apply, Pi.add_apply, Pi.smul_apply, smul_eq_mul]; ring
    rw [this]
    exact inSpan_add p2 (inSpan_smul he _)
  have horth : (e - s) ⬝ᵥ s = 0 := by
    obtain ⟨y, hy⟩ := hspan
    rw [hy]
    have := combine_dot_left krylov y s
    unfold combine at this
    rw [this]
    exact sum_eq_zero fun i _ => by rw [p1 _ (List.get_mem _ _), mul_zero]
  rw [norm_le_iff hL] at hd ⊢
  refine ⟨hd.1, le_trans ?_ hd.2⟩
  have hpos : 0 ≤ (e - s) ⬝ᵥ (e - s) := dot_self_nonneg _
  have : e ⬝ᵥ e = s ⬝ᵥ s + (e - s) ⬝ᵥ (e - s) + 2 * ((e - s) ⬝ᵥ s) := by
    have h2 : s ⬝ᵥ e = e ⬝ᵥ s := dotProduct_comm _ _
    rw [sub_dotProduct, dotProduct_sub, dotProduct_sub, sub_dotProduct, h2]
    ring
  rw [this, horth]
  linarith

/-- C49, exact condition: the returned columns extend the (non-empty) search space orthonormally if and only if one of the corrections
differs by more than `droptol` from every vector of the search space. -/
theorem C49_right_iff (L : LinAlg K) (hL : L.ExactSqrt) (krylov temp : List (Fin d → K)) (hV : Ortho krylov) (hk : krylov ≠ [])
    (droptol eta : K) (h0 : 0 ≤ droptol) (nu : Nat) (hnu : nu ≤ temp.length) :
    ∃ R, getMeaningfulCorrections L krylov temp droptol eta nu = .ok R ∧
      (Ortho (krylov ++ R) ↔ ∃ k < nu, ∀ e, InSpan krylov (temp.getD k 0 - e) → droptol < L.norm e) := by
  obtain ⟨new, n1, n2, n3, n4⟩ := C49_corrections_partial L hL krylov temp hV droptol eta h0 nu hnu
  have htwice : ¬ Ortho (krylov ++ krylov) := by
    intro h
    obtain ⟨x, hx⟩ := List.exists_mem_of_ne_nil _ hk
    obtain ⟨g1, g2⟩ := (ortho_iff _).1 h
    have := (List.pairwise_append.1 g2).2.2 x hx x hx
    rw [g1 x (List.mem_append_left _ hx)] at this
    exact one_ne_zero this
  refine ⟨_, n1, ?_⟩
  by_cases hnew : new = []
  · rw [if_pos hnew]
    refine ⟨fun h => absurd h htwice, ?_⟩
    rintro ⟨k, hk, he⟩
    obtain ⟨e, e1, e2⟩ := n4 k hk
    rw [hnew, List.append_nil] at e2
    exact absurd e1 (not_le.2 (he e e2))
  · rw [if_neg hnew]
    refine ⟨fun _ => ?_, fun _ => n2⟩
    by_contra hall
    push Not at hall
    have hloop : ∀ m ≤ nu, (List.range m).foldlM (fun (st : List (Fin d → K) × Nat) corr => (do
        let t0 ← pyGet temp corr
        let t ← projectLoop L eta st.1 2 0 t0
        if droptol < L.norm t then return (st.1 ++ [(L.norm t)⁻¹ • t], st.2 + 1)
        else return st : Py (List (Fin d → K) × Nat))) (krylov, 0) = .ok (krylov, 0) := by
      intro m
      induction m with
      | zero => intro _; rfl
      | succ m ih =>
        intro hm
        refine foldlM_range_succ (ih (by omega)) (bind_ok (a := temp.getD m 0) ?_ (bind_ok (projectLoop_eq _ _ _ _) ?_))
        · rw [pyGet_get (by omega), List.getD_eq_getElem?_getD, List.getElem?_eq_getElem (by omega)]; rfl
        · obtain ⟨e, e1, e2⟩ := hall m (by omega)
          rw [if_neg (not_lt.2 (project_small L hL krylov hV _ e droptol e1 e2))]
          rfl
    have : getMeaningfulCorrections L krylov temp droptol eta nu = .ok krylov := by
      unfold getMeaningfulCorrections
      exact bind_ok (hloop nu (le_refl _)) rfl
    rw [this, if_neg hnew] at n1
    rw [← Except.ok.inj n1] at n2
    exact htwice n2

/-! ### C71 -/

/-- There are at most `d` orthonormal vectors. -/
theorem ortho_length (Q : List (Fin d → K)) (h : Ortho Q) : Q.length ≤ d := by
  have hli : LinearIndependent K (fun i : Fin Q.length => Q.get i) := by
    rw [Fintype.linearIndependent_iff]
    intro g hg i
    have h1 : (∑ j, g j • Q.get j) ⬝ᵥ Q.get i = g i := by
      have := combine_dot_left Q g (Q.get i)
      unfold combine at this
      rw [this, Finset.sum_eq_single i]
      · rw [h, if_pos rfl, mul_one]
      · intro j _ hj
        rw [h, if_neg hj, mul_zero]
      · intro hi; exact absurd (Finset.mem_univ _) hi
    rw [hg, zero_dotProduct] at h1
    exact h1.symm
  have := hli.fintype_card_le_finrank
  simpa using this

/-- C71, exact condition: for independent columns, `gramSchmidt` returns as many orthonormal columns if and only if the array is
square. -/
theorem C71_right_iff (L : LinAlg K) (hL : L.ExactSqrt) (V : List (Fin d → K)) (h1 : 1 ≤ d) (hV : Independent V) :
    (∃ Q, gramSchmidt L V = .ok Q ∧ Q.length = V.length ∧ Ortho Q ∧
      ∀ k ≤ V.length, (∀ x ∈ V.take k, InSpan (Q.take k) x) ∧ ∀ x ∈ Q.take k, InSpan (V.take k) x) ↔ V.length = d := by
  constructor
  · rintro ⟨Q, q1, q2, q3, _⟩
    have := ortho_length Q q3
    by_contra hne
    rw [C71_rectangular_fails L V (by omega)] at q1
    cases q1
  · intro hd
    obtain ⟨Q, q1, q2, q3, q4⟩ := C71_gram_schmidt_partial L hL V hd h1 hV
    exact ⟨Q, q1, by omega, q3, fun k hk => q4 k (by omega)⟩

end

/-! ### C78 -/

/-- C78, exact condition: `m > 0` pictures find their cells if and only if at least four subplots are asked for. -/
theorem C78_right_iff (k m : Nat) (hm : 0 < m) : (∃ cells, subplots k m = .ok cells) ↔ 4 ≤ k := by
  constructor
  · rintro ⟨cells, h⟩
    by_contra hk
    obtain ⟨g1, g2⟩ := C78_single_cell k m hm
    rcases Nat.eq_zero_or_pos k with h0 | h0
    · rw [h0, g2] at h; cases h
    · rw [g1 h0 (by omega)] at h; cases h
  · intro hk
    obtain ⟨cells, h, _⟩ := C78_cells_partial k m hk
    exact ⟨cells, h⟩

/-! ### Cases -/

/-- C20: blocks of 2 x 2 and 1 x 3 sites. -/
example : (2 ≤ (periConf 1 1 2 0 0).nbh * (periConf 1 1 2 0 0).nblocs ∧ 2 ≤ (periConf 1 1 2 0 0).nbv * (periConf 1 1 2 0 0).nblocs) ∧
    PeriConf (periConf 1 3 1 0 0) ∧ ¬ 2 ≤ (periConf 1 3 1 0 0).nbh * (periConf 1 3 1 0 0).nblocs :=
  ⟨by decide, periConf_ok _ _ _ _ _ (by decide) (by decide) (by decide), by decide⟩

/-- C43, C94, C96: a normalised state of one hole on two rows, different on the two sites, and one of two down spins. -/
example : constructBasis (rectConf 1 2 1 1 0) = .ok (basisList 2 1 0) ∧ RectConf (rectConf 1 2 1 1 0) 1 2 1 ∧
    vdot [(3 / 5 : ℚ), 4 / 5] [3 / 5, 4 / 5] = 1 ∧ (basisList 2 1 0).length = 2 ∧
    vdot [(3 : ℚ), 4] [3, 4] ≠ 1 ∧ (rectConf 1 2 1 0 2).nbeta ≠ 0 :=
  ⟨by decide +kernel, rectConf_ok _ _ _ _ _ (by decide) (by decide) (by decide), by decide +kernel, by decide +kernel, by decide +kernel, by decide⟩

/-- C49: the second correction differs by more than `droptol` from the search space. -/
example : ∃ R, getMeaningfulCorrections realLib [(![1, 0] : Fin 2 → ℝ)] [![3, 0], ![1, 1]] (1 / 100) (1 / 10) 2 = .ok R ∧
    Ortho ([![1, 0]] ++ R) := by
  obtain ⟨R, h1, h2⟩ := C49_right_iff realLib realLib_sqrt [(![1, 0] : Fin 2 → ℝ)] [![3, 0], ![1, 1]] (by
    rw [ortho_iff]; simp) (by simp) (1 / 100) (1 / 10) (by norm_num) 2 (by simp)
  refine ⟨R, h1, h2.2 ⟨1, by omega, ?_⟩⟩
  intro e he
  obtain ⟨y, hy⟩ := he
  have h1 := congrFun hy 1
  simp at h1
  by_contra hle
  rw [not_lt, norm_le_iff realLib_sqrt] at hle
  have h2 := hle.2
  simp only [dotProduct, Fin.sum_univ_two] at h2
  have : e 1 = 1 := by linarith
  rw [this] at h2
  nlinarith [mul_self_nonneg (e 0)]

/-- C78: nine subplots, and two. -/
example : (∃ cells, subplots 9 9 = .ok cells) ∧ ¬ ∃ cells, subplots 2 2 = .ok cells :=
  ⟨(C78_right_iff 9 9 (by omega)).2 (by omega), fun h => absurd ((C78_right_iff 2 2 (by omega)).1 h) (by omega)⟩

end TJ
