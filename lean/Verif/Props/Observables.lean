/-
Properties C42-C47 and C66: probabilities, dominant determinants, displays.
-/
import Verif.Lemmas.Observables
import Verif.Lemmas.Display
import Verif.Props.Spin

namespace TJ

open Finset

/-! ### C42 -/

section
variable {K : Type} [Field K] [LinearOrder K] [IsStrictOrderedRing K]

theorem norm_ne_zero (c : Config) (dets : List (List Nat)) (hb : constructBasis c = .ok dets)
    (hn : c.nholes + c.nbeta ≤ c.nsites) (v : List K) (hv : v.length = dets.length) (h : ∃ x ∈ v, x ≠ 0) :
    vdot v v ≠ 0 ∧ (∑ σ, amp c dets v σ * amp c dets v σ) ≠ 0 := by
  have e := vdot_amp hb hn v v hv hv
  rw [← e]
  refine ⟨?_, ?_⟩ <;>
  · rw [e]
    obtain ⟨x, hx, h0⟩ := h
    obtain ⟨k, hk, rfl⟩ := List.getElem_of_mem hx
    have hk' : k < dets.length := by omega
    refine ne_of_gt (sum_pos' (fun σ _ => mul_self_nonneg _) ⟨conf c dets[k], mem_univ _, ?_⟩)
    rw [amp_conf hb v hk']
    have : v.getD k 0 = v[k] := by simp [List.getD_eq_getElem?_getD, hk]
    rw [this]
    exact mul_self_pos.2 h0

/-- C42. The values are the Born probabilities of the sites; they are between 0 and 1, the
three species sum to 1 on every site, each species sums over the sites to its number. -/
theorem C42_probabilities (c : Config) (dets : List (List Nat)) (hb : constructBasis c = .ok dets)
    (hn : c.nholes + c.nbeta ≤ c.nsites) (v : List K) (hv : v.length = dets.length) (h0 : ∃ x ∈ v, x ≠ 0) :
    ∃ P : Occ → List K, (∀ o, probabilitySpin c dets v o.twice = .ok (P o) ∧ (P o).length = c.nsites) ∧
      (∀ o, ∀ s : Fin c.nsites, (P o).getD s 0 = born (amp c dets v) s o ∧ 0 ≤ (P o).getD s 0 ∧ (P o).getD s 0 ≤ 1) ∧
      (∀ s < c.nsites, (P .hole).getD s 0 + (P .down).getD s 0 + (P .up).getD s 0 = 1) ∧
      (P .hole).sum = (c.nholes : K) ∧ (P .down).sum = (c.nbeta : K) ∧ (P .up).sum = (c.nalpha : K) := by
  have hnz := (norm_ne_zero c dets hb hn v hv h0).2
  choose P P1 P2 P3 using fun o => probabilitySpin_spec hb hn v hv o
  have hs : ∀ o, (P o).sum = ∑ s, born (amp c dets v) s o := by
    intro o
    have : P o = List.ofFn (fun s : Fin c.nsites => born (amp c dets v) s o) := by
      apply List.ext_getElem (by simp [P2])
      intro k h1 h2
      have h3 : k < c.nsites := by rw [← P2 o]; exact h1
      have := P3 o ⟨k, h3⟩
      rw [List.getD_eq_getElem?_getD, List.getElem?_eq_getElem h1] at this
      simpa using this
    rw [this, List.sum_ofFn]
  have hcount : ∀ o (m : Nat), (∀ k (hk : k < dets.length), (conf c dets[k]).count o = m) → (P o).sum = (m : K) := by
    intro o m hm
    rw [hs o]
    refine born_sites _ o m ?_ hnz
    intro σ hσ
    by_cases g : σ.count .hole = c.nholes ∧ σ.count .down = c.nbeta
    · obtain ⟨k, hk, rfl⟩ := exists_conf hb hn g.1 g.2
      exact hm k hk
    · exact absurd (amp_outside hb hn v g) hσ
  refine ⟨P, fun o => ⟨P1 o, P2 o⟩, ?_, ?_, ?_, ?_, ?_⟩
  · intro o s
    rw [P3 o s]
    exact ⟨rfl, born_nonneg _ _ _, born_le_one _ _ _⟩
  · intro s hs
    rw [P3 .hole ⟨s, hs⟩, P3 .down ⟨s, hs⟩, P3 .up ⟨s, hs⟩]
    exact born_sum _ _ hnz
  · exact hcount .hole _ fun k hk => count_conf_hole hn (canonical_getElem hb k hk).1
  · exact hcount .down _ fun k hk => count_conf_down hn (canonical_getElem hb k hk).1
  · rw [hcount .up c.nalpha.toNat fun k hk => by have := count_conf_up hn (canonical_getElem hb k hk).1; omega]
    have : ((c.nalpha.toNat : Nat) : Int) = c.nalpha := by unfold Config.nalpha; omega
    rw [← this, Int.cast_natCast, this]

/-- C42. `get_spins_probabilities` returns the tables of down spins, holes and up spins; the flag `reverse_spins` exchanges the tables of
up and down spins. -/
theorem C42_reverse (c : Config) (dets : List (List Nat)) (hb : constructBasis c = .ok dets)
    (hn : c.nholes + c.nbeta ≤ c.nsites) (v : List K) (hv : v.length = dets.length) :
    ∃ down hole up : List K, probabilitySpin c dets v (-1) = .ok down ∧ probabilitySpin c dets v 0 = .ok hole ∧
      probabilitySpin c dets v 1 = .ok up ∧ spinsProbabilities c dets v = .ok [(-1, down), (0, hole), (1, up)] ∧
      spinsProbabilities c dets v true = .ok [(-1, up), (0, hole), (1, down)] := by
  obtain ⟨D, d1, _⟩ := probabilitySpin_spec hb hn v hv .down
  obtain ⟨H, h1, _⟩ := probabilitySpin_spec hb hn v hv .hole
  obtain ⟨U, u1, _⟩ := probabilitySpin_spec hb hn v hv .up
  have d2 : probabilitySpin c dets v 1 true = .ok D := (probabilitySpin_reverse v .up).trans d1
  have h2 : probabilitySpin c dets v 0 true = .ok H := (probabilitySpin_reverse v .hole).trans h1
  have u2 : probabilitySpin c dets v (-1) true = .ok U := (probabilitySpin_reverse v .down).trans u1
  simp only [Occ.twice] at d1 h1 u1
  refine ⟨D, H, U, d1, h1, u1, ?_, ?_⟩
  · unfold spinsProbabilities
    simp [List.mapM_cons, d1, h1, u1]
    rfl
  · unfold spinsProbabilities
    simp [List.mapM_cons, d2, h2, u2]
    rfl

/-- C42. Other values of `spin` are rejected. -/
theorem C42_wrong_spin (c : Config) (dets : List (List Nat)) (v : List K) (spin : Int) (r : Bool)
    (h : spin ≠ -1 ∧ spin ≠ 0 ∧ spin ≠ 1) : probabilitySpin c dets v spin r = .error .valueError := by
  unfold probabilitySpin
  rw [if_pos (by simp [h])]

end

/-- Three sites in a row, one hole, one down spin; the state 1 * |0 - +> + 2 * |- 0 +>. -/
example : probabilitySpin (rectConf 3 1 1 1 1) (basisList 3 1 1) [(1 : ℚ), 0, 2, 0, 0, 0] 0 = .ok [1 / 5, 4 / 5, 0] := by decide +kernel
example : probabilitySpin (rectConf 3 1 1 1 1) (basisList 3 1 1) [(1 : ℚ), 0, 2, 0, 0, 0] (-1) = .ok [4 / 5, 1 / 5, 0] := by decide +kernel
example : probabilitySpin (rectConf 3 1 1 1 1) (basisList 3 1 1) [(1 : ℚ), 0, 2, 0, 0, 0] 1 = .ok [0, 0, 1] := by decide +kernel

/-! ### C43 -/

section
variable {K : Type} [Field K] [LinearOrder K] [IsStrictOrderedRing K]

/-- Writing a value at every place of an array, the rows from the bottom. -/
theorem fill_array (w h : Nat) (f : Nat → Nat → K) : ∀ n ≤ h,
    ∃ A : NdArr K, (List.range n).foldlM (fun (A : NdArr K) y =>
      (List.range w).foldlM (fun (A : NdArr K) x => A.setEntry (h - 1 - y) x (f y x)) A) ⟨h, w, fun _ _ => 0⟩ = .ok A ∧
      A.rows = h ∧ A.cols = w ∧ ∀ y < n, ∀ x < w, A.e (h - 1 - y) x = f y x
  | 0, _ => ⟨_, rfl, rfl, rfl, by intro y hy; omega⟩
  | n + 1, hn => by
    obtain ⟨A, a1, a2, a3, a4⟩ := fill_array w h f n (by omega)
    have row : ∀ m ≤ w, ∃ B : NdArr K, (List.range m).foldlM (fun (A : NdArr K) x => A.setEntry (h - 1 - n) x (f n x)) A = .ok B ∧
        B.rows = h ∧ B.cols = w ∧ (∀ x < m, B.e (h - 1 - n) x = f n x) ∧ ∀ i, i ≠ h - 1 - n → ∀ j, B.e i j = A.e i j := by
      intro m
      induction m with
      | zero => intro _; exact ⟨A, rfl, a2, a3, by intro x hx; omega, fun _ _ _ => rfl⟩
      | succ m ih =>
        intro hm
        obtain ⟨B, b1, b2, b3, b4, b5⟩ := ih (by omega)
        refine ⟨⟨B.rows, B.cols, fun i j => if i = h - 1 - n ∧ j = m then f n m else B.e i j⟩,
          foldlM_range_succ b1 (if_pos ⟨by omega, by omega⟩), b2, b3, ?_, ?_⟩
        · intro x hx
          by_cases e : x = m
          · simp [e]
          · simp only [e, and_false, if_false]
            exact b4 x (by omega)
        · intro i hi j
          simp only [hi, false_and, if_false]
          exact b5 i hi j
    obtain ⟨B, b1, b2, b3, b4, b5⟩ := row w (le_refl _)
    refine ⟨B, foldlM_range_succ a1 b1, b2, b3, ?_⟩
    intro y hy x hx
    by_cases e : y = n
    · rw [e]; exact b4 x hx
    · rw [b5 _ (by omega)]
      exact a4 y (by omega) x hx

/-- C43, part: the value of site (x, y) is in row H - 1 - y and column x; it is the
probability of the site divided once more by the squared norm. The division is harmless
for normalised vectors only, see `C43_sum_is_inverse_norm`. -/
theorem C43_placement_partial (c : Config) (hc : RectConf c c.nbh c.nbv c.nblocs) (dets : List (List Nat))
    (hb : constructBasis c = .ok dets) (hn : c.nholes + c.nbeta ≤ c.nsites) (v : List K) (hv : v.length = dets.length) (o : Occ) :
    ∃ A, probabilityRectangular c dets v o.twice = .ok A ∧ A.rows = c.nbv * c.nblocs ∧ A.cols = c.nbh * c.nblocs ∧
      ∀ x y (_ : x < c.nbh * c.nblocs) (_ : y < c.nbv * c.nblocs) (s : Fin c.nsites), gridPos (c.nbh * c.nblocs) s = ((x : Int), (y : Int)) →
        A.e (c.nbv * c.nblocs - 1 - y) x = born (amp c dets v) s o / vdot v v := by
  obtain ⟨P, p1, p2, p3⟩ := probabilitySpin_spec hb hn v hv o
  have hin : o.twice ∈ ([-1, 0, 1] : List Int) := by cases o <;> decide
  have hsize : c.nsites = (c.nbh * c.nblocs) * (c.nbv * c.nblocs) := hc.spec.1
  obtain ⟨A, a1, a2, a3, a4⟩ := fill_array (c.nblocs * c.nbh) (c.nblocs * c.nbv)
    (fun y x => P.getD (y * c.nblocs * c.nbh + x) 0 / vdot v v) (c.nblocs * c.nbv) (le_refl _)
  refine ⟨A, ?_, by rw [a2, Nat.mul_comm], by rw [a3, Nat.mul_comm], ?_⟩
  · unfold probabilityRectangular
    rw [if_neg (not_not.2 hin), if_neg (by simp [hc.ltype])]
    rw [← a1]
    have congr_fold : ∀ {α β : Type} (l : List α) (f g : β → α → Py β) (b : β), (∀ x ∈ l, ∀ b, f b x = g b x) →
        l.foldlM f b = l.foldlM g b := by
      intro α β l f g
      induction l with
      | nil => intro b _; rfl
      | cons a l ih =>
        intro b h
        rw [List.foldlM_cons, List.foldlM_cons, h a (by simp)]
        cases g b a with
        | error e => rfl
        | ok b' => exact ih b' (fun x hx => h x (List.mem_cons_of_mem _ hx))
    refine congr_fold _ _ _ _ ?_
    intro y hy A
    refine congr_fold _ _ _ _ ?_
    intro x hx A
    refine bind_ok p1 (bind_ok (a := P.getD (y * c.nblocs * c.nbh + x) 0) ?_ rfl)
    have hlt : y * c.nblocs * c.nbh + x < P.length := by
      rw [p2, hsize]
      have h1 := List.mem_range.1 hy
      have h2 := List.mem_range.1 hx
      calc y * c.nblocs * c.nbh + x < y * (c.nblocs * c.nbh) + c.nblocs * c.nbh := by rw [Nat.mul_assoc]; omega
        _ = (y + 1) * (c.nblocs * c.nbh) := by ring
        _ ≤ (c.nblocs * c.nbv) * (c.nblocs * c.nbh) := Nat.mul_le_mul_right _ h1
        _ = _ := by ring
    rw [pyGet_ok hlt, List.getD_eq_getElem?_getD, List.getElem?_eq_getElem hlt]
    rfl
  · intro x y hx hy s hs
    have hsv : (s : Nat) = y * c.nblocs * c.nbh + x := by
      unfold gridPos at hs
      simp only [Prod.mk.injEq, Nat.cast_inj] at hs
      have := Nat.div_add_mod (s : Nat) (c.nbh * c.nblocs)
      rw [hs.1, hs.2] at this
      rw [← this]; ring
    have := a4 y (by rw [Nat.mul_comm]; exact hy) x (by rw [Nat.mul_comm]; exact hx)
    rw [Nat.mul_comm c.nbv c.nblocs, this, ← hsv, p3 s]

/-- C43, part: the three species sum to 1 for a vector of norm 1. -/
theorem C43_sum_partial (c : Config) (hc : RectConf c c.nbh c.nbv c.nblocs) (dets : List (List Nat))
    (hb : constructBasis c = .ok dets) (hn : c.nholes + c.nbeta ≤ c.nsites) (v : List K) (hv : v.length = dets.length)
    (h1 : vdot v v = 1) :
    ∃ A : Occ → NdArr K, (∀ o, probabilityRectangular c dets v o.twice = .ok (A o)) ∧
      ∀ x y, x < c.nbh * c.nblocs → y < c.nbv * c.nblocs → (A .hole).e y x + (A .down).e y x + (A .up).e y x = 1 := by
  choose A A1 A2 A3 A4 using fun o => C43_placement_partial c hc dets hb hn v hv o
  refine ⟨A, A1, ?_⟩
  intro x y hx hy
  have hsize : c.nsites = (c.nbh * c.nblocs) * (c.nbv * c.nblocs) := hc.spec.1
  have hy' : c.nbv * c.nblocs - 1 - y < c.nbv * c.nblocs := by omega
  have hlt : (c.nbv * c.nblocs - 1 - y) * (c.nbh * c.nblocs) + x < c.nsites := by
    rw [hsize]
    calc (c.nbv * c.nblocs - 1 - y) * (c.nbh * c.nblocs) + x < (c.nbv * c.nblocs - 1 - y) * (c.nbh * c.nblocs) + c.nbh * c.nblocs := by omega
      _ = (c.nbv * c.nblocs - 1 - y + 1) * (c.nbh * c.nblocs) := by ring
      _ ≤ (c.nbv * c.nblocs) * (c.nbh * c.nblocs) := Nat.mul_le_mul_right _ hy'
      _ = _ := by ring
  have hp : gridPos (c.nbh * c.nblocs) ((c.nbv * c.nblocs - 1 - y) * (c.nbh * c.nblocs) + x) = ((x : Int), ((c.nbv * c.nblocs - 1 - y : Nat) : Int)) := by
    unfold gridPos
    rw [Nat.mul_comm, Nat.mul_add_mod, Nat.mod_eq_of_lt hx, Nat.mul_add_div (by omega), Nat.div_eq_of_lt hx, Nat.add_zero]
  have e : c.nbv * c.nblocs - 1 - (c.nbv * c.nblocs - 1 - y) = y := by omega
  have := fun o => A4 o x (c.nbv * c.nblocs - 1 - y) hx hy' ⟨_, hlt⟩ hp
  rw [e] at this
  rw [this, this, this, h1, div_one, div_one, div_one]
  refine born_sum _ _ ?_
  rw [← vdot_amp hb hn v v hv hv, h1]
  exact one_ne_zero

/-- C43 fails for every non-zero vector whose norm is not 1: the three species sum to
1 / norm^2 at every place. -/
theorem C43_sum_is_inverse_norm (c : Config) (hc : RectConf c c.nbh c.nbv c.nblocs) (dets : List (List Nat))
    (hb : constructBasis c = .ok dets) (hn : c.nholes + c.nbeta ≤ c.nsites) (v : List K) (hv : v.length = dets.length)
    (h0 : ∃ x ∈ v, x ≠ 0) :
    ∃ A : Occ → NdArr K, (∀ o, probabilityRectangular c dets v o.twice = .ok (A o)) ∧
      ∀ x y (_ : x < c.nbh * c.nblocs) (_ : y < c.nbv * c.nblocs) (s : Fin c.nsites), gridPos (c.nbh * c.nblocs) s = ((x : Int), (y : Int)) →
        (A .hole).e (c.nbv * c.nblocs - 1 - y) x + (A .down).e (c.nbv * c.nblocs - 1 - y) x + (A .up).e (c.nbv * c.nblocs - 1 - y) x = 1 / vdot v v := by
  choose A A1 A2 A3 A4 using fun o => C43_placement_partial c hc dets hb hn v hv o
  refine ⟨A, A1, ?_⟩
  intro x y hx hy s hs
  have := fun o => A4 o x y hx hy s hs
  rw [this, this, this, ← add_div, ← add_div, born_sum _ _ (norm_ne_zero c dets hb hn v hv h0).2]

omit [IsStrictOrderedRing K] in
/-- C43. Lattices that are not row-by-row rectangles and other values of `spin` are rejected. -/
theorem C43_errors (c : Config) (dets : List (List Nat)) (v : List K) (spin : Int)
    (h : c.ltype ≠ .periodic ∨ (spin ≠ -1 ∧ spin ≠ 0 ∧ spin ≠ 1)) :
    probabilityRectangular c dets v spin = .error .valueError := by
  unfold probabilityRectangular
  rcases h with h | h
  · rw [if_pos h]; split_ifs <;> rfl
  · rw [if_pos (by simp [h])]

end

/-- A vector of squared norm 4: the three "probabilities" of a site sum to 1/4. -/
theorem C43_not_normalised : (do
    let a ← probabilityRectangular (rectConf 2 1 1 0 1) (basisList 2 0 1) [(2 : ℚ), 0] 1
    let b ← probabilityRectangular (rectConf 2 1 1 0 1) (basisList 2 0 1) [(2 : ℚ), 0] 0
    let d ← probabilityRectangular (rectConf 2 1 1 0 1) (basisList 2 0 1) [(2 : ℚ), 0] (-1)
    pure (a.e 0 0 + b.e 0 0 + d.e 0 0)) = .ok (1 / 4) := by decide +kernel

/-! ### C44 -/

section
variable {K : Type} [Field K] [LinearOrder K]

/-- C44, part: for vectors whose coefficients have different moduli, the result lists the
determinants of the largest coefficients. -/
theorem C44_dominant_partial (c : Config) (dets : List (List Nat)) (hb : constructBasis c = .ok dets) (v : List K)
    (hv : v.length = dets.length) (hd : (v.map (fun x => |x|)).Nodup) (k : Nat) :
    ∃ idx, dominantDeterminants c v k = .ok (idx.map (fun i => v.getD i 0), idx.map (fun i => dets.getD i [])) ∧
      TopPositions v k idx := by
  obtain ⟨idx, h1, h2, h3, h4⟩ := dominant_spec hb v hv k
  refine ⟨idx, h1, topPositions_of v _ (sortedDesc_perm _) (sortedDesc_sorted _) k idx ?_ h2 h3⟩
  have hn : (idx.map (fun i => |v.getD i 0|)).Nodup := by
    rw [h3]
    exact ((sortedDesc_perm _).nodup_iff.2 hd).sublist (List.take_sublist _ _)
  exact List.Nodup.of_map _ hn

/-- C44, part, for all vectors: the numbers of results, the moduli of the coefficients
(the largest ones, decreasing) and the agreement of coefficients and determinants. -/
theorem C44_moduli_partial (c : Config) (dets : List (List Nat)) (hb : constructBasis c = .ok dets) (v : List K)
    (hv : v.length = dets.length) (k : Nat) :
    ∃ idx top : List Nat, dominantDeterminants c v k = .ok (idx.map (fun i => v.getD i 0), idx.map (fun i => dets.getD i [])) ∧
      idx.length = min k v.length ∧ (∀ i ∈ idx, i < v.length) ∧ TopPositions v k top ∧
      idx.map (fun i => |v.getD i 0|) = top.map (fun i => |v.getD i 0|) := by
  obtain ⟨idx, h1, h2, h3, _⟩ := dominant_spec hb v hv k
  obtain ⟨out, top, t1, t2, t3, t4⟩ : ∃ out : List (List Nat), ∃ top : List Nat, out = [] ∧ top.Nodup ∧ (∀ i ∈ top, i < v.length) ∧
      top.map (fun i => |v.getD i 0|) = (sortedDesc (v.map (fun x => |x|))).take k := by
    obtain ⟨top, _, g1, g2, g3⟩ := mostDominant_loop dets v hv ((sortedDesc (v.map (fun x => |x|))).take k)
      ((sortedDesc (v.map (fun x => |x|))).drop k) [] [] List.nodup_nil (by simp) rfl
      (by simpa [List.take_append_drop] using sortedDesc_perm (v.map (fun x => |x|)))
    exact ⟨[], top, rfl, g1, g2, by simpa using g3⟩
  have ht := topPositions_of v _ (sortedDesc_perm _) (sortedDesc_sorted _) k top t2 t3 t4
  refine ⟨idx, top, h1, ?_, h2, ht, h3.trans t4.symm⟩
  have := congrArg List.length (h3.trans t4.symm)
  rw [List.length_map, List.length_map] at this
  rw [this, ht.2.1]

end

/-- C44 fails for coefficients of equal modulus: the first determinant is returned twice, and
the sign of the second coefficient is lost. -/
theorem C44_ties_repeat :
    dominantDeterminants (rectConf 2 1 1 0 1) [(1 : ℚ), -1] 2 = .ok ([1, 1], [[0, 1], [0, 1]]) ∧
    ¬ ∃ idx, TopPositions [(1 : ℚ), -1] 2 idx ∧
      dominantDeterminants (rectConf 2 1 1 0 1) [(1 : ℚ), -1] 2 =
        .ok (idx.map (fun i => [(1 : ℚ), -1].getD i 0), idx.map (fun i => (basisList 2 0 1).getD i [])) := by
  have h : dominantDeterminants (rectConf 2 1 1 0 1) [(1 : ℚ), -1] 2 = .ok ([1, 1], [[0, 1], [0, 1]]) := by decide +kernel
  refine ⟨h, ?_⟩
  rintro ⟨idx, ⟨h1, h2, h3, _, _⟩, h5⟩
  rw [h] at h5
  have h6 := congrArg Prod.fst (Except.ok.inj h5)
  simp only at h6
  match idx, h2 with
  | [a, b], _ =>
    simp only [List.length_cons, List.length_nil, List.mem_cons, List.not_mem_nil, or_false, forall_eq_or_imp, forall_eq] at h3
    have ha : a = 0 ∨ a = 1 := by omega
    have hb : b = 0 ∨ b = 1 := by omega
    rcases ha with rfl | rfl <;> rcases hb with rfl | rfl
    · simp at h1
    · revert h6; decide +kernel
    · revert h6; decide +kernel
    · simp at h1

example : dominantDeterminants (rectConf 3 1 1 0 1) [(1 : ℚ), -3, 2] 2 = .ok ([-3, 2], [[1, 0, 2], [2, 0, 1]]) := by decide +kernel

/-! ### C45 -/

/-- C45. `get_most_dominant_determinants` never fails and returns the entries of the largest
coefficients, each with its position, coefficient and determinant, also for ties. -/
theorem C45_most_dominant {K : Type} [Field K] [LinearOrder K] (dets : List (List Nat)) (v : List K)
    (hv : v.length = dets.length) (k : Nat) :
    ∃ idx, mostDominant dets v k = .ok (idx.map (fun i => ((i, v.getD i 0), dets.getD i []))) ∧ TopPositions v k idx :=
  mostDominant_spec dets v hv k

example : mostDominant [[0, 1], [1, 0]] [(1 : ℚ), -1] 2 = .ok [((0, 1), [0, 1]), ((1, -1), [1, 0])] := by decide +kernel
example : mostDominant [[0, 1, 2], [1, 0, 2], [2, 0, 1]] [(1 : ℚ), -3, 3] 2 =
    .ok [((1, -3), [1, 0, 2]), ((2, 3), [2, 0, 1])] := by decide +kernel

/-! ### C46 -/

/-- C46, part: the display of a determinant has one symbol per site, that of its
occupation. -/
theorem C46_display_partial (c : Config) (hn : c.nholes + c.nbeta ≤ c.nsites) (det : List Nat) (hv : ValidDet c.nsites det) :
    ∃ P, displayDeterminant (.config c) det = .ok P ∧ P.length = c.nsites ∧
      ∀ s < c.nsites, P[s]? = some (occ c.nholes c.nbeta det s).sign := by
  obtain ⟨P, h1, h2, h3⟩ := displayDeterminant_spec hn hv
  refine ⟨P, h1, h2, fun s hs => ?_⟩
  have hs' : s < P.length := by omega
  rw [List.getElem?_eq_getElem hs', ← h3 s hs, List.getD_eq_getElem?_getD, List.getElem?_eq_getElem hs']
  rfl

/-- C46, part: determinants with the same display have the same index. -/
theorem C46_display_determines_index_partial (c : Config) (hn : c.nholes + c.nbeta ≤ c.nsites) (det det' : List Nat)
    (hv : ValidDet c.nsites det) (hv' : ValidDet c.nsites det') :
    displayDeterminant (.config c) det = displayDeterminant (.config c) det' ↔ getIndexInBasis c det = getIndexInBasis c det' := by
  obtain ⟨P, p1, p2, p3⟩ := displayDeterminant_spec hn hv
  obtain ⟨Q, q1, q2, q3⟩ := displayDeterminant_spec hn hv'
  rw [(C06_index_of_any_det c hn det det' hv hv').2, p1, q1]
  constructor
  · intro h s hs
    obtain rfl := Except.ok.inj h
    exact Occ.sign_inj ((p3 s hs).symm.trans (q3 s hs))
  · intro h
    congr 1
    apply List.ext_getElem (by omega)
    intro s h1 h2
    have hs : s < c.nsites := by omega
    have := p3 s hs
    have h' : occC c det s = occC c det' s := h s hs
    rw [h', ← q3 s hs] at this
    simpa [List.getD_eq_getElem?_getD, h1, h2] using this

/-- C46 fails for `get_displayable_basis`: it raises `AttributeError` for every non-empty
basis, because it passes the basis instead of its configuration. -/
theorem C46_displayable_basis_fails (c : Config) (det : List Nat) (dets : List (List Nat)) :
    displayBasis c (det :: dets) = .error .attributeError := rfl

/-- The same mistake in `get_displayable_dominant_determinants`. -/
theorem C46_displayable_dominant_fails {K : Type} [Field K] [LinearOrder K] (c : Config) (dets : List (List Nat))
    (hb : constructBasis c = .ok dets) (v : List K) (hv : v.length = dets.length) (k : Nat) (hk : 0 < k) (h0 : v ≠ []) :
    displayDominant c dets v k = .error .attributeError := by
  obtain ⟨idx, h1, h2, h3, _⟩ := dominant_spec hb v hv k
  have hl := congrArg List.length h3
  rw [List.length_map, List.length_take, (sortedDesc_perm _).length_eq, List.length_map] at hl
  have : 0 < v.length := List.length_pos_iff.2 h0
  cases idx with
  | nil => simp at hl; omega
  | cons i idx =>
    unfold displayDominant
    exact bind_ok h1 rfl

example : displayDeterminant (.config (rectConf 2 2 1 1 1)) [3, 1, 0, 2] = .ok ['+', '-', '+', '0'] := by decide

/-! ### C47 -/

/-- C47. The text has 2H - 1 lines, and the symbol of site (x, y) is in line 2(H - 1 - y) and
column 3x. -/
theorem C47_rectangular_display (c : Config) (hc : RectConf c c.nbh c.nbv c.nblocs) (det : List Nat)
    (hv : ValidDet c.nsites det) :
    ∃ text L, displayRectangular (.config c) det = .ok text ∧ IsText text L ∧ L.length = 2 * (c.nbv * c.nblocs) - 1 ∧
      ∀ x y, x < c.nbh * c.nblocs → y < c.nbv * c.nblocs →
        charAt L (2 * (c.nbv * c.nblocs - 1 - y)) (3 * x) = some (occ c.nholes c.nbeta det (y * (c.nbh * c.nblocs) + x)).arrow := by
  have hsize : c.nsites = (c.nbh * c.nblocs) * (c.nbv * c.nblocs) := hc.spec.1
  have hw : c.nblocs * c.nbh = c.nbh * c.nblocs := Nat.mul_comm _ _
  have hh : c.nblocs * c.nbv = c.nbv * c.nblocs := Nat.mul_comm _ _
  obtain ⟨text, t1, t2⟩ := displayRectangular_eq hv hw hh (Nat.mul_pos hc.hh hc.hb) (Nat.mul_pos hc.hv hc.hb) hsize
  exact ⟨text, _, t1, t2, rectLines_length _ _ _ (Nat.mul_pos hc.hv hc.hb), fun x y hx hy => rectLines_charAt _ _ _ _ _ hx hy⟩

/-- C47. The text determines the occupation of every site. -/
theorem C47_text_determines_occupation (c : Config) (hc : RectConf c c.nbh c.nbv c.nblocs) (det det' : List Nat)
    (hv : ValidDet c.nsites det) (hv' : ValidDet c.nsites det')
    (h : displayRectangular (.config c) det = displayRectangular (.config c) det') :
    ∀ s < c.nsites, occ c.nholes c.nbeta det s = occ c.nholes c.nbeta det' s := by
  obtain ⟨text, L, t1, t2, t3, t4⟩ := C47_rectangular_display c hc det hv
  obtain ⟨text', L', u1, u2, u3, u4⟩ := C47_rectangular_display c hc det' hv'
  rw [t1, u1] at h
  obtain rfl := Except.ok.inj h
  have wpos := Nat.mul_pos hc.hh hc.hb
  have hpos := Nat.mul_pos hc.hv hc.hb
  have hL : L = L' := by
    rw [← splitLines_eq t2 (by intro e; rw [e] at t3; simp at t3; omega),
      ← splitLines_eq u2 (by intro e; rw [e] at u3; simp at u3; omega)]
  subst hL
  intro s hs
  have hsize : c.nsites = (c.nbh * c.nblocs) * (c.nbv * c.nblocs) := hc.spec.1
  have h1 : s % (c.nbh * c.nblocs) < c.nbh * c.nblocs := Nat.mod_lt _ wpos
  have h2 : s / (c.nbh * c.nblocs) < c.nbv * c.nblocs := Nat.div_lt_of_lt_mul (by rw [← hsize]; exact hs)
  have e : s / (c.nbh * c.nblocs) * (c.nbh * c.nblocs) + s % (c.nbh * c.nblocs) = s := by rw [Nat.mul_comm]; exact Nat.div_add_mod _ _
  have a := t4 _ _ h1 h2
  have b := u4 _ _ h1 h2
  rw [e] at a b
  rw [a] at b
  exact Occ.arrow_inj (Option.some.inj b)

example : displayRectangular (.config (rectConf 2 2 1 1 1)) [3, 1, 0, 2] =
    .ok ['↑', '-', '-', '0', '\n', '|', ' ', ' ', '|', '\n', '↑', '-', '-', '↓'] := by decide

/-! ### C66 -/

/-- C66. The display of two neighbouring blocks with the same number H of rows has 2H - 1
lines, all terminated by a newline; the symbol of site (x, y) of the first block is in
line 2(H - 1 - y), column 3x, that of site (x, y) of the second block in column 3(W_A + x) - 1. -/
theorem C66_neighbor_display (a b : Config) (ha : RectConf a a.nbh a.nbv a.nblocs) (hb : RectConf b b.nbh b.nbv b.nblocs)
    (hH : a.nbv * a.nblocs = b.nbv * b.nblocs) (dA dB : List Nat) (hA : ValidDet a.nsites dA) (hB : ValidDet b.nsites dB) :
    ∃ text L, displayNeighbor (.config a) (.config b) dA dB = .ok text ∧ IsText text (L ++ [[]]) ∧ L.length = 2 * (a.nbv * a.nblocs) - 1 ∧
      ∀ y, y < a.nbv * a.nblocs →
        (∀ x, x < a.nbh * a.nblocs →
          charAt L (2 * (a.nbv * a.nblocs - 1 - y)) (3 * x) = some (occ a.nholes a.nbeta dA (y * (a.nbh * a.nblocs) + x)).arrow) ∧
        (∀ x, x < b.nbh * b.nblocs →
          charAt L (2 * (a.nbv * a.nblocs - 1 - y)) (3 * (a.nbh * a.nblocs + x) - 1) = some (occ b.nholes b.nbeta dB (y * (b.nbh * b.nblocs) + x)).arrow) := by
  have h0 := Nat.mul_pos ha.hv ha.hb
  have wA := Nat.mul_pos ha.hh ha.hb
  have wB := Nat.mul_pos hb.hh hb.hb
  obtain ⟨tA, t1, t2⟩ := displayRectangular_eq hA (w := a.nbh * a.nblocs) (h := a.nbv * a.nblocs) (Nat.mul_comm _ _)
    (Nat.mul_comm _ _) wA h0 (ha.spec.1)
  obtain ⟨tB, u1, u2⟩ := displayRectangular_eq hB (w := b.nbh * b.nblocs) (h := a.nbv * a.nblocs) (Nat.mul_comm _ _)
    (by rw [Nat.mul_comm, hH]) wB h0 (by rw [hH]; exact hb.spec.1)
  have lA := rectLines_length (occC a dA) (a.nbh * a.nblocs) (a.nbv * a.nblocs) h0
  have lB := rectLines_length (occC b dB) (b.nbh * b.nblocs) (a.nbv * a.nblocs) h0
  have sA := splitLines_eq t2 (by intro e; rw [e] at lA; simp at lA; omega)
  have sB := splitLines_eq u2 (by intro e; rw [e] at lB; simp at lB; omega)
  refine ⟨_, List.zipWith (fun la lb => la ++ [' '] ++ lb) (rectLines (occC a dA) (a.nbh * a.nblocs) (a.nbv * a.nblocs))
    (rectLines (occC b dB) (b.nbh * b.nblocs) (a.nbv * a.nblocs)), bind_ok t1 (bind_ok u1 rfl), ⟨?_, ?_⟩, ?_, ?_⟩
  · rw [sA, sB, intercalate_concat, List.append_nil]
    congr 1
    rw [List.map_zipWith]
  · intro l hl
    rcases List.mem_append.1 hl with h | h
    · obtain ⟨i, hi, rfl⟩ := List.getElem_of_mem h
      rw [List.length_zipWith] at hi
      rw [List.getElem_zipWith]
      have g1 := t2.2 _ (List.getElem_mem (by omega : i < _))
      have g2 := u2.2 _ (List.getElem_mem (by omega : i < _))
      simp [g1, g2]
    · rw [List.mem_singleton.1 h]; simp
  · rw [List.length_zipWith, lA, lB, min_self]
  · intro y hy
    have rA := rectLines_row (occC a dA) (a.nbh * a.nblocs) (a.nbv * a.nblocs) y hy
    have rB := rectLines_row (occC b dB) (b.nbh * b.nblocs) (a.nbv * a.nblocs) y hy
    have hz : (List.zipWith (fun la lb => la ++ [' '] ++ lb) (rectLines (occC a dA) (a.nbh * a.nblocs) (a.nbv * a.nblocs))
        (rectLines (occC b dB) (b.nbh * b.nblocs) (a.nbv * a.nblocs)))[2 * (a.nbv * a.nblocs - 1 - y)]? =
        some (rowText (occC a dA) (y * (a.nbh * a.nblocs)) (a.nbh * a.nblocs) ++ [' '] ++ rowText (occC b dB) (y * (b.nbh * b.nblocs)) (b.nbh * b.nblocs)) := by
      rw [List.getElem?_zipWith, rA, rB]
    have len := rowText_length (occC a dA) (y * (a.nbh * a.nblocs)) (a.nbh * a.nblocs)
    constructor
    · intro x hx
      unfold charAt
      rw [hz]
      show (_ ++ _ ++ _ : List Char)[_]? = _
      rw [List.append_assoc, List.getElem?_append_left (by omega)]
      exact rowText_getElem? _ _ _ _ hx
    · intro x hx
      unfold charAt
      rw [hz]
      show (_ ++ _ ++ _ : List Char)[_]? = _
      rw [List.getElem?_append_right (by simp; omega)]
      have : 3 * (a.nbh * a.nblocs + x) - 1 - (rowText (occC a dA) (y * (a.nbh * a.nblocs)) (a.nbh * a.nblocs) ++ [' ']).length = 3 * x := by
        rw [List.length_append, len]; simp; omega
      rw [this]
      exact rowText_getElem? _ _ _ _ hx

example : displayNeighbor (.config (rectConf 2 1 1 1 1)) (.config (rectConf 1 1 1 0 1)) [0, 1] [0] =
    .ok ['0', '-', '-', '↓', ' ', '↓', '\n'] := by decide

end TJ
