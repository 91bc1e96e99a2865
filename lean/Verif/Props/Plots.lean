/-
Properties of the density plots of postProcessing.py: C94 - C97.
-/
import Verif.Model.Plots
import Verif.Props.Observables
import Verif.Props.PostProcessing2

namespace TJ

open Finset

section
variable {K : Type} [Field K] [LinearOrder K] [IsStrictOrderedRing K]

/-! ### C94 -/

/-- What the code draws: at the point (x, y) the probability of the site (x, H - 1 - y), for a lattice of H rows. -/
theorem C94_flipped (c : Config) (hc : RectConf c c.nbh c.nbv c.nblocs) (dets : List (List Nat))
    (hb : constructBasis c = .ok dets) (hn : c.nholes + c.nbeta ≤ c.nsites) (v : List K) (hv : v.length = dets.length) (o : Occ) :
    ∃ A, probabilityRectangular c dets v o.twice = .ok A ∧ A.rows = c.nbv * c.nblocs ∧ A.cols = c.nbh * c.nblocs ∧
      ∀ x y : Nat, y < c.nbv * c.nblocs → ∀ s : Fin c.nsites, gridPos (c.nbh * c.nblocs) s = ((x : Int), ((c.nbv * c.nblocs - 1 - y : Nat) : Int)) →
        x < c.nbh * c.nblocs → A.drawnAt x y = born (amp c dets v) s o / vdot v v := by
  obtain ⟨A, a1, a2, a3, a4⟩ := C43_placement_partial c hc dets hb hn v hv o
  refine ⟨A, a1, a2, a3, ?_⟩
  intro x y hy s hs hx
  have := a4 x (c.nbv * c.nblocs - 1 - y) hx (by omega) s hs
  rwa [show c.nbv * c.nblocs - 1 - (c.nbv * c.nblocs - 1 - y) = y by omega] at this

/-- C94, part: on a lattice with one row the picture of a normalised state shows at (x, y) the probability of the site (x, y).
Missing: lattices with several rows, drawn upside down (`C94_flipped`, `C94_upside_down`). -/
theorem C94_one_row_partial (c : Config) (hc : RectConf c c.nbh c.nbv c.nblocs) (dets : List (List Nat))
    (hb : constructBasis c = .ok dets) (hn : c.nholes + c.nbeta ≤ c.nsites) (v : List K) (hv : v.length = dets.length) (o : Occ)
    (h1 : c.nbv * c.nblocs = 1) (hnorm : vdot v v = 1) :
    ∃ A, probabilityRectangular c dets v o.twice = .ok A ∧ A.rows = c.nbv * c.nblocs ∧ A.cols = c.nbh * c.nblocs ∧
      ∀ x y : Nat, x < c.nbh * c.nblocs → y < c.nbv * c.nblocs → ∀ s : Fin c.nsites, gridPos (c.nbh * c.nblocs) s = ((x : Int), (y : Int)) →
        A.drawnAt x y = born (amp c dets v) s o := by
  obtain ⟨A, a1, a2, a3, a4⟩ := C94_flipped c hc dets hb hn v hv o
  refine ⟨A, a1, a2, a3, ?_⟩
  intro x y hx hy s hs
  have := a4 x y hy s (by rw [hs, show c.nbv * c.nblocs - 1 - y = y by omega]) hx
  rw [this, hnorm, div_one]

/-! ### C95 -/

omit [IsStrictOrderedRing K] in
theorem holeFile_error (n a b : Int) (s : BoolInteractions) : holeFile n a b s = .error .attributeError := rfl

omit [IsStrictOrderedRing K] in
/-- C95 fails: no call of `save_hole_probability_lattice` reaches the saving of the picture. -/
theorem C95_never_saved (c : Config) (dets : List (List Nat)) (eigvects : List (List K)) (k : Nat) (b : BoolInteractions) :
    ∃ e, holePicture c dets eigvects k b = .error e := by
  unfold holePicture
  cases holePanels c dets eigvects k with
  | error e => exact ⟨e, rfl⟩
  | ok p => exact ⟨.attributeError, rfl⟩

theorem holePanels_spec (c : Config) (hc : RectConf c c.nbh c.nbv c.nblocs) (dets : List (List Nat))
    (hb : constructBasis c = .ok dets) (hn : c.nholes + c.nbeta ≤ c.nsites) (eigvects : List (List K))
    (hv : ∀ v ∈ eigvects, v.length = dets.length) (k : Nat) (hk : 4 ≤ k) :
    ∃ panels, holePanels c dets eigvects k = .ok panels ∧ panels.length = min (Nat.sqrt k * Nat.sqrt k) eigvects.length ∧
      ∀ i (h : i < panels.length) (h' : i < eigvects.length), panels[i].1.1 * Nat.sqrt k + panels[i].1.2 = i ∧
        panels[i].1.1 < Nat.sqrt k ∧ panels[i].1.2 < Nat.sqrt k ∧ probabilityRectangular c dets eigvects[i] 0 = .ok panels[i].2 := by
  obtain ⟨cells, e1, e2, e3, e4, e5⟩ := C78_cells_partial k eigvects.length hk
  have hall : ∀ p ∈ cells.zip eigvects, ∃ q : (Nat × Nat) × NdArr K,
      (probabilityRectangular c dets p.2 0).map (fun z => (p.1, z)) = .ok q := by
    intro p hp
    obtain ⟨A, a1, _⟩ := C43_placement_partial c hc dets hb hn p.2 (hv _ (List.of_mem_zip hp).2) .hole
    have a1 : probabilityRectangular c dets p.2 0 = .ok A := a1
    exact ⟨(p.1, A), by rw [a1]; rfl⟩
  have : Nonempty ((Nat × Nat) × NdArr K) := ⟨((0, 0), ⟨0, 0, fun _ _ => 0⟩)⟩
  choose! g hg using hall
  refine ⟨(cells.zip eigvects).map g, bind_eq_ok.2 ⟨cells, e1, mapM_ok hg⟩, ?_, ?_⟩
  · rw [List.length_map, List.length_zip, e2]; omega
  · intro i h h'
    have hi : i < (cells.zip eigvects).length := by rwa [List.length_map] at h
    have hic : i < cells.length := by rw [List.length_zip] at hi; omega
    have hz : (cells.zip eigvects)[i] = (cells[i], eigvects[i]) := by rw [List.getElem_zip]
    have h1 := hg _ (List.getElem_mem hi)
    rw [List.getElem_map]
    rw [hz] at h1 ⊢
    cases h2 : probabilityRectangular c dets eigvects[i] 0 with
    | error e => simp only [h2, Except.map] at h1; cases h1
    | ok A =>
      simp only [h2, Except.map] at h1
      have h3 : (cells[i], A) = g (cells[i], eigvects[i]) := Except.ok.inj h1
      rw [← h3]
      have := e4 _ (List.getElem_mem hic)
      exact ⟨e5 i hic, this.1, this.2, rfl⟩

/-- C95, part: with at least four subplots the panels are computed, one cell per state. Missing: the picture is not saved; the call ends
with the `AttributeError` of `bV_embedding`, for all switches (`C95_never_saved` for all inputs). -/
theorem C95_panels_partial (c : Config) (hc : RectConf c c.nbh c.nbv c.nblocs) (dets : List (List Nat))
    (hb : constructBasis c = .ok dets) (hn : c.nholes + c.nbeta ≤ c.nsites) (eigvects : List (List K))
    (hv : ∀ v ∈ eigvects, v.length = dets.length) (k : Nat) (hk : 4 ≤ k) (b : BoolInteractions) :
    (∃ panels, holePanels c dets eigvects k = .ok panels ∧ panels.length = min (Nat.sqrt k * Nat.sqrt k) eigvects.length ∧
      ∀ i (h : i < panels.length) (h' : i < eigvects.length), panels[i].1.1 * Nat.sqrt k + panels[i].1.2 = i ∧
        panels[i].1.1 < Nat.sqrt k ∧ panels[i].1.2 < Nat.sqrt k ∧
        ∀ x y : Nat, x < c.nbh * c.nblocs → y < c.nbv * c.nblocs → ∀ s : Fin c.nsites,
          gridPos (c.nbh * c.nblocs) s = ((x : Int), ((c.nbv * c.nblocs - 1 - y : Nat) : Int)) →
          panels[i].2.drawnAt x y = born (amp c dets eigvects[i]) s .hole / vdot eigvects[i] eigvects[i]) ∧
      holePicture c dets eigvects k b = .error .attributeError := by
  obtain ⟨panels, p1, p2, p3⟩ := holePanels_spec c hc dets hb hn eigvects hv k hk
  refine ⟨⟨panels, p1, p2, ?_⟩, ?_⟩
  · intro i h h'
    obtain ⟨q1, q2, q3, q4⟩ := p3 i h h'
    refine ⟨q1, q2, q3, ?_⟩
    intro x y hx hy s hs
    obtain ⟨A, a1, _, _, a4⟩ := C94_flipped c hc dets hb hn eigvects[i] (hv _ (List.getElem_mem h')) .hole
    have a1 : probabilityRectangular c dets eigvects[i] 0 = .ok A := a1
    rw [Except.ok.inj (q4.symm.trans a1)]
    exact a4 x y hy s hs hx
  · unfold holePicture
    rw [p1]
    rfl

/-! ### C96 -/

/-- What the third panel shows: the difference of the probabilities of an up and a down spin (of the site (x, H - 1 - y)); the first two
panels show these probabilities. -/
theorem C96_third_panel (c : Config) (hc : RectConf c c.nbh c.nbv c.nblocs) (dets : List (List Nat))
    (hb : constructBasis c = .ok dets) (hn : c.nholes + c.nbeta ≤ c.nsites) (eigvects : List (List K)) (k : Nat) (v : List K)
    (hk : eigvects[k]? = some v) (hv : v.length = dets.length) :
    ∃ a b d, electronPanels c dets eigvects k = .ok (some (a, b, d)) ∧
      ∀ x y : Nat, x < c.nbh * c.nblocs → y < c.nbv * c.nblocs → ∀ s : Fin c.nsites,
        gridPos (c.nbh * c.nblocs) s = ((x : Int), ((c.nbv * c.nblocs - 1 - y : Nat) : Int)) →
        a.drawnAt x y = born (amp c dets v) s .up / vdot v v ∧ b.drawnAt x y = born (amp c dets v) s .down / vdot v v ∧
          d.drawnAt x y = (born (amp c dets v) s .up - born (amp c dets v) s .down) / vdot v v := by
  obtain ⟨A, a1, _, _, a4⟩ := C94_flipped c hc dets hb hn v hv .up
  obtain ⟨B, b1, _, _, b4⟩ := C94_flipped c hc dets hb hn v hv .down
  have a1 : probabilityRectangular c dets v 1 = .ok A := a1
  have b1 : probabilityRectangular c dets v (-1) = .ok B := b1
  refine ⟨A, B, chargeArray A B, ?_, ?_⟩
  · unfold electronPanels
    rw [hk]
    exact bind_eq_ok.2 ⟨A, a1, bind_eq_ok.2 ⟨B, b1, rfl⟩⟩
  · intro x y hx hy s hs
    refine ⟨a4 x y hy s hs hx, b4 x y hy s hs hx, ?_⟩
    rw [sub_div, ← a4 x y hy s hs hx, ← b4 x y hy s hs hx]
    rfl

theorem born_down_sum (c : Config) (dets : List (List Nat)) (hb : constructBasis c = .ok dets)
    (hn : c.nholes + c.nbeta ≤ c.nsites) (v : List K) (hv : v.length = dets.length) (h0 : ∃ x ∈ v, x ≠ 0) :
    ∑ s, born (amp c dets v) s .down = (c.nbeta : K) := by
  obtain ⟨P, P1, P2, _, _, P5, _⟩ := C42_probabilities c dets hb hn v hv h0
  have : P .down = List.ofFn (fun s : Fin c.nsites => born (amp c dets v) s .down) := by
    refine List.ext_getElem (by rw [(P1 .down).2, List.length_ofFn]) ?_
    intro i h1 h2
    have hi : i < c.nsites := by rwa [(P1 .down).2] at h1
    rw [List.getElem_ofFn, ← (P2 .down ⟨i, hi⟩).1]
    simp [h1]
  rw [← P5, this, List.sum_ofFn]

/-- C96, part: without down spins the third panel shows the density of the electrons, 1 minus that of the holes, of a normalised state.
Missing: all the sectors with a down spin, where it never does (`C96_not_the_charge`). -/
theorem C96_no_down_partial (c : Config) (hc : RectConf c c.nbh c.nbv c.nblocs) (dets : List (List Nat))
    (hb : constructBasis c = .ok dets) (hn : c.nholes + c.nbeta ≤ c.nsites) (eigvects : List (List K)) (k : Nat) (v : List K)
    (hk : eigvects[k]? = some v) (hv : v.length = dets.length) (h1 : vdot v v = 1) (hbeta : c.nbeta = 0) :
    ∃ a b d, electronPanels c dets eigvects k = .ok (some (a, b, d)) ∧
      ∀ x y : Nat, x < c.nbh * c.nblocs → y < c.nbv * c.nblocs → ∀ s : Fin c.nsites,
        gridPos (c.nbh * c.nblocs) s = ((x : Int), ((c.nbv * c.nblocs - 1 - y : Nat) : Int)) →
        d.drawnAt x y = 1 - born (amp c dets v) s .hole := by
  obtain ⟨a, b, d, e1, e2⟩ := C96_third_panel c hc dets hb hn eigvects k v hk hv
  have h0 : ∃ x ∈ v, x ≠ 0 := by
    by_contra hne
    push Not at hne
    rw [show vdot v v = 0 from ?_] at h1
    · exact zero_ne_one h1
    · rw [List.eq_replicate_of_mem hne]
      simp [vdot]
  refine ⟨a, b, d, e1, ?_⟩
  intro x y hx hy s hs
  rw [(e2 x y hx hy s hs).2.2, h1, div_one]
  have hsum := born_down_sum c dets hb hn v hv h0
  obtain ⟨P, P1, P2, P3, _⟩ := C42_probabilities c dets hb hn v hv h0
  have hz : born (amp c dets v) s .down = 0 := by
    rw [hbeta, Nat.cast_zero] at hsum
    refine (Finset.sum_eq_zero_iff_of_nonneg fun s _ => ?_).1 hsum s (Finset.mem_univ _)
    rw [← (P2 .down s).1]; exact (P2 .down s).2.1
  have hthree := P3 s s.2
  rw [(P2 .hole s).1, (P2 .down s).1, (P2 .up s).1, hz] at hthree
  rw [hz]
  linear_combination hthree

/-- C96 fails: in every sector with a down spin and for every state, the third panel differs somewhere from the density of the electrons,
the sum of the first two panels. -/
theorem C96_not_the_charge (c : Config) (hc : RectConf c c.nbh c.nbv c.nblocs) (dets : List (List Nat))
    (hb : constructBasis c = .ok dets) (hn : c.nholes + c.nbeta ≤ c.nsites) (eigvects : List (List K)) (k : Nat) (v : List K)
    (hk : eigvects[k]? = some v) (hv : v.length = dets.length) (h0 : ∃ x ∈ v, x ≠ 0) (hbeta : c.nbeta ≠ 0) :
    ∃ a b d, electronPanels c dets eigvects k = .ok (some (a, b, d)) ∧
      ∃ x y, x < c.nbh * c.nblocs ∧ y < c.nbv * c.nblocs ∧ d.drawnAt x y ≠ a.drawnAt x y + b.drawnAt x y := by
  obtain ⟨a, b, d, e1, e2⟩ := C96_third_panel c hc dets hb hn eigvects k v hk hv
  refine ⟨a, b, d, e1, ?_⟩
  have hsum := born_down_sum c dets hb hn v hv h0
  have hex : ∃ s : Fin c.nsites, born (amp c dets v) s .down ≠ 0 := by
    by_contra hne
    push Not at hne
    rw [Finset.sum_eq_zero fun s _ => hne s] at hsum
    exact hbeta (by exact_mod_cast hsum.symm)
  obtain ⟨s, hs⟩ := hex
  have hsize : c.nsites = (c.nbh * c.nblocs) * (c.nbv * c.nblocs) := hc.spec.1
  have hs2 : (s : Nat) < (c.nbh * c.nblocs) * (c.nbv * c.nblocs) := hsize ▸ s.2
  generalize hW : c.nbh * c.nblocs = W at *
  generalize hH : c.nbv * c.nblocs = H at *
  have hw : 0 < W := Nat.pos_of_ne_zero fun h => by rw [h, Nat.zero_mul] at hs2; omega
  have hx : (s : Nat) % W < W := Nat.mod_lt _ hw
  have hy : (s : Nat) / W < H := Nat.div_lt_of_lt_mul hs2
  obtain ⟨y, hy2⟩ : ∃ y, y = (s : Nat) / W := ⟨_, rfl⟩
  rw [← hy2] at hy
  have hyy : H - 1 - (H - 1 - y) = y := by omega
  refine ⟨(s : Nat) % W, H - 1 - y, hx, by omega, ?_⟩
  have hg : gridPos W s = ((((s : Nat) % W : Nat) : Int), ((H - 1 - (H - 1 - y) : Nat) : Int)) := by
    rw [hyy, hy2]
    unfold gridPos
    push_cast
    rfl
  obtain ⟨q1, q2, q3⟩ := e2 _ _ hx (by omega) s hg
  rw [q1, q2, q3]
  have hv0 : vdot v v ≠ 0 := (norm_ne_zero c dets hb hn v hv h0).1
  intro h
  rw [sub_div] at h
  have h2 : born (amp c dets v) s .down / vdot v v = 0 := by linarith
  rcases div_eq_zero_iff.1 h2 with h | h
  · exact hs h
  · exact hv0 h

omit [IsStrictOrderedRing K] in
/-- Without such a state nothing is drawn. -/
theorem C96_no_state (c : Config) (dets : List (List Nat)) (eigvects : List (List K)) (k : Nat) (hk : eigvects.length ≤ k) :
    electronPanels c dets eigvects k = .ok none := by
  unfold electronPanels
  rw [List.getElem?_eq_none hk]

end

/-- C94 fails for two rows: the hole is on the lower site (0, 0) and the picture shows it at (0, 1). -/
theorem C94_upside_down : (probabilityRectangular (rectConf 1 2 1 1 0) (basisList 2 1 0) [(1 : ℚ), 0] 0).map (fun A => (A.drawnAt 0 0, A.drawnAt 0 1)) = .ok (0, 1) ∧
    probabilitySpin (rectConf 1 2 1 1 0) (basisList 2 1 0) [(1 : ℚ), 0] 0 = .ok [1, 0] := by decide +kernel

example : (electronPanels (rectConf 1 2 1 0 1) (basisList 2 0 1) [[(1 : ℚ), 0]] 0).map (fun r => r.map (fun A =>
    (A.1.drawnAt 0 0, A.2.1.drawnAt 0 0, A.2.2.drawnAt 0 0))) = .ok (some (1, 0, 1)) := by decide +kernel
example : constructBasis (rectConf 3 1 1 0 1) = .ok (basisList 3 0 1) ∧ (rectConf 3 1 1 0 1).nbv * (rectConf 3 1 1 0 1).nblocs = 1 ∧
    vdot [(0 : ℚ), 1, 0] [0, 1, 0] = 1 ∧ (basisList 3 0 1).length = 3 := by decide +kernel

/-! ### C97 -/

/-- The directory of the pictures of a state. -/
theorem electronFile_eq (n a b k : Nat) : electronFile n a b k = "tJ-H".toList ++ (Nat.toDigits 10 n ++ ("/SpinDistribution/".toList ++
    ((if k = 0 then "GroundState".toList else "Excited".toList ++ Nat.toDigits 10 k) ++ ("/tJ-H".toList ++
      (Nat.toDigits 10 n ++ ((Nat.toDigits 10 a ++ Nat.toDigits 10 b) ++ ".png".toList)))))) := by
  unfold electronFile
  rw [pyFormat_nat, pyFormat_nat, pyFormat_nat, pyFormat_nat]
  simp only [List.append_assoc]

theorem slash_head {l : List Char} {c : Char} (hl : l.head? = some '/') (h : l.head? = some c) : c.isDigit = false := by
  rw [hl] at h
  rw [← Option.some.inj h]
  decide

/-- The numbers that can be read off the name of a picture. -/
theorem electronFile_split {n a b k n' a' b' k' : Nat} (h : electronFile n a b k = electronFile n' a' b' k') :
    n = n' ∧ k = k' ∧ Nat.toDigits 10 a ++ Nat.toDigits 10 b = Nat.toDigits 10 a' ++ Nat.toDigits 10 b' := by
  rw [electronFile_eq, electronFile_eq] at h
  have h := List.append_cancel_left h
  obtain ⟨h1, h⟩ := digits_split (fun _ => toDigits_isDigit) (fun _ => toDigits_isDigit)
    (fun _ => slash_head rfl) (fun _ => slash_head rfl) h
  have h1 := toDigits_inj h1
  subst h1
  have h := List.append_cancel_left h
  have key : k = k' ∧ "/tJ-H".toList ++ (Nat.toDigits 10 n ++ ((Nat.toDigits 10 a ++ Nat.toDigits 10 b) ++ ".png".toList)) =
      "/tJ-H".toList ++ (Nat.toDigits 10 n ++ ((Nat.toDigits 10 a' ++ Nat.toDigits 10 b') ++ ".png".toList)) := by
    by_cases hk : k = 0 <;> by_cases hk' : k' = 0
    · rw [if_pos hk, if_pos hk'] at h
      exact ⟨by omega, List.append_cancel_left h⟩
    · rw [if_pos hk, if_neg hk'] at h
      simp at h
    · rw [if_neg hk, if_pos hk'] at h
      simp at h
    · rw [if_neg hk, if_neg hk', List.append_assoc "Excited".toList, List.append_assoc "Excited".toList] at h
      have h := List.append_cancel_left h
      obtain ⟨h2, h⟩ := digits_split (fun _ => toDigits_isDigit) (fun _ => toDigits_isDigit)
        (fun _ => slash_head rfl) (fun _ => slash_head rfl) h
      exact ⟨toDigits_inj h2, h⟩
  obtain ⟨hk, h⟩ := key
  have h := List.append_cancel_left (List.append_cancel_left h)
  exact ⟨rfl, hk, List.append_cancel_right h⟩

/-- C97, part: the pictures of two states or of two sectors with the same number of electrons have different names if that number satisfies
`DistinctNames`, as the numbers up to 10 do. Missing: for all other numbers two sectors share a name (`C97_collision`), and runs with other switches or couplings have the same name (it depends on the
numbers alone). -/
theorem C97_names_partial (n a b k n' a' b' k' : Nat) (he : DistinctNames (a + b)) (hab : a + b = a' + b')
    (h : electronFile n a b k = electronFile n' a' b' k') : n = n' ∧ a = a' ∧ b = b' ∧ k = k' := by
  obtain ⟨h1, h2, h3⟩ := electronFile_split h
  obtain ⟨h4, h5⟩ := C55_sweep_partial n a b a' b' he hab ⟨true, true, true, true, true, true⟩ (by
    rw [saveName_eq, saveName_eq, h3])
  exact ⟨h1, h4, h5, h2⟩

/-- C97, exact condition for the sectors with `N` electrons: all their pictures have different names if and only if `DistinctNames N`. -/
theorem C97_names_iff (n N : Nat) :
    (∀ a b k a' b' k', a + b = N → a' + b' = N → electronFile n a b k = electronFile n a' b' k' → a = a' ∧ b = b' ∧ k = k') ↔ DistinctNames N := by
  rw [← C55_sweep_exact n N ⟨true, true, true, true, true, true⟩]
  constructor
  · intro h a b a' b' e1 e2 hs
    obtain ⟨hs, _⟩ := saveName_split hs
    have hs := List.append_cancel_left hs
    obtain ⟨h1, h2, _⟩ := h a b 0 a' b' 0 e1 e2 (by rw [electronFile_eq, electronFile_eq, hs])
    exact ⟨h1, h2⟩
  · intro h a b k a' b' k' e1 e2 hs
    obtain ⟨_, h2, h3⟩ := electronFile_split hs
    obtain ⟨g1, g2⟩ := h a b a' b' e1 e2 (by rw [saveName_eq, saveName_eq, h3])
    exact ⟨g1, g2, h2⟩

/-- C97 fails from 11 electrons on. -/
theorem C97_collision (n y z k : Nat) (hy : 1 ≤ y) (hy' : y ≤ 9) (hz : z ≤ 9) :
    electronFile n (11 * y : Nat) z k = electronFile n y (10 * y + z : Nat) k ∧ 11 * y + z = y + (10 * y + z) ∧ 11 * y ≠ y := by
  refine ⟨?_, by omega, by omega⟩
  obtain ⟨h, _⟩ := saveName_split (C55_collision n y z hy hy' hz ⟨true, true, true, true, true, true⟩).1
  have h := List.append_cancel_left h
  rw [electronFile_eq, electronFile_eq, h]

example : electronFile 12 11 0 2 = "tJ-H12/SpinDistribution/Excited2/tJ-H12110.png".toList ∧
    electronFile 12 1 10 2 = electronFile 12 11 0 2 := by decide +kernel

end TJ
