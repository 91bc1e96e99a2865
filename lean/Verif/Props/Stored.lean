/-
Property C134: the pattern of the stored elements of the Hamiltonian and their number.
-/
import Verif.Lemmas.TwoBonds
import Verif.Props.Csr

namespace TJ

open Finset

section
variable {K : Type} [Field K]

theorem mem_rowEntries {l : Coo K} {i j : Nat} : j ∈ (rowEntries l i).map (·.1) ↔ ∃ x, (x, i, j) ∈ l := by
  unfold rowEntries
  simp only [List.mem_map, List.mem_filter, decide_eq_true_eq, exists_exists_and_eq_and]
  constructor
  · rintro ⟨⟨x, k, m⟩, ⟨h1, rfl⟩, rfl⟩
    exact ⟨x, h1⟩
  · rintro ⟨x, h⟩
    exact ⟨(x, i, j), ⟨h, rfl⟩, rfl⟩

theorem mem_row {srt : List (Nat × K) → List (Nat × K)} (hs : RowSort srt) {H : SpMat K} {i j : Nat} (hi : i < H.dim) :
    j ∈ ((H.toCsr srt).row i).map (·.1) ↔ ∃ x, (x, i, j) ∈ H.coo := by
  rw [toCsr_row srt H hi, sumDuplicates_mem, ((hs _).1.map _).mem_iff, mem_rowEntries]

theorem row_sorted {srt : List (Nat × K) → List (Nat × K)} (hs : RowSort srt) {H : SpMat K} {i : Nat} (hi : i < H.dim) :
    (((H.toCsr srt).row i).map (·.1)).Pairwise (· < ·) := by
  rw [toCsr_row srt H hi]
  exact List.pairwise_map.2 (sumDuplicates_sorted (hs _).2)

theorem csrRows_columns {srt : List (Nat × K) → List (Nat × K)} (H : SpMat K) :
    (H.csrRows srt).map (fun r => r.map (·.1)) = (List.range H.dim).map (fun i => ((H.toCsr srt).row i).map (·.1)) := by
  unfold SpMat.csrRows
  rw [List.map_map]
  refine List.map_congr_left fun i hi => ?_
  rw [toCsr_row srt H (List.mem_range.1 hi)]
  rfl

/-- The columns of the rows determine the index arrays. -/
theorem indices_of_columns {srt : List (Nat × K) → List (Nat × K)} (H : SpMat K) :
    (H.toCsr srt).indices = ((List.range H.dim).map (fun i => ((H.toCsr srt).row i).map (·.1))).flatten ∧
    (H.toCsr srt).indptr = (List.range (H.dim + 1)).map
      (fun k => ((((List.range H.dim).map (fun i => ((H.toCsr srt).row i).map (·.1))).map List.length).take k).sum) := by
  rw [← csrRows_columns]
  unfold SpMat.toCsr
  dsimp only
  constructor
  · rw [List.map_flatten]
  · rw [List.map_map]
    refine List.map_congr_left fun k _ => ?_
    congr 2
    refine List.map_congr_left fun l _ => ?_
    simp

/-- C134. The arrays of the Hamiltonian of a rectangle have an element for two determinants exactly when a selected term connects their
occupations, whatever the couplings are. -/
theorem C134_pattern (srt : List (Nat × K) → List (Nat × K)) (hs : RowSort srt) (E : Env) (c : Config) (nbh nbv nb : Nat) (hc : RectConf c nbh nbv nb)
    (hf : c.Full) (hn : c.nholes + c.nbeta ≤ c.nsites) (I : Interactions K) (B : BoolInteractions) (r : List Nat) (v : Bool) (dets : List (List Nat))
    (hb : constructBasis c = .ok dets) (H : SpMat K) (h : buildHamiltonian E c I dets B r v = .ok H) :
    ∀ i j (hi : i < dets.length) (hj : j < dets.length),
      j ∈ ((H.toCsr srt).row i).map (·.1) ↔ Linked (fun s => gridPos (nbh * nb) s) B (conf c dets[i]) (conf c dets[j]) := by
  intro i j hi hj
  obtain ⟨H', e1, e2, _, _⟩ := buildHamiltonian_spec I (hc.tj E) hf hn hb B r v
  obtain rfl := Except.ok.inj (h.symm.trans e1)
  rw [mem_row hs (by omega)]
  exact stored_ham I (hc.tj E) hf hn hb B r v H h i hi j hj

/-- C134. Other couplings with the same selected terms give the same index arrays: only the values change. -/
theorem C134_couplings (srt : List (Nat × K) → List (Nat × K)) (hs : RowSort srt) (E E' : Env) (c : Config) (nbh nbv nb : Nat)
    (hc : RectConf c nbh nbv nb) (hf : c.Full) (hn : c.nholes + c.nbeta ≤ c.nsites) (I I' : Interactions K) (B : BoolInteractions)
    (r r' : List Nat) (v v' : Bool) (dets : List (List Nat)) (hb : constructBasis c = .ok dets) (H H' : SpMat K)
    (h : buildHamiltonian E c I dets B r v = .ok H) (h' : buildHamiltonian E' c I' dets B r' v' = .ok H') :
    (H.toCsr srt).indices = (H'.toCsr srt).indices ∧ (H.toCsr srt).indptr = (H'.toCsr srt).indptr := by
  have p := C134_pattern srt hs E c nbh nbv nb hc hf hn I B r v dets hb H h
  have p' := C134_pattern srt hs E' c nbh nbv nb hc hf hn I' B r' v' dets hb H' h'
  obtain ⟨G, e1, e2, _, _⟩ := buildHamiltonian_spec I (hc.tj E) hf hn hb B r v
  obtain rfl := Except.ok.inj (h.symm.trans e1)
  obtain ⟨G, e1', e2', _, _⟩ := buildHamiltonian_spec I' (hc.tj E') hf hn hb B r' v'
  obtain rfl := Except.ok.inj (h'.symm.trans e1')
  have hrow : (List.range H.dim).map (fun i => ((H.toCsr srt).row i).map (·.1)) = (List.range H'.dim).map (fun i => ((H'.toCsr srt).row i).map (·.1)) := by
    rw [e2, e2']
    refine List.map_congr_left fun i hi => ?_
    have hi := List.mem_range.1 hi
    have s1 := row_sorted hs (H := H) (i := i) (by omega)
    have s2 := row_sorted hs (H := H') (i := i) (by omega)
    refine List.Perm.eq_of_pairwise (le := (· < ·)) (fun a b _ _ h1 h2 => absurd h1 (not_lt.2 h2.le)) s1 s2 ?_
    refine (List.perm_ext_iff_of_nodup (s1.imp (fun h => ne_of_lt h)) (s2.imp (fun h => ne_of_lt h))).2 fun j => ?_
    by_cases hj : j < dets.length
    · rw [p i j hi hj, p' i j hi hj]
    · constructor
      · intro hm
        obtain ⟨x, hx⟩ := (mem_row hs (by omega)).1 hm
        exact absurd (build_bounds h _ hx).2 (by simp only; omega)
      · intro hm
        obtain ⟨x, hx⟩ := (mem_row hs (by omega)).1 hm
        exact absurd (build_bounds h' _ hx).2 (by simp only; omega)
  obtain ⟨i1, i2⟩ := indices_of_columns (srt := srt) H
  obtain ⟨j1, j2⟩ := indices_of_columns (srt := srt) H'
  rw [i1, i2, j1, j2, hrow, e2, e2']
  exact ⟨rfl, rfl⟩

/-- The number of stored elements is the number of connected pairs. -/
theorem stored_length (srt : List (Nat × K) → List (Nat × K)) (hs : RowSort srt) (E : Env) (c : Config) (nbh nbv nb : Nat) (hc : RectConf c nbh nbv nb)
    (hf : c.Full) (hn : c.nholes + c.nbeta ≤ c.nsites) (I : Interactions K) (B : BoolInteractions) (r : List Nat) (v : Bool) (dets : List (List Nat))
    (hb : constructBasis c = .ok dets) (H : SpMat K) (h : buildHamiltonian E c I dets B r v = .ok H) :
    (H.toCsr srt).data.length = ∑ σ ∈ sectorConfs c.nsites c.nholes c.nbeta,
      (univ.filter (Linked (fun s : Fin c.nsites => gridPos (nbh * nb) s) B σ)).card := by
  have p := C134_pattern srt hs E c nbh nbv nb hc hf hn I B r v dets hb H h
  obtain ⟨G, e1, e2, _, _⟩ := buildHamiltonian_spec I (hc.tj E) hf hn hb B r v
  obtain rfl := Except.ok.inj (h.symm.trans e1)
  have hlen : (H.toCsr srt).data.length = ∑ i ∈ range dets.length, ((H.toCsr srt).row i).length := by
    have : (H.toCsr srt).data.length = (H.csrRows srt).flatten.length := by unfold SpMat.toCsr; exact List.length_map ..
    rw [this, List.length_flatten]
    unfold SpMat.csrRows
    rw [List.map_map, ← e2]
    have e3 : (List.range H.dim).map (List.length ∘ fun i => sumDuplicates (srt (rowEntries H.coo i))) =
        (List.range H.dim).map (fun i => ((H.toCsr srt).row i).length) :=
      List.map_congr_left fun i hi => by rw [toCsr_row srt H (List.mem_range.1 hi)]; rfl
    rw [e3]
    rfl
  have hrow : ∀ i : Fin dets.length, ((H.toCsr srt).row i).length =
      (univ.filter (Linked (fun s : Fin c.nsites => gridPos (nbh * nb) s) B (conf c dets[i]))).card := by
    intro i
    have s1 := row_sorted hs (H := H) (i := i) (by omega)
    have l1 : ((H.toCsr srt).row i).length = (((H.toCsr srt).row i).map (·.1)).toFinset.card := by
      rw [List.toFinset_card_of_nodup (s1.imp (fun h => ne_of_lt h)), List.length_map]
    rw [l1]
    have hlt : ∀ j ∈ (((H.toCsr srt).row i).map (·.1)).toFinset, j < dets.length := by
      intro j hj
      obtain ⟨x, hx⟩ := (mem_row hs (by omega)).1 (List.mem_toFinset.1 hj)
      have := (build_bounds h _ hx).2
      dsimp only at this
      omega
    refine card_bij (fun j hj => conf c (dets[j]'(hlt j hj))) ?_ ?_ ?_
    · intro j hj
      rw [mem_filter]
      exact ⟨mem_univ _, (p i j i.2 (hlt j hj)).1 (List.mem_toFinset.1 hj)⟩
    · intro j hj k hk e
      exact conf_inj hb (hlt j hj) (hlt k hk) e
    · intro τ hτ
      have hl := (mem_filter.1 hτ).2
      have hσ : conf c dets[i] ∈ sectorConfs c.nsites c.nholes c.nbeta := by
        have hv := (canonical_getElem hb i i.2).1
        unfold sectorConfs
        rw [mem_filter]
        exact ⟨mem_univ _, count_conf_hole hn hv, count_conf_down hn hv⟩
      have hτs := linked_sector hσ hl
      have hex : ∃ j, ∃ hj : j < dets.length, conf c dets[j] = τ := by
        by_contra hcon
        push Not at hcon
        have := sum_basis hn hb (fun ρ => if ρ = τ then (1 : Nat) else 0)
        rw [sum_ite_eq' , if_pos hτs, sum_eq_zero] at this
        · exact absurd this (by omega)
        · intro j _
          exact if_neg (hcon j j.2)
      obtain ⟨j, hj, rfl⟩ := hex
      exact ⟨j, List.mem_toFinset.2 ((p i j i.2 hj).2 hl), rfl⟩
  rw [hlen, sum_range, ← sum_basis hn hb]
  exact sum_congr rfl fun i _ => hrow i

/-- C134. Number of stored elements on a rectangle of `W x H` sites with `h` holes and `b` down spins: one for each determinant with a
diagonal term, and for each determinant the mean numbers of holes next to electrons (one or two bonds), of antiparallel neighbours and of
holes beside antiparallel pairs. (Singlet displacement together with the hopping by two bonds, which connects the same pairs.) -/
theorem C134_count (srt : List (Nat × K) → List (Nat × K)) (hs : RowSort srt) (E : Env) (c : Config) (nbh nbv nb : Nat) (hc : RectConf c nbh nbv nb)
    (hf : c.Full) (hn : c.nholes + c.nbeta ≤ c.nsites) (I : Interactions K) (B : BoolInteractions) (hSD : B.bSD = true → B.btN = true)
    (r : List Nat) (v : Bool) (dets : List (List Nat)) (hb : constructBasis c = .ok dets) (H : SpMat K)
    (h : buildHamiltonian E c I dets B r v = .ok H) :
    ((H.toCsr srt).data.length : ℚ) = dets.length * (
      (if B.bz = true ∨ B.bV = true then (1 : ℚ) else 0) +
      (if B.bt = true then (2 : ℚ) * rectBonds (nbh * nb) (nbv * nb) * ((c.nholes : ℚ) * (c.nsites - c.nholes) / (c.nsites * (c.nsites - 1))) else 0) +
      (if B.btN = true then ((rectStraight (nbh * nb) (nbv * nb) : ℚ) + 2 * rectDiagonals (nbh * nb) (nbv * nb)) *
        ((c.nholes : ℚ) * (c.nsites - c.nholes) / (c.nsites * (c.nsites - 1))) else 0) +
      (if B.bij = true then (rectBonds (nbh * nb) (nbv * nb) : ℚ) *
        (2 * ((c.nbeta : ℚ) * (c.nsites - c.nholes - c.nbeta)) / (c.nsites * (c.nsites - 1))) else 0) +
      (if B.bSD = true then ((rectStraight (nbh * nb) (nbv * nb) : ℚ) + 4 * rectDiagonals (nbh * nb) (nbv * nb)) *
        (2 * ((c.nholes : ℚ) * (c.nbeta * (c.nsites - c.nholes - c.nbeta))) / (c.nsites * (c.nsites - 1) * (c.nsites - 2))) else 0)) := by
  have hW : 0 < nbh * nb := Nat.mul_pos hc.hh hc.hb
  have hH : 0 < nbv * nb := Nat.mul_pos hc.hv hc.hb
  have hns := hc.spec.1
  have hpos : 1 ≤ c.nsites := by rw [hns]; exact Nat.mul_pos hW hH
  rw [stored_length srt hs E c nbh nbv nb hc hf hn I B r v dets hb H h]
  simp only [card_linked B hSD]
  rw [sum_add_distrib, sum_add_distrib, sum_add_distrib, sum_add_distrib, sum_const, card_sectorConfs hn hb]
  have pull : ∀ (q : Bool) (f : Conf c.nsites → Nat), ((∑ σ ∈ sectorConfs c.nsites c.nholes c.nbeta, (if q then f σ else 0) : Nat) : ℚ) =
      if q = true then ((∑ σ ∈ sectorConfs c.nsites c.nholes c.nbeta, f σ : Nat) : ℚ) else 0 := by
    intro q f
    cases q <;> simp
  have hflip : (univ.filter fun p : Fin c.nsites × Fin c.nsites => p.1 < p.2 ∧ Near (gridPos (nbh * nb) p.1) (gridPos (nbh * nb) p.2)).card =
      rectBonds (nbh * nb) (nbv * nb) := card_nearPairs hW hns
  have c1 : (((c.nsites - c.nholes : Nat)) : ℚ) = c.nsites - c.nholes := by rw [Nat.cast_sub (by omega)]
  have c2 : (((c.nsites - c.nholes - c.nbeta : Nat)) : ℚ) = c.nsites - c.nholes - c.nbeta := by
    rw [Nat.cast_sub (by omega), Nat.cast_sub (by omega)]
  have c3 : (((c.nsites - 1 : Nat)) : ℚ) = c.nsites - 1 := by rw [Nat.cast_sub hpos]; simp
  have hSDterm : ((twoPaths fun s : Fin c.nsites => gridPos (nbh * nb) s).card : ℚ) *
      (((dets.length * (2 * (c.nholes * (c.nbeta * (c.nsites - c.nholes - c.nbeta)))) : Nat) : ℚ) / ((c.nsites * (c.nsites - 1) * (c.nsites - 2) : Nat) : ℚ)) =
      dets.length * ((rectStraight (nbh * nb) (nbv * nb) + 4 * rectDiagonals (nbh * nb) (nbv * nb)) *
        (2 * (c.nholes * (c.nbeta * ((c.nsites : ℚ) - c.nholes - c.nbeta))) / (c.nsites * (c.nsites - 1) * (c.nsites - 2)))) := by
    rw [card_twoPaths hW hns]
    have e : (((c.nsites * (c.nsites - 1) * (c.nsites - 2) : Nat)) : ℚ) = c.nsites * (c.nsites - 1) * (c.nsites - 2) := by
      rcases Nat.lt_or_ge c.nsites 2 with g | g
      · have : c.nsites = 1 := by omega
        rw [this]; norm_num
      · rw [Nat.cast_mul, Nat.cast_mul, c3, Nat.cast_sub g]; norm_num
    rw [e]
    push_cast [c2]
    ring
  rw [Nat.cast_add, Nat.cast_add, Nat.cast_add, Nat.cast_add, pull, pull, pull, pull, sum_hopMoves, sum_nextMoves, sum_flipMoves, sum_singletMoves, card_sectorConfs hn hb, card_nearOrd hW hns, card_nextOrd hW hns,
    hflip, hSDterm]
  rw [smul_eq_mul]
  push_cast [c1, c2, c3]
  split_ifs <;> ring

end

/-- Two holes and seven down spins on 4 x 4 sites, all terms: 411840 determinants with 30.4 elements in a row on
average. -/
example (E : Env) (I : Interactions ℚ) (srt : List (Nat × ℚ) → List (Nat × ℚ)) (hs : RowSort srt) : ∃ dets H,
    constructBasis (rectConf 2 2 2 2 7) = .ok dets ∧
    buildHamiltonian E (rectConf 2 2 2 2 7) I dets ⟨true, true, true, true, true, true⟩ [] false = .ok H ∧
    (H.toCsr srt).data.length = 12519936 := by
  have hc := rectConf_ok 2 2 2 2 7 (by decide) (by decide) (by decide)
  have hf : (rectConf 2 2 2 2 7).Full := by unfold Config.Full; decide +kernel
  have hn : (rectConf 2 2 2 2 7).nholes + (rectConf 2 2 2 2 7).nbeta ≤ (rectConf 2 2 2 2 7).nsites := by decide +kernel
  obtain ⟨dets, H, hb, h1, h2, _⟩ := C30_no_failure E _ 2 2 2 hc hf hn I ⟨true, true, true, true, true, true⟩ [] false
  refine ⟨dets, H, hb, h1, ?_⟩
  have h := C134_count srt hs E _ 2 2 2 hc hf hn I _ (fun _ => rfl) [] false dets hb H h1
  have e1 : (rectConf 2 2 2 2 7).nsites = 16 := hc.spec.1
  have e2 : (rectConf 2 2 2 2 7).nholes = 2 := rfl
  have e3 : (rectConf 2 2 2 2 7).nbeta = 7 := rfl
  have e4 : rectBonds (2 * 2) (2 * 2) = 24 := rfl
  have e5 : rectDiagonals (2 * 2) (2 * 2) = 18 := rfl
  have e6 : rectStraight (2 * 2) (2 * 2) = 32 := rfl
  have e7 : dets.length = 411840 := by
    rw [C02_dimension _ _ hb]
    decide +kernel
  rw [e1, e2, e3, e4, e5, e6, e7] at h
  norm_num at h
  exact_mod_cast h

/-- A hole and two antiparallel spins on a chain: the formula gives 6 (1 + 8 / 6 + 4 / 6 + 4 / 6 + 4 / 6) = 26 elements, the number that the
model stores; the couplings 0 give the same columns. -/
example : (constructBasis (rectConf 3 1 1 1 1) >>= fun dets =>
      buildHamiltonian exEnv (rectConf 3 1 1 1 1) exI dets ⟨true, true, true, true, true, true⟩ >>= fun H =>
      buildHamiltonian exEnv (rectConf 3 1 1 1 1) ⟨0, 0, 0, 0, 0, 0, 0, 0, 0, 0⟩ dets ⟨true, true, true, true, true, true⟩ >>= fun H' =>
      (.ok ((H.toCsr insertionRows).data.length, (H.toCsr insertionRows).indices == (H'.toCsr insertionRows).indices,
        (H.toCsr insertionRows).data == (H'.toCsr insertionRows).data) : Py (Nat × Bool × Bool))) = .ok (26, true, false) ∧
    (26 : ℚ) = 6 * (1 + 2 * rectBonds 3 1 * (1 * 2 / (3 * 2)) + (rectStraight 3 1 + 2 * rectDiagonals 3 1) * (1 * 2 / (3 * 2)) +
      rectBonds 3 1 * (2 * (1 * 1) / (3 * 2)) + (rectStraight 3 1 + 4 * rectDiagonals 3 1) * (2 * (1 * (1 * 1)) / (3 * 2 * 1))) := by
  refine ⟨by decide +kernel, ?_⟩
  norm_num [rectBonds, rectDiagonals, rectStraight]

/-- A hole beside two antiparallel spins: the singlet displacement connects the occupation with the shifted one. -/
example : Linked (fun s : Fin 3 => gridPos 3 s) ⟨false, false, false, true, false, false⟩ ![.hole, .up, .down] ![.up, .down, .hole] ∧
    ¬ Linked (fun s : Fin 3 => gridPos 3 s) ⟨true, true, true, false, true, true⟩ ![.hole, .up, .down] ![.up, .down, .hole] := by
  decide +kernel

end TJ
