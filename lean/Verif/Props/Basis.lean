/-
C01-C08: enumeration, ranking and un-ranking of the basis.
-/
import Verif.Lemmas.Target

namespace TJ

/-- A small configuration used in the examples: 2 x 2 sites, one hole, one down spin. -/
def exConf : Config := ⟨NdMat.zeros 4 4, 1, 1, (List.range 4, List.range 4), .periodic, 1, 1, 2⟩

/-! ### C01 -/

/-- C01. `construct_basis` succeeds; its result has no repetition, consists of
determinants, every determinant in it has the prescribed counts, and every occupation
with these counts is the occupation of exactly one element. -/
theorem C01_basis_enumerates (c : Config) :
    ∃ l, constructBasis c = .ok l ∧ l.Nodup ∧
      (∀ d ∈ l, ValidDet c.nsites d ∧ cnt c.nsites (occ c.nholes c.nbeta d) .hole = c.nholes ∧
        cnt c.nsites (occ c.nholes c.nbeta d) .down = c.nbeta ∧
        (cnt c.nsites (occ c.nholes c.nbeta d) .up : Int) = c.nalpha) ∧
      ∀ σ : Nat → Occ, cnt c.nsites σ .hole = c.nholes → cnt c.nsites σ .down = c.nbeta →
        ∃! d, d ∈ l ∧ ∀ s < c.nsites, occ c.nholes c.nbeta d s = σ s := by
  refine ⟨_, constructBasis_eq c, nodup_basisList _ _ _, ?_, ?_⟩
  · intro d hd
    obtain ⟨σ, h1, h2, rfl⟩ := mem_basisList.1 hd
    have e : ∀ o, cnt c.nsites (occ c.nholes c.nbeta (detOf c.nsites σ)) o = cnt c.nsites σ o :=
      fun o => cnt_congr (fun s hs => occ_detOf h1 h2 hs) o
    refine ⟨detOf_valid _ _, ?_, ?_, ?_⟩
    · rw [e, h1]
    · rw [e, h2]
    · rw [e]
      have := cnt_add c.nsites σ
      unfold Config.nalpha
      omega
  · intro σ h1 h2
    refine ⟨detOf c.nsites σ, ⟨mem_basisList.2 ⟨σ, h1, h2, rfl⟩, fun s hs => occ_detOf h1 h2 hs⟩, ?_⟩
    rintro d ⟨hd, ho⟩
    rw [← detOf_occ (canonical_of_mem_basisList hd)]
    exact detOf_congr ho

/-- C01, error branch, for all ints: `construct_basis` raises `ValueError` exactly for a negative number of holes or, if the holes can
be placed at all, a negative number of down spins. -/
theorem C01_negative_counts (n : Nat) (h b : Int) :
    (constructBasisInt n h b = .error .valueError ↔ h < 0 ∨ (h ≤ n ∧ b < 0)) ∧
    ((∃ l, constructBasisInt n h b = .ok l) ↔ ¬ (h < 0 ∨ (h ≤ n ∧ b < 0))) := by
  by_cases h0 : h < 0
  · have e : constructBasisInt n h b = .error .valueError := by
      unfold constructBasisInt
      rw [if_pos h0]
      rfl
    rw [e]
    simp [h0]
  obtain ⟨k, rfl⟩ := Int.eq_ofNat_of_zero_le (by omega : 0 ≤ h)
  by_cases b0 : b < 0
  · by_cases hn : k ≤ n
    · have e : constructBasisInt n k b = .error .valueError := by
        unfold constructBasisInt
        rw [if_neg h0]
        have hb : ∀ l, pyCombinations l b = .error .valueError := fun l => by unfold pyCombinations; rw [if_pos b0]
        have hk : pyCombinations (List.range n) k = .ok (combinations (List.range n) k) := by
          unfold pyCombinations; rw [if_neg h0, Int.toNat_natCast]
        simp only [hb, hk]
        change ((combinations (List.range n) k).mapM (fun sitesHoles => do
          let _ ← removeAll (List.range n) sitesHoles
          (.error .valueError : Py (List (List Nat)))) >>= fun p => (pure p.flatten : Py _)) = _
        have hne : combinations (List.range n) k ≠ [] := by
          intro hc
          have : List.range k ∈ combinations (List.range n) k :=
            mem_combinations.2 ⟨List.range_sublist.2 hn, List.length_range⟩
          rw [hc] at this
          exact absurd this (by simp)
        obtain ⟨hs, rest, hc⟩ := List.exists_cons_of_ne_nil hne
        have hm : hs ∈ combinations (List.range n) k := by rw [hc]; simp
        obtain ⟨hsub, _⟩ := mem_combinations.1 hm
        rw [hc, List.mapM_cons, removeAll_eq List.nodup_range (List.nodup_range.sublist hsub) (fun x hx => hsub.subset hx)]
        rfl
      rw [e]
      simp [h0, b0, hn]
    · have e : constructBasisInt n k b = .ok [] := by
        unfold constructBasisInt
        rw [if_neg h0]
        have hk : pyCombinations (List.range n) k = .ok (combinations (List.range n) k) := by
          unfold pyCombinations; rw [if_neg h0, Int.toNat_natCast]
        have : combinations (List.range n) k = [] := by
          refine List.eq_nil_iff_forall_not_mem.2 (fun hs hm => ?_)
          obtain ⟨hsub, hl⟩ := mem_combinations.1 hm
          have := hsub.length_le
          rw [List.length_range] at this
          omega
        rw [hk, this]
        rfl
      rw [e]
      have : ¬ ((k : Int) ≤ n) := by omega
      simp [this]
  · obtain ⟨m, rfl⟩ := Int.eq_ofNat_of_zero_le (by omega : 0 ≤ b)
    rw [constructBasisInt_eq]
    simp

example : constructBasisInt 4 (-1) 2 = .error .valueError := (C01_negative_counts 4 (-1) 2).1.2 (by omega)
example : ∃ l, constructBasisInt 4 5 (-1) = .ok l := (C01_negative_counts 4 5 (-1)).2.2 (by omega)
example : ∃ l, constructBasis exConf = .ok l ∧ l.length = 12 := by
  refine ⟨_, rfl, by decide⟩
example : cnt 4 (fun s => if s = 2 then Occ.hole else if s = 1 then .down else .up) .hole = exConf.nholes := by
  decide

/-! ### C02 -/

/-- C02. The announced dimension is the length of the basis, for all counts. -/
theorem C02_dimension (c : Config) (l : List (List Nat)) (h : constructBasis c = .ok l) :
    l.length = c.nbConf := by
  rw [constructBasis_eq] at h
  obtain rfl := (Except.ok.inj h)
  rw [length_basisList]
  unfold Config.nbConf computeDimension
  have e : (c.nsites : Int) - c.nalpha - c.nbeta = (c.nholes : Int) := by unfold Config.nalpha; omega
  simp only [e]
  rw [pyComb_nat]
  by_cases h1 : c.nholes ≤ c.nsites
  · rw [show (c.nsites : Int) - c.nholes = ((c.nsites - c.nholes : Nat) : Int) by omega]
    by_cases h2 : c.nbeta ≤ c.nsites - c.nholes
    · have e2 : c.nalpha = ((c.nsites - c.nholes - c.nbeta : Nat) : Int) := by unfold Config.nalpha; omega
      rw [e2, pyComb_nat, Nat.choose_symm h2]
    · have h3 : c.nalpha < 0 := by unfold Config.nalpha; omega
      rw [Nat.choose_eq_zero_of_lt (show c.nsites - c.nholes < c.nbeta by omega)]
      unfold pyComb
      rw [if_pos (Or.inr (Or.inl h3))]
  · rw [Nat.choose_eq_zero_of_lt (show c.nsites < c.nholes by omega)]
    simp

/-- C02, closed form: for consistent counts the dimension is `C(n, h) * C(n - h, b)`,
otherwise it is zero. -/
theorem C02_dimension_value (c : Config) :
    c.nbConf = if c.nholes + c.nbeta ≤ c.nsites then
      c.nsites.choose c.nholes * (c.nsites - c.nholes).choose c.nbeta else 0 := by
  rw [← C02_dimension c _ (constructBasis_eq c), length_basisList]
  split
  · rfl
  · by_cases h1 : c.nholes ≤ c.nsites
    · rw [Nat.choose_eq_zero_of_lt (show c.nsites - c.nholes < c.nbeta by omega), Nat.mul_zero]
    · rw [Nat.choose_eq_zero_of_lt (show c.nsites < c.nholes by omega), Nat.zero_mul]

example : exConf.nbConf = 12 := by decide
example : ({ exConf with nholes := 5 } : Config).nbConf = 0 := by decide

/-! ### C03 -/

/-- C03. Every element of the basis is canonical and the list is strictly increasing in
lexicographic order of (hole sites, down sites). -/
theorem C03_basis_sorted (c : Config) (l : List (List Nat)) (h : constructBasis c = .ok l) :
    (∀ d ∈ l, Canonical c.nsites c.nholes c.nbeta d) ∧
    ∀ (i j : Nat) (hi : i < l.length) (hj : j < l.length), i < j →
      LexHB c.nholes c.nbeta l[i] l[j] := by
  rw [constructBasis_eq] at h
  obtain rfl := (Except.ok.inj h)
  refine ⟨fun d hd => canonical_of_mem_basisList hd, ?_⟩
  intro i j hi hj hij
  exact List.pairwise_iff_getElem.1 (pairwise_basisList _ _ _) i j hi hj hij

/-- `LexHB` is irreflexive and transitive, so C03 fixes the order completely. -/
theorem C03_order_strict (h b : Nat) : (∀ d, ¬ LexHB h b d d) ∧
    ∀ d e f, LexHB h b d e → LexHB h b e f → LexHB h b d f := by
  have tr : ∀ x y z : List Nat, List.Lex (· < ·) x y → List.Lex (· < ·) y z → List.Lex (· < ·) x z := by
    intro x y z hxy
    induction hxy generalizing z with
    | nil => intro h; cases h <;> exact List.Lex.nil
    | cons h ih =>
      intro h'
      cases h' with
      | cons h' => exact List.Lex.cons (ih _ h')
      | rel h' => exact List.Lex.rel h'
    | rel h =>
      intro h'
      cases h' with
      | cons h' => exact List.Lex.rel h
      | rel h' => exact List.Lex.rel (Nat.lt_trans h h')
  constructor
  · rintro d (h | h)
    · exact lex_irrefl _ h
    · exact lex_irrefl _ h.2
  · rintro d e f (h1 | ⟨h1, h1'⟩) (h2 | ⟨h2, h2'⟩)
    · exact Or.inl (tr _ _ _ h1 h2)
    · exact Or.inl (h2 ▸ h1)
    · exact Or.inl (h1 ▸ h2)
    · exact Or.inr ⟨h1.trans h2, tr _ _ _ h1' h2'⟩

example : (constructBasis exConf).toOption.map (fun l => (l[3]?, l[4]?)) =
    some (some [1, 0, 2, 3], some [1, 2, 0, 3]) := by decide

/-! ### C04 -/

/-- C04. The index of the `i`-th basis element is `i`. -/
theorem C04_index_is_position (c : Config) (l : List (List Nat)) (h : constructBasis c = .ok l)
    (i : Nat) (hi : i < l.length) : getIndexInBasis c l[i] = i := by
  rw [constructBasis_eq] at h
  obtain rfl := (Except.ok.inj h)
  have hm : (basisList c.nsites c.nholes c.nbeta)[i] ∈ basisList c.nsites c.nholes c.nbeta := List.getElem_mem _
  have hc := canonical_of_mem_basisList hm
  unfold getIndexInBasis
  rw [reorder_of_canonical hc]
  have := getElem?_hash hm
  obtain ⟨h1, h2⟩ := List.getElem?_eq_some_iff.1 this
  exact ((nodup_basisList _ _ _).getElem_inj_iff).1 h2

example : getIndexInBasis exConf [2, 1, 0, 3] = 7 := by decide

/-! ### C05 -/

/-- C05. Un-ranking never fails below the dimension and returns the basis element. -/
theorem C05_unrank (c : Config) (l : List (List Nat)) (h : constructBasis c = .ok l)
    (i : Nat) (hi : i < l.length) : getHashBasis c.nholes c.nalpha.toNat c.nbeta i = .ok l[i] := by
  rw [constructBasis_eq] at h
  obtain rfl := (Except.ok.inj h)
  have hle : c.nholes + c.nbeta ≤ c.nsites := by
    have := hi
    rw [length_basisList] at this
    by_contra hc
    have h0 := C02_dimension_value c
    rw [if_neg hc, ← C02_dimension c _ (constructBasis_eq c), length_basisList] at h0
    omega
  have e : c.nsites = c.nholes + c.nalpha.toNat + c.nbeta := by unfold Config.nalpha; omega
  generalize hn : c.nsites = n at *
  subst e
  obtain ⟨d, h1, h2⟩ := getHashBasis_eq hi
  rw [List.getElem?_eq_getElem hi] at h1
  rw [h2, Option.some.inj h1]

/-- C05, mutual inverse: un-ranking then ranking gives the index back, and ranking then
un-ranking gives the canonical form of any determinant. -/
theorem C05_mutually_inverse (c : Config) (hn : c.nholes + c.nbeta ≤ c.nsites) :
    (∀ i < c.nbConf, ∃ d, getHashBasis c.nholes c.nalpha.toNat c.nbeta i = .ok d ∧ getIndexInBasis c d = i) ∧
    (∀ det, ValidDet c.nsites det →
      getHashBasis c.nholes c.nalpha.toNat c.nbeta (getIndexInBasis c det) = .ok (reorder c det)) := by
  constructor
  · intro i hi
    rw [← C02_dimension c _ (constructBasis_eq c)] at hi
    exact ⟨_, C05_unrank c _ (constructBasis_eq c) i hi, C04_index_is_position c _ (constructBasis_eq c) i hi⟩
  · intro det hv
    obtain ⟨h1, h2⟩ := List.getElem?_eq_some_iff.1 (getElem?_index hv hn)
    rw [C05_unrank c _ (constructBasis_eq c) _ h1, h2]

example : getHashBasis 1 2 1 7 = .ok [2, 1, 0, 3] := by decide

/-! ### C06 -/

/-- C06. Every determinant has an index below the dimension, and two determinants have
the same index exactly when every site has the same content. -/
theorem C06_index_of_any_det (c : Config) (hn : c.nholes + c.nbeta ≤ c.nsites)
    (det det' : List Nat) (hv : ValidDet c.nsites det) (hv' : ValidDet c.nsites det') :
    getIndexInBasis c det < c.nbConf ∧
    (getIndexInBasis c det = getIndexInBasis c det' ↔
      ∀ s < c.nsites, occ c.nholes c.nbeta det s = occ c.nholes c.nbeta det' s) := by
  have h1 := getElem?_index hv hn
  have h2 := getElem?_index hv' hn
  constructor
  · rw [← C02_dimension c _ (constructBasis_eq c)]
    exact (List.getElem?_eq_some_iff.1 h1).1
  · constructor
    · intro h s hs
      rw [h, h2] at h1
      have h3 := Option.some.inj h1
      rw [reorder_eq hv, reorder_eq hv'] at h3
      rw [← occ_detOf (cnt_occ_hole hv hn) (cnt_occ_down hv hn) hs, ← h3,
        occ_detOf (cnt_occ_hole hv' hn) (cnt_occ_down hv' hn) hs]
    · intro h
      unfold getIndexInBasis
      rw [reorder_eq hv, reorder_eq hv', detOf_congr h]

/-- C06, reordering inside the parts: permuting the sites within the hole, down and up
parts does not change the index. -/
theorem C06_order_inside_species (c : Config) (det hs bs as : List Nat)
    (h1 : hs.Perm (det.take c.nholes)) (h2 : bs.Perm ((det.drop c.nholes).take c.nbeta))
    (h3 : as.Perm (det.drop (c.nholes + c.nbeta))) (hv : ValidDet c.nsites det)
    (hn : c.nholes + c.nbeta ≤ c.nsites) :
    getIndexInBasis c (hs ++ bs ++ as) = getIndexInBasis c det := by
  have hp : (hs ++ bs ++ as).Perm det := by
    conv_rhs => rw [← det_split c.nholes c.nbeta det]
    exact (h1.append h2).append h3
  have hv' : ValidDet c.nsites (hs ++ bs ++ as) := hp.trans hv
  have l1 : hs.length = c.nholes := by rw [h1.length_eq, List.length_take, hv.length]; omega
  have l2 : bs.length = c.nbeta := by
    rw [h2.length_eq, List.length_take, List.length_drop, hv.length]; omega
  refine ((C06_index_of_any_det c hn _ _ hv' hv).2).2 ?_
  intro s _
  unfold occ
  rw [List.append_assoc, List.take_left' l1, List.drop_left' l1, List.take_left' l2]
  simp only [h1.mem_iff, h2.mem_iff]

example : ValidDet exConf.nsites [2, 1, 3, 0] ∧ getIndexInBasis exConf [2, 1, 3, 0] = 7 := by
  constructor <;> decide

/-! ### C07 -/

/-- C07. `get_target_hash` terminates for all arguments with `size ≤ nsites`: below
`C(nsites, size)` it returns the `ind`-th subset in lexicographic order, above it raises
`IndexError`. -/
theorem C07_target_hash (n k : Nat) (hk : k ≤ n) :
    ∃ L, SubsetEnum n k L ∧ L.length = n.choose k ∧
      (∀ ind (h : ind < L.length), getTargetHash n k ind = .ok L[ind]) ∧
      (0 < k → ∀ ind, n.choose k ≤ ind → getTargetHash n k ind = .error .indexError) := by
  have hlen : (combinations (List.range n) k).length = n.choose k := by
    rw [length_combinations, List.length_range]
  refine ⟨combinations (List.range n) k, ⟨pairwise_lex_combinations List.pairwise_lt_range k, ?_⟩, hlen, ?_, ?_⟩
  · intro ys
    rw [mem_combinations, sublist_range_iff, and_assoc]
  · intro ind h
    obtain ⟨x, h1, h2⟩ := getTargetHash_ok hk (by rw [← hlen]; exact h)
    rw [List.getElem?_eq_getElem h] at h1
    rw [h2, Option.some.inj h1]
  · intro hpos ind h
    rw [getTargetHash_eq hk hpos, nthComb, List.getElem?_eq_none (by omega)]

example : getTargetHash 5 3 7 = .ok [1, 2, 4] := by decide
example : getTargetHash 5 3 10 = .error .indexError := by decide

/-! ### C08 -/

/-- C08. Reordering keeps the occupation, sorts each part, lands in the basis, is
idempotent and leaves basis elements unchanged. -/
theorem C08_reorder (c : Config) (hn : c.nholes + c.nbeta ≤ c.nsites) (l : List (List Nat))
    (hl : constructBasis c = .ok l) (det : List Nat) (hv : ValidDet c.nsites det) :
    (∀ s < c.nsites, occ c.nholes c.nbeta (reorder c det) s = occ c.nholes c.nbeta det s) ∧
    Canonical c.nsites c.nholes c.nbeta (reorder c det) ∧
    reorder c det ∈ l ∧ reorder c (reorder c det) = reorder c det ∧
    (∀ d ∈ l, reorder c d = d) := by
  rw [constructBasis_eq] at hl
  obtain rfl := (Except.ok.inj hl)
  have hm := reorder_mem hv hn
  refine ⟨?_, canonical_of_mem_basisList hm, hm, ?_, ?_⟩
  · intro s hs
    rw [reorder_eq hv]
    exact occ_detOf (cnt_occ_hole hv hn) (cnt_occ_down hv hn) hs
  · exact reorder_of_canonical (canonical_of_mem_basisList hm)
  · intro d hd
    exact reorder_of_canonical (canonical_of_mem_basisList hd)

example : reorder exConf [2, 1, 3, 0] = [2, 1, 0, 3] := by decide

end TJ
