/-
C09-C12: determinant functions.
-/
import Verif.Lemmas.Vect
import Verif.Props.Basis

namespace TJ

theorem exConf_full : exConf.Full := by unfold Config.Full; decide

/-! ### C09 -/

/-- C09. On an unrestricted configuration `get_indexes_of` and `get_spin_site` describe the
same occupation for every set iteration order: the species lists have no repetition, a
site is in the list of a species exactly when `get_spin_site` returns this species, and
this is the meaning of the determinant. (`Occ.twice` is the species code 0, -1, 1.) -/
theorem C09_site_queries (S : SetSem) (c : Config) (hf : c.Full) (det : List Nat)
    (hv : ValidDet c.nsites det) (t : Bool) :
    (∀ o : Occ, ∃ l, getIndexesOf S c det o.twice t = .ok l ∧ l.Nodup ∧
      ∀ s, s ∈ l ↔ getSpinSite c det s = .ok o) ∧
    (∀ s < c.nsites, getSpinSite c det s = .ok (occ c.nholes c.nbeta det s)) ∧
    (∀ s < c.nsites, ∃! o, getSpinSite c det s = .ok o) := by
  have h2 : ∀ s < c.nsites, getSpinSite c det s = .ok (occ c.nholes c.nbeta det s) :=
    fun s hs => getSpinSite_eq (hv.mem.2 hs)
  refine ⟨?_, h2, ?_⟩
  · intro o
    obtain ⟨l, e, p⟩ := getIndexesOf_full S hf hv o t
    refine ⟨l, e, p.nodup_iff.2 (sitesOf_nodup _ _ _), ?_⟩
    intro s
    rw [p.mem_iff, mem_sitesOf]
    constructor
    · rintro ⟨hs, ho⟩
      rw [h2 s hs]; exact congrArg _ ho
    · intro h
      by_cases hs : s < c.nsites
      · rw [h2 s hs] at h
        exact ⟨hs, Except.ok.inj h⟩
      · have : s ∉ det := fun hm => hs (hv.mem.1 hm)
        simp [getSpinSite, pyIndex, this, bind, Except.bind] at h
  · intro s hs
    exact ⟨_, h2 s hs, fun o ho => by rw [h2 s hs] at ho; exact (Except.ok.inj ho).symm⟩

/-- C09, error branches. -/
theorem C09_errors (S : SetSem) (c : Config) (det : List Nat) :
    (∀ s, getSpinSite c det s = .error .valueError ↔ s ∉ det) ∧
    (∀ (spin : Int) (t : Bool), getIndexesOf S c det spin t = .error .valueError ↔
      spin ≠ 0 ∧ spin ≠ -1 ∧ spin ≠ 1) := by
  constructor
  · intro s
    by_cases h : s ∈ det
    · rw [getSpinSite_eq h]; simp [h]
    · simp [getSpinSite, pyIndex, h, bind, Except.bind]
  · intro spin t
    unfold getIndexesOf
    by_cases h0 : spin = 0
    · simp [h0]
    · by_cases h1 : spin = -1
      · simp [h1]
      · by_cases h2 : spin = 1
        · simp [h2]
        · simp [h0, h1, h2]

example : getIndexesOf SetSem.reversed exConf [2, 1, 3, 0] 1 = .ok [0, 3] ∧
    getSpinSite exConf [2, 1, 3, 0] 3 = .ok .up ∧ getSpinSite exConf [2, 1, 3, 0] 4 = .error .valueError := by
  decide

/-! ### C10 -/

/-- C10. Spin reversal keeps holes, exchanges up and down, and exchanges the counts. -/
theorem C10_reverse_spins (S : SetSem) (c : Config) (hf : c.Full) (hn : c.nholes + c.nbeta ≤ c.nsites)
    (det : List Nat) (hv : ValidDet c.nsites det) :
    ∃ c' d', reverseSpins S c det = .ok (c', d') ∧
      c'.bond = c.bond ∧ c'.restr = c.restr ∧ c'.ltype = c.ltype ∧ c'.nholes = c.nholes ∧
      (c'.nbeta : Int) = c.nalpha ∧ c'.nalpha = c.nbeta ∧
      Canonical c'.nsites c'.nholes c'.nbeta d' ∧
      (∀ s < c.nsites, (occ c.nholes c.nbeta det s = .hole → occ c'.nholes c'.nbeta d' s = .hole) ∧
        (occ c.nholes c.nbeta det s = .down → occ c'.nholes c'.nbeta d' s = .up) ∧
        (occ c.nholes c.nbeta det s = .up → occ c'.nholes c'.nbeta d' s = .down)) ∧
      reverseSpins S c' d' = .ok (c, reorder c det) := by
  refine ⟨_, _, reverseSpins_eq S hf hn hv, rfl, rfl, rfl, rfl, ?_, ?_, ?_, ?_, ?_⟩
  · show ((c.nalpha.toNat : Nat) : Int) = _
    unfold Config.nalpha; omega
  · show (c.nsites : Int) - c.nholes - (c.nalpha.toNat : Nat) = _
    unfold Config.nalpha; omega
  · apply detOf_canonical
    · rw [cnt_rev]; exact cnt_occ_hole hv hn
    · rw [cnt_rev]; exact cnt_occ_up hv hn
  · intro s hs
    have := occ_reverse hn hv hs
    simp only [occC] at this
    rw [this]
    refine ⟨?_, ?_, ?_⟩ <;> (intro h; rw [h]; rfl)
  · rw [reverseSpins_eq S (flip_full hf) (flip_hn hn) (det := detOf c.nsites (fun s => (occC c det s).rev)) (detOf_valid _ _),
      flip_flip hn, reorder_eq hv]
    congr 2
    apply detOf_congr
    intro s hs
    rw [occ_reverse hn hv hs, Occ.rev_rev]

/-- C10. The reversed basis is a permutation, without repetition, of the basis of the
reversed configuration. -/
theorem C10_reverse_basis (S : SetSem) (c : Config) (hf : c.Full) (hn : c.nholes + c.nbeta ≤ c.nsites)
    (l : List (List Nat)) (hl : constructBasis c = .ok l) :
    ∃ c' l', reverseSpinsBasis S c l = .ok (c', l') ∧ (c'.nbeta : Int) = c.nalpha ∧ c'.nholes = c.nholes ∧
      c'.bond = c.bond ∧ l'.Nodup ∧ ∃ m, constructBasis c' = .ok m ∧ l'.Perm m := by
  rw [constructBasis_eq] at hl
  obtain rfl := (Except.ok.inj hl)
  have hpos : 0 < (basisList c.nsites c.nholes c.nbeta).length := by
    rw [length_basisList]
    exact Nat.mul_pos (Nat.choose_pos (by omega)) (Nat.choose_pos (by omega))
  set L := basisList c.nsites c.nholes c.nbeta with hL
  let f : List Nat → List Nat := fun d => detOf c.nsites (fun s => (occC c d s).rev)
  have hmap : ∀ d ∈ L, (reverseSpins S c d >>= fun r => pure r.2) = (.ok (f d) : Py _) := by
    intro d hd
    rw [reverseSpins_eq S hf hn (canonical_of_mem_basisList hd).1]; rfl
  have hres : reverseSpinsBasis S c L = .ok (c.flip, L.map f) := by
    unfold reverseSpinsBasis
    have : pyGet L 0 = .ok L[0] := by unfold pyGet; rw [List.getElem?_eq_getElem hpos]
    rw [this]
    show (reverseSpins S c L[0] >>= fun r0 => L.mapM _ >>= fun ds => pure (r0.1, ds)) = _
    rw [reverseSpins_eq S hf hn (canonical_of_mem_basisList (List.getElem_mem _)).1, mapM_ok hmap]
    rfl
  have hnd : (L.map f).Nodup := by
    apply List.Nodup.map_on _ (nodup_basisList _ _ _)
    intro x hx y hy hxy
    have cx := canonical_of_mem_basisList hx
    have cy := canonical_of_mem_basisList hy
    have h := detOf_inj hxy (by rw [cnt_rev, cnt_rev]; exact (cnt_occ_hole cx.1 hn).trans (cnt_occ_hole cy.1 hn).symm)
      (by rw [cnt_rev, cnt_rev]; exact (cnt_occ_up cx.1 hn).trans (cnt_occ_up cy.1 hn).symm)
    rw [← detOf_occ cx, ← detOf_occ cy]
    apply detOf_congr
    intro s hs
    have := congrArg Occ.rev (h s hs)
    rwa [Occ.rev_rev, Occ.rev_rev] at this
  refine ⟨_, _, hres, ?_, rfl, rfl, hnd, _, constructBasis_eq _, ?_⟩
  · show ((c.nalpha.toNat : Nat) : Int) = _
    unfold Config.nalpha; omega
  · refine (List.perm_ext_iff_of_nodup hnd (nodup_basisList _ _ _)).2 ?_
    intro d
    constructor
    · intro hd
      obtain ⟨x, hx, rfl⟩ := List.mem_map.1 hd
      have cx := canonical_of_mem_basisList hx
      refine mem_basisList.2 ⟨_, ?_, ?_, rfl⟩
      · rw [cnt_rev]; exact cnt_occ_hole cx.1 hn
      · rw [cnt_rev]; exact cnt_occ_up cx.1 hn
    · intro hd
      obtain ⟨σ, h1, h2, rfl⟩ := mem_basisList.1 hd
      have h1 : cnt c.nsites σ .hole = c.nholes := h1
      have h2 : cnt c.nsites σ .down = c.nalpha.toNat := h2
      have h3 := cnt_add c.nsites σ
      rw [nalpha_toNat hn] at h2
      have k1 : cnt c.nsites (fun s => (σ s).rev) .hole = c.nholes := by rw [cnt_rev]; exact h1
      have k2 : cnt c.nsites (fun s => (σ s).rev) .down = c.nbeta := by
        rw [cnt_rev]
        show cnt c.nsites σ .up = _
        omega
      refine List.mem_map.2 ⟨detOf c.nsites (fun s => (σ s).rev), mem_basisList.2 ⟨_, k1, k2, rfl⟩, ?_⟩
      apply detOf_congr
      intro s hs
      show (occC c _ s).rev = _
      simp only [occC]
      rw [occ_detOf k1 k2 hs, Occ.rev_rev]

example : reverseSpins SetSem.listed exConf [2, 1, 3, 0] = .ok (exConf.flip, [2, 0, 3, 1]) := by rfl

/-! ### C11 -/

/-- C11. On an unrestricted configuration `reverse_spins_vect` moves the coefficient of each
determinant to the position of the reversed determinant, and applying it again in the
reversed configuration gives the vector back. -/
theorem C11_reverse_vect {K : Type} [Zero K] (S : SetSem) (c : Config) (hf : c.Full)
    (hn : c.nholes + c.nbeta ≤ c.nsites) (l l' : List (List Nat)) (hl : constructBasis c = .ok l)
    (hl' : constructBasis c.flip = .ok l') (v : List K) (hv : v.length = l.length) :
    ∃ w, reverseSpinsVect S c l v = .ok w ∧ w.length = l'.length ∧
      (∀ i j (hi : i < l.length) (hj : j < l'.length),
        (∀ s < c.nsites, occ c.flip.nholes c.flip.nbeta l'[j] s = (occ c.nholes c.nbeta l[i] s).rev) →
        w.getD j 0 = v.getD i 0) ∧
      reverseSpinsVect S c.flip l' w = .ok v := by
  rw [constructBasis_eq] at hl hl'
  obtain rfl := Except.ok.inj hl
  obtain rfl := Except.ok.inj hl'
  obtain ⟨w, h1, h2, h3⟩ := reverseSpinsVect_spec S hf hn v hv
  obtain ⟨u, k1, k2, k3⟩ := reverseSpinsVect_spec S (flip_full hf) (flip_hn hn) w
    (by rw [h2]; exact (length_flip_basis hn).symm)
  refine ⟨w, h1, by rw [h2]; exact (length_flip_basis hn).symm, ?_, ?_⟩
  · intro i j hi hj hij
    have hjeq : revIdx c i = j := revIdx_unique hn hi hj hij
    rw [← hjeq]
    exact h3 i hi
  · rw [k1]
    congr 1
    apply List.ext_getElem
    · rw [k2, hv]; exact length_flip_basis hn
    · intro i hi1 hi2
      have hi : i < (basisList c.nsites c.nholes c.nbeta).length := by rw [← hv]; exact hi2
      have hj := revIdx_lt hn hi
      have e1 := h3 i hi
      have e2 := k3 (revIdx c i) hj
      rw [revIdx_revIdx hn hi] at e2
      rw [e1] at e2
      simpa [List.getD_eq_getElem?_getD, hi1, hi2] using e2

/-- C11, scalar products (with `v = w`: norms) are preserved. -/
theorem C11_preserves_dot {K : Type} [Semiring K] (S : SetSem) (c : Config) (hf : c.Full)
    (hn : c.nholes + c.nbeta ≤ c.nsites) (l : List (List Nat)) (hl : constructBasis c = .ok l)
    (v v' w w' : List K) (hv : v.length = l.length) (hv' : v'.length = l.length)
    (hw : reverseSpinsVect S c l v = .ok w) (hw' : reverseSpinsVect S c l v' = .ok w') :
    (List.zipWith (· * ·) w w').sum = (List.zipWith (· * ·) v v').sum := by
  rw [constructBasis_eq] at hl
  obtain rfl := Except.ok.inj hl
  obtain ⟨u, h1, h2, h3⟩ := reverseSpinsVect_spec S hf hn v hv
  obtain ⟨u', h1', h2', h3'⟩ := reverseSpinsVect_spec S hf hn v' hv'
  rw [hw] at h1
  rw [hw'] at h1'
  obtain rfl := Except.ok.inj h1
  obtain rfl := Except.ok.inj h1'
  rw [zipWith_sum_eq _ _ _ h2 h2', zipWith_sum_eq _ _ _ hv hv']
  symm
  refine Finset.sum_bij (fun i _ => revIdx c i) ?_ ?_ ?_ ?_
  · intro i hi
    rw [Finset.mem_range] at hi ⊢
    exact (length_flip_basis hn) ▸ revIdx_lt hn hi
  · intro i hi j hj hij
    rw [Finset.mem_range] at hi hj
    rw [← revIdx_revIdx hn hi, ← revIdx_revIdx hn hj, hij]
  · intro j hj
    rw [Finset.mem_range] at hj
    have hj' : j < (basisList c.flip.nsites c.flip.nholes c.flip.nbeta).length := (length_flip_basis hn).symm ▸ hj
    refine ⟨revIdx c.flip j, ?_, ?_⟩
    · rw [Finset.mem_range]
      have := revIdx_lt (flip_hn hn) hj'
      rwa [flip_flip hn] at this
    · have := revIdx_revIdx (flip_hn hn) hj'
      rwa [flip_flip hn] at this
  · intro i hi
    rw [Finset.mem_range] at hi
    rw [h3 i hi, h3' i hi]

example : reverseSpinsVect SetSem.listed exConf (basisList 4 1 1) (List.range 12) =
    .ok [2, 1, 0, 5, 4, 3, 8, 7, 6, 11, 10, 9] := by decide

/-! ### C12 -/

/-- C12. Joining two unrestricted lattices gives a determinant of the joined lattice with
the content of the first lattice on its sites and that of the second one, shifted. -/
theorem C12_extend (S : SetSem) (c1 c2 : Config) (hf1 : c1.Full) (hf2 : c2.Full)
    (hn1 : c1.nholes + c1.nbeta ≤ c1.nsites) (hn2 : c2.nholes + c2.nbeta ≤ c2.nsites)
    (det1 det2 : List Nat) (hv1 : ValidDet c1.nsites det1) (hv2 : ValidDet c2.nsites det2) :
    ∃ det, extendDeterminant S c1 c2 det1 det2 = .ok det ∧ ValidDet (c1.nsites + c2.nsites) det ∧
      (∀ s < c1.nsites, occ (c1.nholes + c2.nholes) (c1.nbeta + c2.nbeta) det s = occ c1.nholes c1.nbeta det1 s) ∧
      (∀ s < c2.nsites, occ (c1.nholes + c2.nholes) (c1.nbeta + c2.nbeta) det (c1.nsites + s)
        = occ c2.nholes c2.nbeta det2 s) := by
  obtain ⟨h1, eh1, ph1⟩ := getIndexesOf_full S hf1 hv1 .hole false
  obtain ⟨h2, eh2, ph2⟩ := getIndexesOf_full S hf2 hv2 .hole false
  obtain ⟨b1, eb1, pb1⟩ := getIndexesOf_full S hf1 hv1 .down false
  obtain ⟨b2, eb2, pb2⟩ := getIndexesOf_full S hf2 hv2 .down false
  obtain ⟨a1, ea1, pa1⟩ := getIndexesOf_full S hf1 hv1 .up false
  obtain ⟨a2, ea2, pa2⟩ := getIndexesOf_full S hf2 hv2 .up false
  simp only [Occ.twice] at eh1 eh2 eb1 eb2 ea1 ea2
  let σ : Nat → Occ := fun s => if s < c1.nsites then occC c1 det1 s else occC c2 det2 (s - c1.nsites)
  have key : ∀ o, (sitesOf (c1.nsites + c2.nsites) σ o) =
      sitesOf c1.nsites (occC c1 det1) o ++ (sitesOf c2.nsites (occC c2 det2) o).map (· + c1.nsites) := by
    intro o
    unfold sitesOf
    rw [List.range_add, List.filter_append, List.filter_map]
    congr 1
    · apply List.filter_congr
      intro s hs
      simp [σ, List.mem_range.1 hs]
    · have : (fun x => x + c1.nsites) = (fun x => c1.nsites + x) := by funext x; omega
      rw [this]
      congr 1
      apply List.filter_congr
      intro s _
      simp [σ]
  have P : ∀ (o : Occ) (l1 l2 : List Nat), l1.Perm (sitesOf c1.nsites (occC c1 det1) o) →
      l2.Perm (sitesOf c2.nsites (occC c2 det2) o) →
      (l1 ++ l2.map (· + c1.nsites)).Perm (sitesOf (c1.nsites + c2.nsites) σ o) := by
    intro o l1 l2 p1 p2
    rw [key]
    exact p1.append (p2.map _)
  obtain ⟨v, o⟩ := occ_of_parts (P _ _ _ ph1 ph2) (P _ _ _ pb1 pb2) (P _ _ _ pa1 pa2)
  have k1 : cnt (c1.nsites + c2.nsites) σ .hole = c1.nholes + c2.nholes := by
    rw [← length_sitesOf, key, List.length_append, List.length_map, length_sitesOf, length_sitesOf]
    have := cnt_occ_hole hv1 hn1
    have := cnt_occ_hole hv2 hn2
    simp only [occC]; omega
  have k2 : cnt (c1.nsites + c2.nsites) σ .down = c1.nbeta + c2.nbeta := by
    rw [← length_sitesOf, key, List.length_append, List.length_map, length_sitesOf, length_sitesOf]
    have := cnt_occ_down hv1 hn1
    have := cnt_occ_down hv2 hn2
    simp only [occC]; omega
  refine ⟨_, by unfold extendDeterminant; rw [eh1, eh2, eb1, eb2, ea1, ea2]; rfl, v, ?_, ?_⟩
  · intro s hs
    rw [k1, k2] at o
    rw [o s (by omega)]
    simp [σ, hs]
  · intro s hs
    rw [k1, k2] at o
    rw [o _ (by omega)]
    simp [σ]

example : extendDeterminant SetSem.listed exConf exConf [2, 1, 3, 0] [0, 1, 2, 3] =
    .ok [2, 4, 1, 5, 3, 0, 6, 7] := by decide

end TJ
