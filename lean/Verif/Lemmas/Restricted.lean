/-
Images under the terms of the Hamiltonian on a lattice with restricted sites (`sites_restriction`), as used by the reverse
interactions of embedding_blocks.
-/
import Verif.Lemmas.Images2

namespace TJ

theorem getIndexesOf_spec (S : SetSem) {c : Config} {det : List Nat} (hv : ValidDet c.nsites det) (o : Occ) (t : Bool) :
    ∃ l, getIndexesOf S c det o.twice t = .ok l ∧ l.Nodup ∧
      ∀ x, x ∈ l ↔ x < c.nsites ∧ occC c det x = o ∧ x ∈ (if t then c.restr.2 else c.restr.1) := by
  have h1 := fun x => (sitesOf_occ_hole hv c.nholes c.nbeta).mem_iff (a := x)
  have h2 := fun x => (sitesOf_occ_down hv c.nholes c.nbeta).mem_iff (a := x)
  have h3 := fun x => (sitesOf_occ_up hv c.nholes c.nbeta).mem_iff (a := x)
  simp only [mem_sitesOf] at h1 h2 h3
  cases o with
  | hole =>
    refine ⟨_, by simp [getIndexesOf, Occ.twice]; rfl, S.nodup_inter _ _, fun x => ?_⟩
    rw [S.mem_inter]
    unfold holesOf
    rw [← h1 x]; exact and_assoc
  | down =>
    refine ⟨_, by simp [getIndexesOf, Occ.twice]; rfl, S.nodup_inter _ _, fun x => ?_⟩
    rw [S.mem_inter]
    unfold betaOf
    rw [← h2 x]; exact and_assoc
  | up =>
    refine ⟨_, by simp [getIndexesOf, Occ.twice]; rfl, S.nodup_inter _ _, fun x => ?_⟩
    rw [S.mem_inter]
    unfold alphaOf
    rw [← h3 x]; exact and_assoc

theorem mem_nbl_restr {S : SetSem} {c : Config} {a : Nat} (ha : a < c.nsites) (s : Nat) :
    s ∈ nbl S c.bond c.restrArg a ↔ (s < c.nsites ∧ s ∈ c.restr.2 ∧ c.bond.e a s = 1) :=
  (nbl_spec S c.bond c.restrArg ha).2.2 s

/-- The images of hopping on a restricted lattice. -/
theorem computeHopping_restr (S : SetSem) {c : Config} {det : List Nat} (hv : ValidDet c.nsites det)
    (hel : ∀ s ∈ c.restr.2, s < c.nsites → occC c det s ≠ .hole) :
    ∃ L : List (Nat × Nat), L.Nodup ∧
      (∀ p, p ∈ L ↔ p.1 < c.nsites ∧ p.2 < c.nsites ∧ occC c det p.1 = .hole ∧ p.1 ∈ c.restr.1 ∧ p.2 ∈ c.restr.2 ∧
        c.bond.e p.1 p.2 = 1) ∧
      computeHopping S c det = .ok (L.map (fun p => detOf c.nsites (swapOcc (occC c det) p.1 p.2))) := by
  obtain ⟨hs, e0, hnd, hmem⟩ := getIndexesOf_spec S hv .hole false
  simp only [Bool.false_eq_true, if_false] at hmem
  refine ⟨hs.flatMap (fun a => ((nbl S c.bond c.restrArg a).filter (fun b => b ∉ hs)).map (fun b => (a, b))),
    nodup_pairs hnd (fun a ha => ((nbl_spec S c.bond c.restrArg ((hmem a).1 ha).1).2.1).filter _), ?_, ?_⟩
  · intro p
    rw [mem_pairs, List.mem_filter, hmem]
    constructor
    · rintro ⟨h1, h2, _⟩
      rw [mem_nbl_restr h1.1] at h2
      exact ⟨h1.1, h2.1, h1.2.1, h1.2.2, h2.2.1, h2.2.2⟩
    · rintro ⟨h1, h2, h3, h4, h5, h6⟩
      refine ⟨⟨h1, h3, h4⟩, (mem_nbl_restr h1 _).2 ⟨h2, h5, h6⟩, ?_⟩
      have : ¬ p.2 ∈ hs := by rw [hmem]; exact fun h => hel _ h5 h2 h.2.1
      simpa using this
  · unfold computeHopping
    split_ifs with h0
    · refine bind_ok e0 ?_
      rw [← flatten_map_map hs (fun a => (nbl S c.bond c.restrArg a).filter (fun b => b ∉ hs))
        (fun a b => detOf c.nsites (swapOcc (occC c det) a b))]
      refine bind_ok (mapM_ok (g := fun a => ((nbl S c.bond c.restrArg a).filter (fun b => b ∉ hs)).map
        (fun b => detOf c.nsites (swapOcc (occC c det) a b))) ?_) rfl
      intro a ha
      have ha' := (hmem a).1 ha
      refine bind_ok (nbl_spec S c.bond c.restrArg ha'.1).1 ?_
      apply mapM_ok
      intro b hb
      have := (mem_nbl_restr ha'.1 b).1 (List.mem_filter.1 hb).1
      exact swapped_eq hv ha'.1 this.1
    · have : hs = [] := by
        apply List.eq_nil_iff_forall_not_mem.2
        intro s hs
        have := ((hmem s).1 hs).2.1
        rw [occ_hole_iff] at this
        have h0 : c.nholes = 0 := by omega
        rw [h0] at this
        simp at this
      rw [this]
      rfl

/-- No hole to start from: no hopping. -/
theorem computeHopping_nil (S : SetSem) {c : Config} {det : List Nat} (hv : ValidDet c.nsites det)
    (h : ∀ s ∈ c.restr.1, s < c.nsites → occC c det s ≠ .hole) : computeHopping S c det = .ok [] := by
  obtain ⟨hs, e0, _, hmem⟩ := getIndexesOf_spec S hv .hole false
  simp only [Bool.false_eq_true, if_false] at hmem
  have : hs = [] := List.eq_nil_iff_forall_not_mem.2 (fun s hs' => h s ((hmem s).1 hs').2.2 ((hmem s).1 hs').1 ((hmem s).1 hs').2.1)
  subst this
  unfold computeHopping
  split_ifs
  · exact bind_ok e0 (bind_ok rfl rfl)
  · rfl

/-- The pairs of next-neighbour hopping on a restricted lattice. -/
def NextPairR (c : Config) (σ : Nat → Occ) (a b : Nat) : Prop :=
  a < c.nsites ∧ b < c.nsites ∧ σ a = .hole ∧ σ b ≠ .hole ∧ a ∈ c.restr.1 ∧ b ∈ c.restr.2 ∧
    ∃ m, m < c.nsites ∧ c.bond.e a m = 1 ∧ c.bond.e m b = 1

theorem computeNextHopping_restr (E : Env) {c : Config} {det : List Nat} (hv : ValidDet c.nsites det)
    (hlin : ∀ a < c.nsites, ∀ m < c.nsites, ∀ b < c.nsites, a ≠ b → c.bond.e a m = 1 → c.bond.e m b = 1 →
      ∃ r, isBondLinear E c b m a = .ok r) :
    ∃ W : List ((Nat × Nat) × Bool), (W.map Prod.fst).Nodup ∧
      (∀ p, p ∈ W.map Prod.fst ↔ NextPairR c (occC c det) p.1 p.2) ∧
      (∀ w ∈ W, ∃ m < c.nsites, c.bond.e w.1.1 m = 1 ∧ c.bond.e m w.1.2 = 1 ∧
        isBondLinear E c w.1.2 m w.1.1 = .ok w.2) ∧
      computeNextHopping E c det = .ok
        ((W.filter (fun w => w.2)).map (fun w => detOf c.nsites (swapOcc (occC c det) w.1.1 w.1.2)),
         (W.filter (fun w => !w.2)).map (fun w => detOf c.nsites (swapOcc (occC c det) w.1.1 w.1.2))) := by
  obtain ⟨hs, e0, _, hmem⟩ := getIndexesOf_spec E.toSetSem hv .hole false
  obtain ⟨us, eu, _, pu⟩ := getIndexesOf_spec E.toSetSem hv .up true
  obtain ⟨ds, ed, _, pd⟩ := getIndexesOf_spec E.toSetSem hv .down true
  simp only [Bool.false_eq_true, if_false, if_true] at hmem pu pd
  have hel : ∀ s, s ∈ us ++ ds ↔ s < c.nsites ∧ occC c det s ≠ .hole ∧ s ∈ c.restr.2 := by
    intro s
    rw [List.mem_append, pu, pd]
    cases occC c det s <;> simp
  set F := fun w : (Nat × Nat) × Bool => detOf c.nsites (swapOcc (occC c det) w.1.1 w.1.2) with hF
  let St := List (Nat × Nat) × List (List Nat) × List (List Nat)
  -- the state is described by a list of labelled pairs
  let Inv : St → Prop := fun st => ∃ W : List ((Nat × Nat) × Bool), st.1 = W.map Prod.fst ∧ st.1.Nodup ∧
    (∀ w ∈ W, ∃ m < c.nsites, c.bond.e w.1.1 m = 1 ∧ c.bond.e m w.1.2 = 1 ∧
        isBondLinear E c w.1.2 m w.1.1 = .ok w.2) ∧
    st.2.1 = (W.filter (fun w => w.2)).map F ∧ st.2.2 = (W.filter (fun w => !w.2)).map F
  let mem : St → Nat × Nat → Prop := fun st p => p ∈ st.1
  have hstep : ∀ a m, a < c.nsites → occC c det a = .hole → m < c.nsites → c.bond.e a m = 1 →
      ∀ b, b < c.nsites → occC c det b ≠ .hole → c.bond.e m b = 1 → ∀ st, Inv st →
      ∃ st', nextHopStep E c det a m st b = .ok st' ∧ Inv st' ∧ ∀ x, mem st' x ↔ (mem st x ∨ x = (a, b)) := by
    intro a m ha hah hm ham b hb hbe hmb st hinv
    obtain ⟨V, col, ort⟩ := st
    obtain ⟨W, w1, w2, w3, w4, w5⟩ := hinv
    simp only at w1 w2 w4 w5
    have hne : a ≠ b := fun h => hbe (h ▸ hah)
    have i1 := pyIndex_eq (hv.mem.2 ha)
    have i2 := pyIndex_eq (hv.mem.2 hb)
    unfold nextHopStep
    by_cases hin : (a, b) ∈ V
    · refine ⟨(V, col, ort), ?_, ⟨W, w1, w2, w3, w4, w5⟩, ?_⟩
      · refine bind_ok i1 (bind_ok i2 ?_)
        simp only [hin, if_true]
        rfl
      · intro x
        constructor
        · exact Or.inl
        · rintro (h | rfl)
          · exact h
          · exact hin
    · obtain ⟨r, hr⟩ := hlin a ha m hm b hb hne ham hmb
      refine ⟨(V ++ [(a, b)], (if r then col ++ [F ((a, b), r)] else col), (if r then ort else ort ++ [F ((a, b), r)])), ?_, ?_, ?_⟩
      · refine bind_ok i1 (bind_ok i2 ?_)
        simp only [hin, if_false]
        refine bind_ok (swapped_eq hv ha hb) (bind_ok hr ?_)
        cases r <;> rfl
      · refine ⟨W ++ [((a, b), r)], ?_, ?_, ?_, ?_, ?_⟩
        · simp only [w1, List.map_append, List.map_cons, List.map_nil]
        · simp only
          rw [List.nodup_append]
          refine ⟨w2, by simp, ?_⟩
          intro x hx y hy hxy
          rw [List.mem_singleton] at hy
          exact hin (hy ▸ hxy ▸ hx)
        · intro w hw
          rcases List.mem_append.1 hw with hw | hw
          · exact w3 w hw
          · rw [List.mem_singleton] at hw
            subst hw
            exact ⟨m, hm, ham, hmb, hr⟩
        · simp only [w4]
          cases r <;> simp
        · simp only [w5]
          cases r <;> simp
      · intro x
        show x ∈ V ++ [(a, b)] ↔ _
        rw [List.mem_append, List.mem_singleton]
  obtain ⟨st, r1, r2, r3⟩ := foldlM_acc (f := fun st a => do
      let nbrs ← getNeighbors E.toSetSem a c.bond (.list [])
      nbrs.foldlM (fun st m => do
        let ups ← getIndexesOf E.toSetSem c det 1 true
        let downs ← getIndexesOf E.toSetSem c det (-1) true
        let nn ← getNeighbors E.toSetSem m c.bond c.restrArg
        (E.inter (ups ++ downs) nn).foldlM (nextHopStep E c det a m) st) st) Inv mem
    (P := fun a x => x.1 = a ∧ NextPairR c (occC c det) x.1 x.2) hs (([], [], []) : St)
    ⟨[], rfl, List.nodup_nil, by simp, rfl, rfl⟩ (by
      intro a ha st hst
      obtain ⟨ha1, ha2, ha3⟩ := (hmem a).1 ha
      have hnb := nbl_spec E.toSetSem c.bond (.list []) ha1
      obtain ⟨st', q1, q2, q3⟩ := foldlM_acc (f := fun st m => do
          let ups ← getIndexesOf E.toSetSem c det 1 true
          let downs ← getIndexesOf E.toSetSem c det (-1) true
          let nn ← getNeighbors E.toSetSem m c.bond c.restrArg
          (E.inter (ups ++ downs) nn).foldlM (nextHopStep E c det a m) st) Inv mem
        (P := fun m x => x.1 = a ∧ x.2 < c.nsites ∧ occC c det x.2 ≠ .hole ∧ x.2 ∈ c.restr.2 ∧ c.bond.e m x.2 = 1)
        (nbl E.toSetSem c.bond (.list []) a) st hst (by
          intro m hm st hst
          have hm' := (mem_nbl_nil ha1 m).1 hm
          have hee : ∀ b, b ∈ E.inter (us ++ ds) (nbl E.toSetSem c.bond c.restrArg m) ↔
              (b < c.nsites ∧ occC c det b ≠ .hole ∧ b ∈ c.restr.2 ∧ c.bond.e m b = 1) := by
            intro b
            rw [E.mem_inter, hel, mem_nbl_restr hm'.1]
            constructor
            · rintro ⟨⟨x1, x2, x3⟩, _, _, x4⟩; exact ⟨x1, x2, x3, x4⟩
            · rintro ⟨x1, x2, x3, x4⟩; exact ⟨⟨x1, x2, x3⟩, x1, x3, x4⟩
          obtain ⟨st', s1, s2, s3⟩ := foldlM_acc (f := nextHopStep E c det a m) Inv mem
            (P := fun b x => x = (a, b)) (E.inter (us ++ ds) (nbl E.toSetSem c.bond c.restrArg m)) st hst (by
              intro b hb st hst
              obtain ⟨b1, b2, _, b3⟩ := (hee b).1 hb
              exact hstep a m ha1 ha2 hm'.1 hm'.2 b b1 b2 b3 st hst)
          refine ⟨st', ?_, s2, ?_⟩
          · refine bind_ok eu (bind_ok ed (bind_ok (nbl_spec E.toSetSem c.bond c.restrArg hm'.1).1 s1))
          · intro x
            rw [s3]
            constructor
            · rintro (h | ⟨b, hb, rfl⟩)
              · exact Or.inl h
              · exact Or.inr ⟨rfl, (hee b).1 hb⟩
            · rintro (h | ⟨h1, h2⟩)
              · exact Or.inl h
              · exact Or.inr ⟨x.2, (hee x.2).2 h2, Prod.ext h1 rfl⟩)
      refine ⟨st', bind_ok hnb.1 q1, q2, ?_⟩
      intro x
      rw [q3]
      constructor
      · rintro (h | ⟨m, hm, h1, h2, h3, h4, h5⟩)
        · exact Or.inl h
        · have hm' := (mem_nbl_nil ha1 m).1 hm
          subst h1
          exact Or.inr ⟨rfl, ha1, h2, ha2, h3, ha3, h4, m, hm'.1, hm'.2, h5⟩
      · rintro (h | ⟨h1, h2, h3, h4, h5, h9, h10, m, h6, h7, h8⟩)
        · exact Or.inl h
        · subst h1
          exact Or.inr ⟨m, (mem_nbl_nil ha1 m).2 ⟨h6, h7⟩, rfl, h3, h5, h10, h8⟩)
  obtain ⟨W, w1, w2, w3, w4, w5⟩ := r2
  refine ⟨W, w1 ▸ w2, ?_, w3, ?_⟩
  · intro p
    rw [← w1]
    have := r3 p
    simp only [mem] at this
    rw [this]
    constructor
    · rintro (h | ⟨a, _, _, h⟩)
      · simp at h
      · exact h
    · intro h
      exact Or.inr ⟨p.1, (hmem _).2 ⟨h.1, h.2.2.1, h.2.2.2.2.1⟩, rfl, h⟩
  · unfold computeNextHopping
    split_ifs with h0
    · refine bind_ok e0 (bind_ok r1 ?_)
      rw [w4, w5]
      rfl
    · have hnil : hs = [] := by
        apply List.eq_nil_iff_forall_not_mem.2
        intro s hs
        have := (hmem s).1 hs
        rw [occ_hole_iff] at this
        have h0 : c.nholes = 0 := by omega
        rw [h0] at this
        simp at this
      rw [hnil] at r1
      have hst : st = ([], [], []) := (Except.ok.inj r1).symm
      rw [hst] at w1
      have : W = [] := List.map_eq_nil_iff.1 w1.symm
      rw [this]
      rfl


/-- Without opposite spins on the second list of sites no singlet is displaced. -/
theorem computeSD_nil (E : Env) {c : Config} {det : List Nat} (hv : ValidDet c.nsites det)
    (h : ∀ m ∈ c.restr.2, ∀ b ∈ c.restr.2, m < c.nsites → b < c.nsites → occC c det m ≠ .hole → occC c det b ≠ (occC c det m).rev) :
    computeSD E c det = .ok ([], []) := by
  obtain ⟨hs, e0, _, hmem⟩ := getIndexesOf_spec E.toSetSem hv .hole false
  obtain ⟨us, eu, _, pu⟩ := getIndexesOf_spec E.toSetSem hv .up true
  obtain ⟨ds, ed, _, pd⟩ := getIndexesOf_spec E.toSetSem hv .down true
  simp only [Bool.false_eq_true, if_false, if_true] at hmem pu pd
  unfold computeSD
  refine bind_ok e0 (bind_ok (mapM_ok (g := fun _ => []) ?_) (by simp; rfl))
  intro a ha
  obtain ⟨ha1, _, _⟩ := (hmem a).1 ha
  refine bind_ok (nbl_spec E.toSetSem c.bond c.restrArg ha1).1 (bind_ok eu (bind_ok ed
    (bind_ok (mapM_ok (g := fun _ => []) ?_) (by simp; rfl))))
  intro m hm
  rw [E.mem_inter, List.mem_append, pu, pd, mem_nbl_restr ha1] at hm
  obtain ⟨h1, hm1, hm2, _⟩ := hm
  have hme : occC c det m ≠ .hole := by
    rcases h1 with h1 | h1 <;> rw [h1.2.1] <;> simp
  refine bind_ok (getSpinSite_eq (hv.mem.2 hm1)) (bind_ok (nbl_spec E.toSetSem c.bond c.restrArg hm1).1 ?_)
  obtain ⟨op, eo, _, po⟩ := getIndexesOf_spec E.toSetSem hv (occC c det m).rev true
  simp only [if_true] at po
  have et : - (occC c det m).twice = (occC c det m).rev.twice := by cases occC c det m <;> rfl
  show (getIndexesOf E.toSetSem c det (- (occC c det m).twice) true >>= _) = _
  rw [et]
  refine bind_ok eo ?_
  have : E.inter op (nbl E.toSetSem c.bond c.restrArg m) = [] := by
    refine List.eq_nil_iff_forall_not_mem.2 fun b hb => ?_
    rw [E.mem_inter, po] at hb
    obtain ⟨⟨b1, b2, b3⟩, _⟩ := hb
    exact h m hm2 b b3 hm1 b1 hme b2
  rw [this]
  rfl

/-- Without bonds inside the restriction (the first site not after the second) no spin is flipped. -/
theorem computeFlip_nil (S : SetSem) {c : Config} (det : List Nat) (h : ∀ i ∈ c.restr.1, ∀ j ∈ c.restr.2, j < i) :
    computeFlip S c det = .ok ([], [], []) := by
  have hb : buildBondList S c.bond c.restrArg = .ok [] := by
    unfold buildBondList Config.restrArg
    simp only [Except.ok.injEq]
    refine List.eq_nil_iff_forall_not_mem.2 fun p hp => ?_
    obtain ⟨i, hi, hp⟩ := List.mem_flatMap.1 hp
    obtain ⟨j, hj, _⟩ := List.mem_filterMap.1 hp
    rw [S.mem_inter] at hi hj
    have := List.mem_range'.1 hj.1
    have := h i hi.2 j hj.2
    omega
  unfold computeFlip
  rw [hb]
  rfl

end TJ
