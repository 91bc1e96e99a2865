/-
The static dressing of embedding_blocks, explicitly (C74).
-/
import Verif.Props.Embedding4
import Verif.Props.Clusters

namespace TJ

open Finset

/-! ### The setup -/

/-- What `blockSetup` computes on a rectangular block: two blocks side by side, and frontiers that contain every site bonded
to the other block. -/
structure BlockGeom (c : Config) (su : BlockSetup) : Prop where
  rows : c.nsites = (c.nbh * c.nblocs) * (c.nbv * c.nblocs)
  emb : buildBondMatrixBlockEmbedding c.nbh c.nbv c.nblocs = .ok su.cE.bond
  erows : su.cE.nsites = 2 * c.nsites
  near : ∀ i < 2 * c.nsites, ∀ j < 2 * c.nsites, su.cE.bond.e i j = 1 ↔
    Near (twoPos (c.nbh * c.nblocs) (c.nbv * c.nblocs) i) (twoPos (c.nbh * c.nblocs) (c.nbv * c.nblocs) j)
  ltype : su.cE.ltype = .clusters
  nbh : su.cE.nbh = 2 * c.nbh
  nbv : su.cE.nbv = c.nbv
  nblocs : su.cE.nblocs = c.nblocs
  restr : su.cE.restr = (su.fA, su.fB)
  nodupA : su.fA.Nodup
  nodupB : su.fB.Nodup
  ltA : ∀ s ∈ su.fA, s < c.nsites
  geB : ∀ s ∈ su.fB, c.nsites ≤ s ∧ s < 2 * c.nsites
  memA : ∀ a < c.nsites, ∀ r < c.nsites, su.cE.bond.e a (c.nsites + r) = 1 → a ∈ su.fA
  memB : ∀ a < c.nsites, ∀ r < c.nsites, su.cE.bond.e a (c.nsites + r) = 1 → c.nsites + r ∈ su.fB
  wideA : ∀ m < c.nsites, ∀ r < c.nsites, su.cE.bond.e m (c.nsites + r) = 1 → ∀ a < c.nsites, su.cE.bond.e m a = 1 → a ∈ su.fA
  wideB : ∀ a < c.nsites, ∀ m < c.nsites, su.cE.bond.e a (c.nsites + m) = 1 → ∀ r < c.nsites,
    su.cE.bond.e (c.nsites + m) (c.nsites + r) = 1 → c.nsites + r ∈ su.fB
  nholes : su.cE.nholes = c.nholes + su.cB.nholes
  nbeta : su.cE.nbeta = c.nbeta + su.cB.nbeta
  full : su.cF = { su.cE with restr := (List.range (2 * c.nsites), List.range (2 * c.nsites)) }

theorem twoPos_left {W H s : Nat} (h : s < W * H) : twoPos W H s = gridPos W s := if_pos h

theorem twoPos_right {W H s : Nat} : twoPos W H (W * H + s) = ((gridPos W s).1 + W, (gridPos W s).2) := by
  unfold twoPos
  rw [if_neg (by omega), Nat.add_sub_cancel_left]

theorem reverseSpins_bond {S : SetSem} {c : Config} {det : List Nat} {r : Config × List Nat} (h : reverseSpins S c det = .ok r) :
    r.1.bond = c.bond := by
  unfold reverseSpins at h
  obtain ⟨x, _, h⟩ := bind_eq_ok.1 h
  obtain ⟨y, _, h⟩ := bind_eq_ok.1 h
  obtain ⟨z, _, h⟩ := bind_eq_ok.1 h
  obtain rfl := Except.ok.inj h
  rfl

theorem forall₂_mem {α β : Type} {P : α → β → Prop} {l : List α} {m : List β} (h : List.Forall₂ P l m) :
    (∀ x ∈ l, ∃ y ∈ m, P x y) ∧ ∀ y ∈ m, ∃ x ∈ l, P x y := by
  induction h with
  | nil => exact ⟨fun _ h => (by cases h), fun _ h => (by cases h)⟩
  | cons h1 _ ih =>
    refine ⟨?_, ?_⟩
    · intro x hx
      rcases List.mem_cons.1 hx with rfl | hx
      · exact ⟨_, by simp, h1⟩
      · obtain ⟨y, a, b⟩ := ih.1 x hx
        exact ⟨y, List.mem_cons_of_mem _ a, b⟩
    · intro y hy
      rcases List.mem_cons.1 hy with rfl | hy
      · exact ⟨_, by simp, h1⟩
      · obtain ⟨x, a, b⟩ := ih.2 y hy
        exact ⟨x, List.mem_cons_of_mem _ a, b⟩

theorem length_lt_of_extra {α : Type} [DecidableEq α] {l m : List α} (hl : l.Nodup) {x : α} (hx : x ∉ l) (hm : x ∈ m)
    (h : ∀ y ∈ l, y ∈ m) : l.length < m.length := by
  have h1 : (x :: l).Nodup := List.nodup_cons.2 ⟨hx, hl⟩
  have h2 : (x :: l) ⊆ m := by
    intro y hy
    rcases List.mem_cons.1 hy with rfl | hy
    · exact hm
    · exact h y hy
  have := (List.subperm_of_subset h1 h2).length_le
  simpa using this

theorem blockSetup_geom (S : SetSem) {c : Config} (hc : RectConf c c.nbh c.nbv c.nblocs) {dets : List (List Nat)} {reverse : Bool}
    {su : BlockSetup} (hsu : blockSetup S c dets reverse = .ok su) : BlockGeom c su := by
  obtain ⟨hn, hbond⟩ := hc.spec
  obtain ⟨emb, b1, b2, _, b4, b5⟩ := C16_two_blocks c.nbh c.nbv c.nblocs hc.hh hc.hv hc.hb
  have e2 : c.nbh * c.nbv * c.nblocs ^ 2 = c.nbh * c.nblocs * (c.nbv * c.nblocs) := by ring
  rw [e2, ← hn] at b2
  obtain ⟨nb, hnb, hsu⟩ : ∃ nb : Config × List (List Nat), nb.1.nsites = c.nsites ∧ (do
      let emb ← buildBondMatrixBlockEmbedding c.nbh c.nbv c.nblocs
      let frontier ← frontierBlocks S c nb.1.nsites emb
      let fA := frontier.filter (fun s => s < c.nsites)
      let fB := frontier.filter (fun s => c.nsites ≤ s)
      let cE ← Config.init emb (c.nholes + nb.1.nholes) (c.nbeta + nb.1.nbeta) (.pair fA fB) .clusters (2 * c.nbh) c.nbv c.nblocs
      let cF ← Config.init emb (c.nholes + nb.1.nholes) (c.nbeta + nb.1.nbeta) (.list []) .clusters (2 * c.nbh) c.nbv c.nblocs
      return (⟨nb.1, nb.2, fA, fB, cE, cF⟩ : BlockSetup) : Py BlockSetup) = .ok su := by
    unfold blockSetup at hsu
    cases reverse with
    | false =>
      obtain ⟨nb, e0, hsu⟩ := bind_eq_ok.1 hsu
      obtain rfl := Except.ok.inj e0
      exact ⟨_, rfl, hsu⟩
    | true =>
      obtain ⟨nb, e0, hsu⟩ := bind_eq_ok.1 hsu
      refine ⟨nb, ?_, hsu⟩
      unfold reverseSpinsBasis at e0
      obtain ⟨d0, _, e0⟩ := bind_eq_ok.1 e0
      obtain ⟨r0, k1, e0⟩ := bind_eq_ok.1 e0
      obtain ⟨ds, _, e0⟩ := bind_eq_ok.1 e0
      obtain rfl := Except.ok.inj e0
      unfold Config.nsites
      rw [reverseSpins_bond k1]
  obtain ⟨emb', e1, hsu⟩ := bind_eq_ok.1 hsu
  obtain rfl := Except.ok.inj (b1.symm.trans e1)
  obtain ⟨fr, e3, hsu⟩ := bind_eq_ok.1 hsu
  obtain ⟨cE, e4, hsu⟩ := bind_eq_ok.1 hsu
  obtain ⟨cF, e5, hsu⟩ := bind_eq_ok.1 hsu
  obtain rfl := Except.ok.inj hsu
  have hpos : 0 < c.nsites := by
    rw [hn]; exact Nat.mul_pos (Nat.mul_pos hc.hh hc.hb) (Nat.mul_pos hc.hv hc.hb)
  unfold Config.init at e4
  rw [if_neg (by omega)] at e4
  obtain rfl := Except.ok.inj e4
  unfold Config.init at e5
  rw [if_neg (by omega)] at e5
  obtain rfl := Except.ok.inj e5
  have b4' : ∀ i < 2 * c.nsites, ∀ j < 2 * c.nsites, emb.e i j = 1 ↔
    Near (twoPos (c.nbh * c.nblocs) (c.nbv * c.nblocs) i) (twoPos (c.nbh * c.nblocs) (c.nbv * c.nblocs) j) := by
    intro i hi j hj
    exact (b4 i (by omega) j (by omega)).1
  have hone : ∀ i < c.nsites, ∀ j < c.nsites, c.bond.e i j = 1 ↔ Near (gridPos (c.nbh * c.nblocs) i) (gridPos (c.nbh * c.nblocs) j) := by
    intro i hi j hj
    rw [hbond i hi j hj]
    unfold nnInd
    split_ifs with h <;> simp [h]
  have hAA : ∀ i < c.nsites, ∀ j < c.nsites, c.bond.e i j = 1 → emb.e i j = 1 := by
    intro i hi j hj h
    rw [b4' i (by omega) j (by omega), twoPos_left (by omega), twoPos_left (by omega)]
    exact (hone i hi j hj).1 h
  have hBB : ∀ i < c.nsites, ∀ j < c.nsites, c.bond.e i j = 1 → emb.e (i + c.nsites) (j + c.nsites) = 1 := by
    intro i hi j hj h
    rw [b4' _ (by omega) _ (by omega), Nat.add_comm i, Nat.add_comm j, hn, twoPos_right, twoPos_right]
    have := (hone i hi j hj).1 h
    unfold Near at this ⊢
    dsimp only
    omega
  -- the frontier
  unfold frontierBlocks at e3
  rw [hnb] at e3
  have hfr : (∀ s ∈ fr, s < 2 * c.nsites) ∧ fr.Nodup ∧ ∀ a < c.nsites, ∀ r < c.nsites, emb.e a (c.nsites + r) = 1 →
      (∀ u < 2 * c.nsites, emb.e a u = 1 → u ∈ fr) ∧ (∀ u < 2 * c.nsites, emb.e (c.nsites + r) u = 1 → u ∈ fr) := by
    obtain ⟨l1, f1, e3⟩ := bind_eq_ok.1 e3
    obtain ⟨l2, f2, e3⟩ := bind_eq_ok.1 e3
    obtain rfl := Except.ok.inj e3
    have hf : ∀ shift, ∀ x < c.nsites, (shift = 0 ∨ shift = c.nsites) → ∃ l, (do
        let a ← getNeighbors S x c.bond (.list [])
        let b ← getNeighbors S (x + shift) emb (.list [])
        return if a.length < b.length then b else [] : Py (List Nat)) = .ok l ∧ (∀ s ∈ l, s < 2 * c.nsites) ∧
        ((∃ t < 2 * c.nsites, emb.e (x + shift) t = 1 ∧ ¬ (shift ≤ t ∧ t < shift + c.nsites)) → ∀ t < 2 * c.nsites, emb.e (x + shift) t = 1 → t ∈ l) := by
      intro shift x hx hs
      obtain ⟨a, a1, a2, a3⟩ := getNeighbors_spec S c.bond (.list []) x hx
      obtain ⟨b, c1, c2, c3⟩ := getNeighbors_spec S emb (.list []) (x + shift) (by omega)
      have a3' : ∀ s, s ∈ a ↔ s < c.nsites ∧ c.bond.e x s = 1 := by
        intro s
        rw [a3]
        unfold allowed Config.nsites
        tauto
      have c3' : ∀ s, s ∈ b ↔ s < 2 * c.nsites ∧ emb.e (x + shift) s = 1 := by
        intro s
        rw [c3, ← b2]
        unfold allowed
        tauto
      refine ⟨_, bind_ok a1 (bind_ok c1 rfl), ?_, ?_⟩
      · intro s hs
        split_ifs at hs
        · exact ((c3' s).1 hs).1
        · cases hs
      · rintro ⟨t, ht, ht1, ht2⟩ u hu hu1
        have hlt : a.length < b.length := by
          have := length_lt_of_extra (l := a.map (· + shift)) (m := b) (x := t) (a2.map (fun p q h => by simpa using h)) (by
            intro h
            obtain ⟨y, hy, rfl⟩ := List.mem_map.1 h
            have := (a3' y).1 hy
            omega) ((c3' t).2 ⟨ht, ht1⟩) (by
            intro y hy
            obtain ⟨z, hz, rfl⟩ := List.mem_map.1 hy
            have hz := (a3' z).1 hz
            rw [c3']
            rcases hs with rfl | rfl
            · exact ⟨by omega, hAA x hx z hz.1 hz.2⟩
            · exact ⟨by omega, hBB x hx z hz.1 hz.2⟩)
          simpa using this
        rw [if_pos hlt]
        exact (c3' u).2 ⟨hu, hu1⟩
    obtain ⟨l1', g1, g2⟩ := mapM_ok_exists (l := List.range c.nsites) (fun x hx => hf 0 x (List.mem_range.1 hx) (Or.inl rfl))
    obtain ⟨l2', k1, k2⟩ := mapM_ok_exists (l := List.range c.nsites) (fun x hx => hf c.nsites x (List.mem_range.1 hx) (Or.inr rfl))
    obtain rfl := Except.ok.inj (f1.symm.trans g1)
    obtain rfl := Except.ok.inj (f2.symm.trans k1)
    obtain ⟨g3, g4⟩ := forall₂_mem g2
    obtain ⟨k3, k4⟩ := forall₂_mem k2
    refine ⟨?_, S.nodup_ofList _, ?_⟩
    · intro s hs
      rw [S.mem_ofList, List.mem_append, List.mem_flatten, List.mem_flatten] at hs
      rcases hs with ⟨l, hl, hs⟩ | ⟨l, hl, hs⟩
      · obtain ⟨x, _, h, _⟩ := g4 l hl
        exact h s hs
      · obtain ⟨x, _, h, _⟩ := k4 l hl
        exact h s hs
    · intro a ha r hr h
      simp only [S.mem_ofList, List.mem_append, List.mem_flatten]
      obtain ⟨l, hl, _, h'⟩ := g3 a (List.mem_range.2 ha)
      obtain ⟨m, hm, _, h''⟩ := k3 r (List.mem_range.2 hr)
      have hsym : emb.e (r + c.nsites) a = 1 := by
        rw [b5 _ (by omega) _ (by omega), Nat.add_comm]
        exact h
      refine ⟨fun u hu h1 => Or.inl ⟨l, hl, h' ⟨c.nsites + r, by omega, h, by omega⟩ u hu h1⟩,
        fun u hu h1 => Or.inr ⟨m, hm, h'' ⟨a, by omega, hsym, by omega⟩ u hu (by rw [Nat.add_comm]; exact h1)⟩⟩
  have hsym : ∀ a < c.nsites, ∀ r < c.nsites, emb.e a (c.nsites + r) = 1 → emb.e (c.nsites + r) a = 1 := by
    intro a ha r hr h
    rw [b5 _ (by omega) _ (by omega)]
    exact h
  refine ⟨hn, b1, b2, b4', rfl, rfl, rfl, rfl, rfl, hfr.2.1.filter _, hfr.2.1.filter _, ?_, ?_, ?_, ?_, ?_, ?_, rfl, rfl, ?_⟩
  · intro s hs
    simpa using (List.mem_filter.1 hs).2
  · intro s hs
    obtain ⟨h1, h2⟩ := List.mem_filter.1 hs
    exact ⟨by simpa using h2, hfr.1 s h1⟩
  · intro a ha r hr h
    exact List.mem_filter.2 ⟨(hfr.2.2 a ha r hr h).2 a (by omega) (hsym a ha r hr h), by simpa using ha⟩
  · intro a ha r hr h
    exact List.mem_filter.2 ⟨(hfr.2.2 a ha r hr h).1 _ (by omega) h, by simp⟩
  · intro m hm r hr h a ha h1
    exact List.mem_filter.2 ⟨(hfr.2.2 m hm r hr h).1 a (by omega) h1, by simpa using ha⟩
  · intro a ha m hm h r hr h1
    exact List.mem_filter.2 ⟨(hfr.2.2 a ha m hm h).2 _ (by omega) h1, by simp⟩
  · rw [← b2]

/-- Two sites of different blocks at opposite corners of a tile are both next to the other block. -/
theorem diag_two {W H a r : Nat} (ha : a < W * H) (hr : r < W * H) (h : Diagonal (twoPos W H a) (twoPos W H (W * H + r))) :
    (∃ r' < W * H, Near (twoPos W H a) (twoPos W H (W * H + r'))) ∧ ∃ a' < W * H, Near (twoPos W H a') (twoPos W H (W * H + r)) := by
  have hW : 0 < W := Nat.pos_of_ne_zero (by rintro rfl; simp at ha)
  have x1 : a % W < W := Nat.mod_lt _ hW
  have x2 : a / W < H := Nat.div_lt_of_lt_mul ha
  have y1 : r % W < W := Nat.mod_lt _ hW
  have y2 : r / W < H := Nat.div_lt_of_lt_mul hr
  rw [twoPos_left ha, twoPos_right] at h
  unfold Diagonal gridPos at h
  obtain ⟨r', r1, r2⟩ := gridPos_surj (W := W) (H := H) (x := 0) (y := ((a / W : Nat) : Int)) (by omega) (by omega)
    (Int.natCast_nonneg _) (by exact_mod_cast x2)
  obtain ⟨a', a1, a2⟩ := gridPos_surj (W := W) (H := H) (x := (W : Int) - 1) (y := ((r / W : Nat) : Int)) (by omega) (by omega)
    (Int.natCast_nonneg _) (by exact_mod_cast y2)
  refine ⟨⟨r', r1, ?_⟩, a', a1, ?_⟩
  · rw [twoPos_left ha, twoPos_right, r2]
    unfold Near gridPos
    dsimp only at h ⊢
    omega
  · rw [twoPos_left a1, twoPos_right, a2]
    unfold Near gridPos
    dsimp only at h ⊢
    omega

section
variable {K : Type} [Field K] [LinearOrder K] [IsStrictOrderedRing K]

omit [LinearOrder K] [IsStrictOrderedRing K] in
/-- The interaction of one frontier site with the neighbouring block. -/
theorem blockSite_eq (E : Env) (I : Interactions K) {c : Config} {su : BlockSetup} (g : BlockGeom c su)
    (hg : GeomLattice E su.cE (twoPos (c.nbh * c.nblocs) (c.nbv * c.nblocs))) (σ : Nat → Occ) {pA pB : List (Int × List K)}
    (hA : IsLaw pA c.nsites (detLaw σ)) {f : Occ → Nat → K} (hB : IsLaw pB c.nsites f) (x : K) {a : Nat} (ha : a < c.nsites) :
    blockSite E I c su pA pB x a = .ok (x + ∑ r ∈ range c.nsites,
      ((if Near (twoPos (c.nbh * c.nblocs) (c.nbv * c.nblocs) a) (twoPos (c.nbh * c.nblocs) (c.nbv * c.nblocs) (c.nsites + r)) then
          bondEnergy I (σ a) (fun o => f o r) else 0) +
        if Diagonal (twoPos (c.nbh * c.nblocs) (c.nbv * c.nblocs) a) (twoPos (c.nbh * c.nblocs) (c.nbv * c.nblocs) (c.nsites + r)) then
          cornerEnergy I (σ a) (fun o => f o r) else 0)) := by
  have her : su.cE.bond.rows = 2 * c.nsites := g.erows
  obtain ⟨F, F1, _, F3⟩ := getNeighbors_spec E.toSetSem su.cE.bond (.pair su.fA su.fB) a (by omega)
  obtain ⟨D, D1, D2, D3⟩ := C22_diagonal_restricted E su.cE _ hg a (by rw [g.erows]; omega)
  have fi := E.nodup_inter su.fB F
  have fm := fun s => E.mem_inter su.fB F s
  have hi := E.nodup_inter su.fB D
  have hm := fun s => E.mem_inter su.fB D s
  unfold blockSite
  refine bind_ok (probAt_law hA .up ha) (bind_ok (probAt_law hA .down ha) (bind_ok (probAt_law hA .hole ha) ?_))
  refine bind_ok F1 ?_
  refine bind_ok (a := x + ((E.inter su.fB F).map (fun s => bondEnergy I (σ a) (fun o => f o (s - c.nsites)))).sum) ?_ ?_
  · rw [← foldlM_sum (f := fun siteB => (do
      let alphaB ← probAt pB 1 (siteB - c.nsites)
      let betaB ← probAt pB (-1) (siteB - c.nsites)
      let holeB ← probAt pB 0 (siteB - c.nsites)
      return bondTerm I (detLaw σ .up a) (detLaw σ .down a) (detLaw σ .hole a) alphaB betaB holeB : Py K)) (E.inter su.fB F) x]
    · congr 1
      funext s y
      simp only [bind_assoc, pure_bind]
    · intro s hs
      have := g.geB s ((fm s).1 hs).1
      refine bind_ok (probAt_law hB .up (by omega)) (bind_ok (probAt_law hB .down (by omega)) (bind_ok (probAt_law hB .hole (by omega)) ?_))
      rw [← bondTerm_det]
      rfl
  refine bind_ok D1 ?_
  have key : (E.inter su.fB D).foldlM (fun (intr : K) siteB => do
      let holeB ← probAt pB 0 (siteB - c.nsites)
      return intr + I.VNNNper * detLaw σ .hole a * holeB)
      (x + ((E.inter su.fB F).map (fun s => bondEnergy I (σ a) (fun o => f o (s - c.nsites)))).sum) =
    .ok (x + ((E.inter su.fB F).map (fun s => bondEnergy I (σ a) (fun o => f o (s - c.nsites)))).sum +
      ((E.inter su.fB D).map (fun s => cornerEnergy I (σ a) (fun o => f o (s - c.nsites)))).sum) := by
    rw [← foldlM_sum (f := fun siteB => (do
      let holeB ← probAt pB 0 (siteB - c.nsites)
      return I.VNNNper * detLaw σ .hole a * holeB : Py K))]
    · congr 1
      funext s y
      simp only [bind_assoc, pure_bind]
    · intro s hs
      have := g.geB s ((hm s).1 hs).1
      refine bind_ok (probAt_law hB .hole (by omega)) ?_
      rw [← cornerTerm_det]
      rfl
  refine key.trans ?_
  rw [sum_list_range fi (p := fun r => Near (twoPos (c.nbh * c.nblocs) (c.nbv * c.nblocs) a)
      (twoPos (c.nbh * c.nblocs) (c.nbv * c.nblocs) (c.nsites + r))) (m := c.nsites) ?_
      (fun r => bondEnergy I (σ a) (fun o => f o r)),
    sum_list_range hi (p := fun r => Diagonal (twoPos (c.nbh * c.nblocs) (c.nbv * c.nblocs) a)
      (twoPos (c.nbh * c.nblocs) (c.nbv * c.nblocs) (c.nsites + r))) (m := c.nsites) ?_
      (fun r => cornerEnergy I (σ a) (fun o => f o r)), add_assoc, ← sum_add_distrib]
  · intro s
    rw [hm, D3, g.restr, g.erows]
    constructor
    · rintro ⟨h1, h2, _, h3⟩
      have := g.geB s h1
      refine ⟨this.1, by omega, ?_⟩
      rw [show c.nsites + (s - c.nsites) = s by omega]
      exact h3
    · rintro ⟨h1, h2, h3⟩
      have hB : s ∈ su.fB := by
        have h4 := h3
        rw [g.rows] at h4
        obtain ⟨_, a', a1, a2⟩ := diag_two (by rw [← g.rows]; exact ha) (by rw [← g.rows]; omega) h4
        rw [← g.rows] at a1 a2
        have := g.memB a' a1 (s - c.nsites) (by omega) ((g.near _ (by omega) _ (by omega)).2 a2)
        rwa [show c.nsites + (s - c.nsites) = s by omega] at this
      rw [show c.nsites + (s - c.nsites) = s by omega] at h3
      exact ⟨hB, by omega, hB, h3⟩
  · intro s
    rw [fm, F3, her]
    constructor
    · rintro ⟨h1, h2, _, h3⟩
      have := g.geB s h1
      refine ⟨this.1, by omega, ?_⟩
      rw [show c.nsites + (s - c.nsites) = s by omega]
      exact (g.near a (by omega) s h2).1 h3
    · rintro ⟨h1, h2, h3⟩
      have hbd := (g.near a (by omega) _ (by omega)).2 h3
      have hB := g.memB a ha (s - c.nsites) (by omega) hbd
      rw [show c.nsites + (s - c.nsites) = s by omega] at hB hbd
      exact ⟨hB, by omega, hB, hbd⟩

/-- The value of `intr` for the determinant number `k`. -/
theorem blockIntr_eq (E : Env) (I : Interactions K) {c : Config} {su : BlockSetup} (g : BlockGeom c su)
    (hg : GeomLattice E su.cE (twoPos (c.nbh * c.nblocs) (c.nbv * c.nblocs))) {dets : List (List Nat)} (hb : constructBasis c = .ok dets)
    (hn : c.nholes + c.nbeta ≤ c.nsites) {pB : List (Int × List K)} {f : Occ → Nat → K} (hB : IsLaw pB c.nsites f) {k : Nat}
    (hk : k < dets.length) :
    blockIntr E I c su dets pB k = .ok (borderEnergy I c.nsites c.nsites
      (fun a r => Near (twoPos (c.nbh * c.nblocs) (c.nbv * c.nblocs) a) (twoPos (c.nbh * c.nblocs) (c.nbv * c.nblocs) (c.nsites + r)))
      (fun a r => Diagonal (twoPos (c.nbh * c.nblocs) (c.nbv * c.nblocs) a) (twoPos (c.nbh * c.nblocs) (c.nbv * c.nblocs) (c.nsites + r)))
      (occ c.nholes c.nbeta dets[k]) f) := by
  have hlen : dets.length = c.nbConf := C02_dimension c dets hb
  obtain ⟨P, p1, p2, p3⟩ := spins_unit (K := K) hb hn hk
  unfold blockIntr
  refine bind_ok (by rw [← hlen]; exact unitVect_ok hk) (bind_ok p1 ?_)
  have hA : IsLaw [(-1, P .down), (0, P .hole), (1, P .up)] c.nsites (detLaw (occ c.nholes c.nbeta dets[k])) := by
    intro o
    refine ⟨P o, by cases o <;> rfl, p2 o, fun r hr => ?_⟩
    rw [p3 o r hr]
    rfl
  set G : Nat → K := fun a => ∑ r ∈ range c.nsites,
    ((if Near (twoPos (c.nbh * c.nblocs) (c.nbv * c.nblocs) a) (twoPos (c.nbh * c.nblocs) (c.nbv * c.nblocs) (c.nsites + r)) then
        bondEnergy I (occ c.nholes c.nbeta dets[k] a) (fun o => f o r) else 0) +
      if Diagonal (twoPos (c.nbh * c.nblocs) (c.nbv * c.nblocs) a) (twoPos (c.nbh * c.nblocs) (c.nbv * c.nblocs) (c.nsites + r)) then
        cornerEnergy I (occ c.nholes c.nbeta dets[k] a) (fun o => f o r) else 0) with hG
  have h1 : su.fA.foldlM (blockSite E I c su [(-1, P .down), (0, P .hole), (1, P .up)] pB) 0 = .ok (0 + (su.fA.map G).sum) := by
    rw [← foldlM_sum (f := fun a => (.ok (G a) : Py K)) su.fA 0 (fun _ _ => rfl)]
    refine foldlM_congr_mem fun x a ha => ?_
    rw [blockSite_eq E I g hg _ hA hB x (g.ltA a ha)]
    rfl
  rw [h1, zero_add]
  congr 1
  rw [← List.sum_toFinset _ g.nodupA]
  unfold borderEnergy
  refine sum_subset ?_ ?_
  · intro a ha
    exact mem_range.2 (g.ltA a (List.mem_toFinset.1 ha))
  · intro a ha hna
    have ha := mem_range.1 ha
    rw [List.mem_toFinset] at hna
    have hno : ∀ r < c.nsites, ¬ Near (twoPos (c.nbh * c.nblocs) (c.nbv * c.nblocs) a)
        (twoPos (c.nbh * c.nblocs) (c.nbv * c.nblocs) (c.nsites + r)) := by
      intro r hr hnear
      exact hna (g.memA a ha r hr ((g.near _ (by omega) _ (by omega)).2 hnear))
    refine sum_eq_zero fun r hr => ?_
    have hr := mem_range.1 hr
    rw [if_neg (hno r hr), if_neg, add_zero]
    intro hdg
    rw [g.rows] at hdg ha hno hr
    obtain ⟨⟨r', h1, h2⟩, _⟩ := diag_two ha hr hdg
    exact hno r' h1 h2

omit [LinearOrder K] [IsStrictOrderedRing K] in
theorem foldlM_entry_mem {α : Type} {f : SpMat K → α → Py (SpMat K)} {g : α → Nat → Nat → K} :
    ∀ (l : List α) (M M' : SpMat K),
      (∀ M, ∀ a ∈ l, ∀ M', f M a = .ok M' → M'.dim = M.dim ∧ ∀ i j, M'.entry i j = M.entry i j + g a i j) →
      l.foldlM f M = .ok M' → M'.dim = M.dim ∧ ∀ i j, M'.entry i j = M.entry i j + (l.map (fun a => g a i j)).sum
  | [], M, M', _, e => by cases e; exact ⟨rfl, by simp⟩
  | a :: l, M, M', hf, e => by
    rw [List.foldlM_cons] at e
    obtain ⟨M1, e1, e2⟩ := bind_eq_ok.1 e
    obtain ⟨d1, h1⟩ := hf M a (by simp) M1 e1
    obtain ⟨d2, h2⟩ := foldlM_entry_mem l M1 M' (fun M a ha => hf M a (List.mem_cons_of_mem _ ha)) e2
    exact ⟨d2.trans d1, fun i j => by rw [h2, h1, List.map_cons, List.sum_cons, add_assoc]⟩

omit [LinearOrder K] [IsStrictOrderedRing K] in
theorem addStaticDressing_entry {c : Config} {nbr : Bool} {det : List Nat} {ind : Nat} {x : K} {h h' : SpMat K}
    (e : addStaticDressing c nbr det ind x h = .ok h') : h'.dim = h.dim ∧ ∀ i j, h'.entry i j = h.entry i j +
      if nbr then (if ind = i ∧ ind = j then x else 0)
      else ∑ q ∈ range 4, if rotatedIndex c q det = i ∧ rotatedIndex c q det = j then x else 0 := by
  unfold addStaticDressing at e
  cases nbr with
  | true =>
    obtain ⟨h1, h2, _⟩ := addHamCoo_entry e
    exact ⟨h1, h2⟩
  | false =>
    obtain ⟨h1, h2⟩ := foldlM_entry (g := fun q i j => if rotatedIndex c q det = i ∧ rotatedIndex c q det = j then x else 0)
      (fun M a M' e => by obtain ⟨h1, h2, _⟩ := addHamCoo_entry e; exact ⟨h1, h2⟩) _ _ _ e
    refine ⟨h1, fun i j => ?_⟩
    rw [h2, sum_map_range]
    rfl

omit [LinearOrder K] [IsStrictOrderedRing K] in
/-- The interaction of a rotated determinant is that of the determinant in the rotated block. -/
theorem borderEnergy_rot {c : Config} {L : Nat} (hq : SquareConf c L) (hn : c.nholes + c.nbeta ≤ c.nsites) {dets : List (List Nat)}
    (hb : constructBasis c = .ok dets) (I : Interactions K) (m : Nat) (X Y : Pt → Nat → Prop) [∀ p r, Decidable (X p r)]
    [∀ p r, Decidable (Y p r)] (f : Occ → Nat → K) (q : Int) {i : Nat} (hi : i < dets.length) :
    borderEnergy I c.nsites m (fun a r => X (gridPos L a) r) (fun a r => Y (gridPos L a) r)
      (occ c.nholes c.nbeta (dets.getD (rotIdx c dets q i) [])) f =
    borderEnergy I c.nsites m (fun a r => X ((turn L ^ q) (gridPos L a)) r) (fun a r => Y ((turn L ^ q) (gridPos L a)) r)
      (occ c.nholes c.nbeta dets[i]) f := by
  obtain ⟨h1, e1⟩ := rotIdx_spec hq hn hb q hi
  obtain ⟨d', r1, _, _, r2⟩ := C13_rotation c L hq hn q dets[i] (canonical_getElem hb i hi).1
  rw [List.getD_eq_getElem dets [] h1]
  have hd : d' = dets[rotIdx c dets q i] :=
    (List.map_injective_iff.2 (fun a b h => by exact_mod_cast h)) (r1.symm.trans e1)
  subst hd
  have hr : ∀ s < c.nsites, rotSite L q s < c.nsites ∧ gridPos L (rotSite L q s) = (turn L ^ q) (gridPos L s) ∧
      occ c.nholes c.nbeta dets[rotIdx c dets q i] (rotSite L q s) = occ c.nholes c.nbeta dets[i] s := by
    intro s hs
    obtain ⟨s', a1, a2, a3⟩ := r2 s hs
    have hs' : s < L * L := by rw [← hq.n]; exact hs
    have e := gridPos_rotSite q hs'
    have : s' = rotSite L q s := gridPos_inj (W := L) (a2.trans e.symm)
    subst this
    exact ⟨a1, e, a3⟩
  unfold borderEnergy
  symm
  refine sum_nbij' (rotSite L q) (rotSite L (-q)) ?_ ?_ ?_ ?_ ?_
  · intro s hs
    exact mem_range.2 (hr s (mem_range.1 hs)).1
  · intro s hs
    rw [mem_range, hq.n] at hs ⊢
    exact rotSite_lt _ hs
  · intro s hs
    rw [mem_range, hq.n] at hs
    rw [rotSite_comp _ _ hs]
    exact rotSite_zero (by simp) s
  · intro s hs
    rw [mem_range, hq.n] at hs
    rw [rotSite_comp _ _ hs]
    exact rotSite_zero (by simp) s
  · intro s hs
    obtain ⟨_, k2, k3⟩ := hr s (mem_range.1 hs)
    simp only [k2, k3]

/-- The probabilities of the sites of the neighbouring block, given its state; all spins are reversed in the second block if
`reverse`. -/
def neighbourLaw (c : Config) (dets : List (List Nat)) (reverse : Bool) (gs : List K) (o : Occ) (r : Nat) : K :=
  if h : r < c.nsites then born (amp c dets gs) ⟨r, h⟩ (if reverse then o.rev else o) else 0

theorem neighbourLaw_ok {c : Config} {dets : List (List Nat)} (hb : constructBasis c = .ok dets) (hn : c.nholes + c.nbeta ≤ c.nsites)
    (gs : List K) (hv : gs.length = dets.length) (reverse : Bool) :
    ∃ p, spinsProbabilities c dets gs reverse = .ok p ∧ IsLaw p c.nsites (neighbourLaw c dets reverse gs) := by
  obtain ⟨P, p1, p2, p3, p4⟩ := spins_eq hb hn gs hv
  cases reverse with
  | false =>
    refine ⟨_, p1, fun o => ⟨P o, by cases o <;> rfl, p3 o, fun r hr => ?_⟩⟩
    unfold neighbourLaw
    rw [dif_pos hr]
    exact p4 o ⟨r, hr⟩
  | true =>
    refine ⟨_, p2, fun o => ⟨P o.rev, by cases o <;> rfl, p3 _, fun r hr => ?_⟩⟩
    unfold neighbourLaw
    rw [dif_pos hr]
    exact p4 o.rev ⟨r, hr⟩

/-- The interaction of a determinant of the block (at `place`) with a block to the right of it, in the state `gs`. -/
def rightEnergy (I : Interactions K) (c : Config) (dets : List (List Nat)) (reverse : Bool) (gs : List K) (place : Nat → Pt)
    (det : List Nat) : K :=
  borderEnergy I c.nsites c.nsites
    (fun a r => Near (place a) ((gridPos (c.nbh * c.nblocs) r).1 + (c.nbh * c.nblocs : Nat), (gridPos (c.nbh * c.nblocs) r).2))
    (fun a r => Diagonal (place a) ((gridPos (c.nbh * c.nblocs) r).1 + (c.nbh * c.nblocs : Nat), (gridPos (c.nbh * c.nblocs) r).2))
    (occ c.nholes c.nbeta det) (neighbourLaw c dets reverse gs)

/-- The dressed Hamiltonian without dynamical effects. -/
theorem blockDressed_static (E : Env) (I : Interactions K) {c : Config} {su : BlockSetup} (g : BlockGeom c su)
    (hg : GeomLattice E su.cE (twoPos (c.nbh * c.nblocs) (c.nbv * c.nblocs))) {dets : List (List Nat)} (hb : constructBasis c = .ok dets)
    (hn : c.nholes + c.nbeta ≤ c.nsites) (o : BlockOptions K) (ho : o.dynamic = false)
    (hsq : o.neighbor = false → c.nbh * c.nblocs = c.nbv * c.nblocs) (ham h : SpMat K) (gs : List K) (hv : gs.length = dets.length)
    (en : K) (e : blockDressed E I c su o dets ham gs en = .ok h) :
    h.dim = ham.dim ∧ ∀ i j, (hi : i < dets.length) → h.entry i j = ham.entry i j + if i = j then
      (if o.neighbor then rightEnergy I c dets o.reverse gs (gridPos (c.nbh * c.nblocs)) dets[i]
       else ∑ q ∈ range 4, rightEnergy I c dets o.reverse gs
        (fun a => (turn (c.nbh * c.nblocs) ^ q) (gridPos (c.nbh * c.nblocs) a)) dets[i])
      else 0 := by
  obtain ⟨pB, b1, b2⟩ := neighbourLaw_ok hb hn gs hv o.reverse
  unfold blockDressed at e
  obtain ⟨pB', b1', e⟩ := bind_eq_ok.1 e
  obtain rfl := Except.ok.inj (b1.symm.trans b1')
  set B : Nat → K := fun k => rightEnergy I c dets o.reverse gs (gridPos (c.nbh * c.nblocs)) (dets.getD k []) with hB
  have hintr : ∀ k, k < dets.length → blockIntr E I c su dets pB k = .ok (B k) := by
    intro k hk
    rw [blockIntr_eq E I g hg hb hn b2 hk]
    show _ = Except.ok (rightEnergy I c dets o.reverse gs (gridPos (c.nbh * c.nblocs)) (dets.getD k []))
    unfold rightEnergy borderEnergy
    rw [List.getD_eq_getElem dets [] hk]
    congr 1
    refine sum_congr rfl fun a ha => sum_congr rfl fun r _ => ?_
    rw [mem_range, g.rows] at ha
    have er : twoPos (c.nbh * c.nblocs) (c.nbv * c.nblocs) (c.nsites + r) =
        ((gridPos (c.nbh * c.nblocs) r).1 + (c.nbh * c.nblocs : Nat), (gridPos (c.nbh * c.nblocs) r).2) := by
      rw [g.rows]; exact twoPos_right
    simp only [twoPos_left ha, er]
  have hstep : ∀ M, ∀ p ∈ dets.zipIdx, ∀ M', (do
      let intr ← blockIntr E I c su dets pB p.2
      let h ← addStaticDressing c o.neighbor p.1 p.2 intr M
      if o.dynamic then blockDynamic E I c su o.neighbor o.threshold gs en p.1 h else return h : Py (SpMat K)) = .ok M' →
      M'.dim = M.dim ∧ ∀ i j, M'.entry i j = M.entry i j + if o.neighbor then (if p.2 = i ∧ p.2 = j then B p.2 else 0)
      else ∑ q ∈ range 4, if rotIdx c dets q p.2 = i ∧ rotIdx c dets q p.2 = j then B p.2 else 0 := by
    intro M p hp M' e
    have hp' := List.mem_zipIdx hp
    have hlt : p.2 < dets.length := by omega
    have hpd : p.1 = dets.getD p.2 [] := by
      rw [List.getD_eq_getElem dets [] hlt]
      simpa using hp'.2.2
    rw [hintr p.2 hlt] at e
    obtain ⟨x, hx, e⟩ := bind_eq_ok.1 e
    obtain rfl := Except.ok.inj hx
    obtain ⟨M1, hM1, e⟩ := bind_eq_ok.1 e
    rw [ho] at e
    obtain rfl := Except.ok.inj e
    have := addStaticDressing_entry hM1
    rw [hpd] at this
    exact this
  obtain ⟨e1, e2⟩ := foldlM_entry_mem _ _ _ hstep e
  refine ⟨e1, fun i j hi => ?_⟩
  rw [e2]
  congr 1
  have e3 : ∀ F : Nat → K, (dets.zipIdx.map (fun p => F p.2)).sum = ∑ k ∈ range dets.length, F k := by
    intro F
    rw [← sum_map_range]
    congr 1
    apply List.ext_getElem
    · simp
    · intro n h1 h2
      simp
  rw [e3 (fun k => if o.neighbor then (if k = i ∧ k = j then B k else 0)
    else ∑ q ∈ range 4, if rotIdx c dets q k = i ∧ rotIdx c dets q k = j then B k else 0)]
  by_cases hnb : o.neighbor = true
  · simp only [hnb, if_true]
    rw [sum_eq_single i]
    · by_cases hij : i = j
      · rw [if_pos ⟨rfl, hij⟩, if_pos hij, hB]
        simp only
        rw [List.getD_eq_getElem dets [] hi]
      · rw [if_neg (fun h => hij h.2), if_neg hij]
    · intro k _ hk
      rw [if_neg (fun h => hk h.1)]
    · intro h
      exact absurd (mem_range.2 hi) h
  · have hnf : o.neighbor = false := by simpa using hnb
    have hq : SquareConf c (c.nbh * c.nblocs) := ⟨rfl, (hsq hnf).symm, by rw [g.rows, ← hsq hnf]⟩
    simp only [hnf, Bool.false_eq_true, if_false]
    rw [sum_comm]
    by_cases hij : i = j
    · subst hij
      rw [if_pos rfl]
      have h1 : ∀ q : Nat, (∑ k ∈ range dets.length, if rotIdx c dets q k = i ∧ rotIdx c dets q k = i then B k else 0) =
          rightEnergy I c dets o.reverse gs (fun a => (turn (c.nbh * c.nblocs) ^ (-(q : Int))) (gridPos (c.nbh * c.nblocs) a)) dets[i] := by
        intro q
        have hlt := rotIdx_lt hq hn hb (-(q : Int)) hi
        rw [sum_eq_single (rotIdx c dets (-(q : Int)) i)]
        · rw [if_pos]
          · rw [hB]
            exact borderEnergy_rot hq hn hb I c.nsites
              (fun p r => Near p ((gridPos (c.nbh * c.nblocs) r).1 + (c.nbh * c.nblocs : Nat), (gridPos (c.nbh * c.nblocs) r).2))
              (fun p r => Diagonal p ((gridPos (c.nbh * c.nblocs) r).1 + (c.nbh * c.nblocs : Nat), (gridPos (c.nbh * c.nblocs) r).2))
              (neighbourLaw c dets o.reverse gs) (-(q : Int)) hi
          · rw [rotIdx_comp hq hn hb _ _ hi, add_neg_cancel, rotIdx_zero hb hi]
            exact ⟨rfl, rfl⟩
        · intro k hk hne
          rw [if_neg]
          rintro ⟨h1, _⟩
          apply hne
          rw [← h1, rotIdx_comp hq hn hb _ _ (mem_range.1 hk), neg_add_cancel, rotIdx_zero hb (mem_range.1 hk)]
        · intro h
          exact absurd (mem_range.2 hlt) h
      simp only [h1]
      have h4 : ∀ k m : Int, k % 4 = m % 4 → turn (c.nbh * c.nblocs) ^ k = turn (c.nbh * c.nblocs) ^ m := by
        intro k m h
        rw [turn_zpow_emod _ k, turn_zpow_emod _ m, h]
      simp only [← zpow_natCast (turn (c.nbh * c.nblocs))]
      simp only [sum_range_succ, sum_range_zero]
      rw [h4 (-((0 : Nat) : Int)) ((0 : Nat) : Int) (by decide), h4 (-((1 : Nat) : Int)) ((3 : Nat) : Int) (by decide),
        h4 (-((2 : Nat) : Int)) ((2 : Nat) : Int) (by decide), h4 (-((3 : Nat) : Int)) ((1 : Nat) : Int) (by decide)]
      ring
    · rw [if_neg hij]
      refine sum_eq_zero fun q _ => sum_eq_zero fun k _ => ?_
      rw [if_neg]
      rintro ⟨h1, h2⟩
      exact hij (h1.symm.trans h2)

/-! ### The iterations -/

omit [IsStrictOrderedRing K] in
theorem blockLoop_states {E : Env} {sqrt : K → K} {solve : Solver K} {fuel : Nat} {I : Interactions K} {c : Config}
    {su : BlockSetup} {o : BlockOptions K} {dets : List (List Nat)} (hsol : solve.Good dets.length) {ham : SpMat K} (hd : ham.dim = dets.length) {tol : K}
    {P : List K → SpMat K → Prop}
    (hP : ∀ gs en h, gs.length = dets.length → blockDressed E I c su o dets ham gs en = .ok h → h.dim = ham.dim ∧ P gs h) :
    ∀ (iter k : Nat) (gs : List K) (en : K) (b : Bool) (trace : List (BlockStep K)) (r : BlockResult K ⊕ List (BlockStep K)),
      gs.length = dets.length → blockLoop E sqrt solve fuel I c su o dets ham tol iter k gs en b trace = .ok r →
      ∃ l, r.elim (fun r => r.trace) id = trace ++ l ∧ ∀ k x, l[k]? = some x → P ((gs :: l.map (·.gs)).getD k []) x.ham
  | 0, k, gs, en, b, trace, r, _, e => by
    cases b with
    | false => cases e
    | true => cases e; exact ⟨[], by simp, by simp⟩
  | iter + 1, k, gs, en, b, trace, r, hl, e => by
    unfold blockLoop at e
    obtain ⟨h, e1, e⟩ := bind_eq_ok.1 e
    obtain ⟨s, e2, e⟩ := bind_eq_ok.1 e
    obtain ⟨g, e3, e⟩ := bind_eq_ok.1 e
    obtain ⟨e0, e4, e⟩ := bind_eq_ok.1 e
    dsimp only at e
    obtain ⟨conv, e5, e⟩ := bind_eq_ok.1 e
    obtain ⟨s1, k', s3⟩ := blockSolve_ok e2
    obtain ⟨d1, d2⟩ := hP gs en h hl e1
    have hgl : g.length = dets.length := (hsol k' h _ _ g (d1.trans hd) s3 (pyGet_inv e3)).1
    by_cases hcv : conv = true
    · rw [if_pos hcv] at e
      cases e
      refine ⟨[⟨h, g⟩], rfl, ?_⟩
      intro k x hx
      cases k with
      | zero => cases hx; exact d2
      | succ k => simp at hx
    · rw [if_neg hcv] at e
      obtain ⟨l, l1, l2⟩ := blockLoop_states hsol hd hP iter _ _ _ _ _ r hgl e
      refine ⟨⟨h, g⟩ :: l, by rw [l1]; simp, ?_⟩
      intro k x hx
      cases k with
      | zero => cases hx; exact d2
      | succ k => exact l2 k x (by simpa using hx)

/-! ### C74 -/

/-- C74. In every iteration of `embedding_blocks` without dynamical effects, the diagonalised matrix is the Hamiltonian of the block,
whose diagonal is increased for each determinant by its interaction with the neighbouring block in the state found by the iteration
before (spins reversed if asked): with one neighbour the block on the right, otherwise (square blocks) the same block
seen from the four rotated positions. -/
theorem C74_static_dressing (E : Env) (sqrt : K → K) (solve : Solver K) (fuel : Nat) (I : Interactions K) (c : Config)
    (hc : RectConf c c.nbh c.nbv c.nblocs) (dets : List (List Nat)) (hsol : solve.Good dets.length) (hb : constructBasis c = .ok dets)
    (hn : c.nholes + c.nbeta ≤ c.nsites) (o : BlockOptions K) (ho : o.dynamic = false)
    (hsq : o.neighbor = false → c.nbh * c.nblocs = c.nbv * c.nblocs)
    (hE : ∀ su, blockSetup E.toSetSem c dets o.reverse = .ok su →
      GeomLattice E su.cE (twoPos (c.nbh * c.nblocs) (c.nbv * c.nblocs)))
    (ham : SpMat K) (hd : ham.dim = dets.length) (eigvals : List K) (eigvects : List (List K)) (gs0 : List K)
    (h0 : eigvects[0]? = some gs0) (hgs0 : gs0.length = dets.length) (tol : K) (maxIter : Nat)
    (r : BlockResult K ⊕ List (BlockStep K))
    (h : embeddingBlocks E sqrt solve fuel I c o dets ham eigvals eigvects tol maxIter = .ok r) :
    ∀ k x, (r.elim (fun q => q.trace) id)[k]? = some x → x.ham.dim = ham.dim ∧ ∀ i j, (hi : i < dets.length) →
      x.ham.entry i j = ham.entry i j + if i = j then
        (if o.neighbor then
          rightEnergy I c dets o.reverse ((gs0 :: (r.elim (fun q => q.trace) id).map (·.gs)).getD k []) (gridPos (c.nbh * c.nblocs)) dets[i]
         else ∑ q ∈ range 4, rightEnergy I c dets o.reverse ((gs0 :: (r.elim (fun q => q.trace) id).map (·.gs)).getD k [])
          (fun a => (turn (c.nbh * c.nblocs) ^ q) (gridPos (c.nbh * c.nblocs) a)) dets[i])
        else 0 := by
  unfold embeddingBlocks at h
  obtain ⟨gs, e1, h⟩ := bind_eq_ok.1 h
  obtain ⟨e0, _, h⟩ := bind_eq_ok.1 h
  obtain ⟨su, e2, h⟩ := bind_eq_ok.1 h
  obtain rfl := Option.some.inj ((pyGet_inv e1).symm.trans h0)
  have g := blockSetup_geom E.toSetSem hc e2
  obtain ⟨l, l1, l2⟩ := blockLoop_states (P := fun gs M => M.dim = ham.dim ∧ ∀ i j, (hi : i < dets.length) →
      M.entry i j = ham.entry i j + if i = j then
        (if o.neighbor then rightEnergy I c dets o.reverse gs (gridPos (c.nbh * c.nblocs)) dets[i]
         else ∑ q ∈ range 4, rightEnergy I c dets o.reverse gs
          (fun a => (turn (c.nbh * c.nblocs) ^ q) (gridPos (c.nbh * c.nblocs) a)) dets[i])
        else 0) hsol hd (fun gs en M hl hM => by
      have := blockDressed_static E I g (hE su e2) hb hn o ho hsq ham M gs hl en hM
      exact ⟨this.1, this⟩) maxIter 0 gs e0 false [] r hgs0 h
  rw [List.nil_append] at l1
  rw [l1]
  exact l2

theorem GeomLattice.congr {E : Env} {c : Config} {pos pos' : Nat → Pt} (g : GeomLattice E c pos) (hp : ∀ i < c.nsites, pos i = pos' i) :
    GeomLattice E c pos' := by
  refine ⟨?_, ?_, ?_, ?_⟩
  · intro i hi j hj e
    refine g.inj i hi j hj ?_
    rw [hp i hi, hp j hj]
    exact e
  · intro i hi j hj
    have := g.bond i hi j hj
    simpa only [hp i hi, hp j hj] using this
  · intro a ha m hm b hb
    have := g.linear a ha m hm b hb
    simpa only [hp a ha, hp m hm, hp b hb] using this
  · intro a ha b hb hd
    obtain ⟨m, m1, m2, m3⟩ := g.tile a ha b hb (by simpa only [hp a ha, hp b hb] using hd)
    rw [hp a ha, hp m m1] at m2
    rw [hp m m1, hp b hb] at m3
    exact ⟨m, m1, m2, m3⟩

/-- C74 with the relabelling search of `is_bond_linear`: the hypothesis on the geometry of `C74_static_dressing` holds when
the eigenvectors of the two bond matrices are orthonormal, the rounding is precise enough, and the spectrum of the bond matrix
is simple. -/
theorem C74_search_geometry (S : SetSem) (rnd : K → K) (ε : K) (hr : Rounds rnd ε)
    (eigh : NdMat → Nat → Nat → K) (c : Config) (hc : RectConf c c.nbh c.nbv c.nblocs)
    (hε : 3 * ((2 * c.nsites : Nat) : K) ^ 2 * ε < 1)
    (emb P : NdMat) (hemb : buildBondMatrixBlockEmbedding c.nbh c.nbv c.nblocs = .ok emb)
    (hP : buildRectangularBondMatrix (2 * c.nbh) c.nbv c.nblocs = .ok P)
    (d d' : Nat → K) (hU : EighOf (2 * c.nsites) emb.e (eigh emb) d) (hW : EighOf (2 * c.nsites) P.e (eigh P) d')
    (hsimple : ∀ k < 2 * c.nsites, ∀ l < 2 * c.nsites, d k = d l → k = l) (dets : List (List Nat)) (reverse : Bool) (su : BlockSetup)
    (hsu : blockSetup S c dets reverse = .ok su) :
    GeomLattice (clusterEnv S rnd eigh) su.cE (twoPos (c.nbh * c.nblocs) (c.nbv * c.nblocs)) := by
  have g := blockSetup_geom S hc hsu
  obtain rfl := Except.ok.inj (hemb.symm.trans g.emb)
  obtain ⟨P', p1, p2, p3⟩ := C21_two_blocks su.cE c.nbh hc.hh (by rw [g.nbv]; exact hc.hv) (by rw [g.nblocs]; exact hc.hb) g.nbh g.ltype
    (by rw [g.nbv, g.nblocs]; exact g.emb)
  have hPP : P' = P := by
    have := p1.periodic
    rw [g.nbh, g.nbv, g.nblocs, hP] at this
    exact (Except.ok.inj this).symm
  subst hPP
  rw [← g.erows] at hU hW hsimple hε
  have hgeo := C21_collinear S su.cE P' _ p1 rnd ε hr hε eigh d d' hU hW
    (C21_simple_spectrum su.cE P' _ p1 p2 rnd hr.zero hr.one _ _ d d' hU hW hsimple)
  rw [g.nblocs, g.nbv] at p3
  have hp : ∀ i < su.cE.nsites, gridPos (su.cE.nbh * su.cE.nblocs) (relabelTwo (c.nbh * su.cE.nblocs) (su.cE.nbv * su.cE.nblocs) i) =
      twoPos (c.nbh * c.nblocs) (c.nbv * c.nblocs) i := by
    rw [g.nblocs, g.nbv]; exact p3
  exact hgeo.congr hp

end

/-- Two 2×2 blocks with the relabelling `twoEnv` are a lattice of the plane. -/
theorem two_squares_geom (nholes nbeta : Nat) (dets : List (List Nat)) (reverse : Bool) (su : BlockSetup)
    (hsu : blockSetup SetSem.sorted (rectConf 1 1 2 nholes nbeta) dets reverse = .ok su) : GeomLattice twoEnv su.cE (twoPos 2 2) := by
  have g := blockSetup_geom SetSem.sorted (rectConf_ok 1 1 2 nholes nbeta (by decide) (by decide) (by decide)) hsu
  have e1 : su.cE.nbh = 2 := g.nbh
  have e2 : su.cE.nbv = 1 := g.nbv
  have e3 : su.cE.nblocs = 2 := g.nblocs
  have e4 : su.cE.nsites = 8 := g.erows
  obtain ⟨P, p1, _, p3⟩ := C21_two_blocks su.cE 1 (by decide) (by omega) (by omega) g.nbh g.ltype (by rw [e2, e3]; exact g.emb)
  rw [e2, e3] at p1 p3
  have := relabelled_geom twoEnv su.cE P _ p1 (relabelTwo 2 2) p1.lt p1.inj (by
    rw [e4]
    intro i _ j hj
    show decide (i = 4 * (j % 4 / 2) + 2 * (j / 4) + j % 2) = true ↔ _
    rw [decide_eq_true_eq]
    unfold relabelTwo
    interval_cases j <;> rfl) (fun i hi j hj => (p1.bond i hi j hj).symm)
  rw [e3] at this
  exact this.congr p3

/-- The entries of the stored Hamiltonian and the stored eigenvalues. -/
def storedBlocks : Py (BlockResult ℚ ⊕ List (BlockStep ℚ)) → Option (List ℚ × ℚ)
  | .ok (.inl r) => some (r.eigvals, r.ham.entry 0 0)
  | _ => none

/-- Four up spins next to four down spins (`J = 2`): two bonds with one neighbour, eight with four. -/
theorem static_run : storedBlocks (embeddingBlocks twoEnv sqrtUpTo4 oneSolver 1 exI (rectConf 1 1 2 0 0) ⟨false, true, true, 0⟩
      [[0, 1, 2, 3]] ⟨1, []⟩ [0] [[1]] 1 5) = some ([-2], -2) ∧
    storedBlocks (embeddingBlocks twoEnv sqrtUpTo4 oneSolver 1 exI (rectConf 1 1 2 0 0) ⟨false, false, true, 0⟩
      [[0, 1, 2, 3]] ⟨1, []⟩ [0] [[1]] 1 5) = some ([-8], -8) := by decide +kernel

/-- The hypotheses of C74 hold for these runs. -/
example (b : Bool) := C74_static_dressing twoEnv sqrtUpTo4 oneSolver 1 exI (rectConf 1 1 2 0 0)
  (rectConf_ok _ _ _ _ _ (by decide) (by decide) (by decide)) [[0, 1, 2, 3]] oneSolver_good rfl (by decide) ⟨false, b, true, 0⟩ rfl (fun _ => rfl)
  (two_squares_geom 0 0 [[0, 1, 2, 3]] true) ⟨1, []⟩ rfl [0] [[1]] [1] rfl rfl 1 5

end TJ
