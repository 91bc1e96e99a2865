/-
Images under next-neighbour hopping and singlet displacement.
-/
import Verif.Lemmas.Images

namespace TJ

/-- A loop that keeps an invariant and adds elements to a collection. -/
theorem foldlM_acc {α β γ : Type} {f : β → α → Py β} (Inv : β → Prop) (mem : β → γ → Prop) {P : α → γ → Prop} :
    ∀ (l : List α) (d : β), Inv d →
      (∀ a ∈ l, ∀ d, Inv d → ∃ d', f d a = .ok d' ∧ Inv d' ∧ ∀ x, mem d' x ↔ (mem d x ∨ P a x)) →
      ∃ d', l.foldlM f d = .ok d' ∧ Inv d' ∧ ∀ x, mem d' x ↔ (mem d x ∨ ∃ a ∈ l, P a x)
  | [], d, hd, _ => ⟨d, rfl, hd, by simp⟩
  | a :: l, d, hd, h => by
    obtain ⟨d1, h1, hi1, h2⟩ := h a (by simp) d hd
    obtain ⟨d2, h3, hi2, h4⟩ := foldlM_acc Inv mem l d1 hi1 (fun b hb => h b (List.mem_cons_of_mem _ hb))
    refine ⟨d2, ?_, hi2, ?_⟩
    · rw [List.foldlM_cons]; exact bind_ok h1 h3
    · intro x
      rw [h4, h2]
      simp [or_assoc]

/-- The pairs of next-neighbour hopping. -/
def NextPair (c : Config) (σ : Nat → Occ) (a b : Nat) : Prop :=
  a < c.nsites ∧ b < c.nsites ∧ σ a = .hole ∧ σ b ≠ .hole ∧
    ∃ m, m < c.nsites ∧ c.bond.e a m = 1 ∧ c.bond.e m b = 1

theorem computeNextHopping_eq (E : Env) {c : Config} (hf : c.Full) {det : List Nat} (hv : ValidDet c.nsites det)
    (hlin : ∀ a < c.nsites, ∀ m < c.nsites, ∀ b < c.nsites, a ≠ b → c.bond.e a m = 1 → c.bond.e m b = 1 →
      ∃ r, isBondLinear E c b m a = .ok r) :
    ∃ W : List ((Nat × Nat) × Bool), (W.map Prod.fst).Nodup ∧
      (∀ p, p ∈ W.map Prod.fst ↔ NextPair c (occC c det) p.1 p.2) ∧
      (∀ w ∈ W, ∃ m < c.nsites, c.bond.e w.1.1 m = 1 ∧ c.bond.e m w.1.2 = 1 ∧
        isBondLinear E c w.1.2 m w.1.1 = .ok w.2) ∧
      computeNextHopping E c det = .ok
        ((W.filter (fun w => w.2)).map (fun w => detOf c.nsites (swapOcc (occC c det) w.1.1 w.1.2)),
         (W.filter (fun w => !w.2)).map (fun w => detOf c.nsites (swapOcc (occC c det) w.1.1 w.1.2))) := by
  obtain ⟨hs, e0, p0⟩ := getIndexesOf_full E.toSetSem hf hv .hole false
  obtain ⟨us, eu, pu⟩ := getIndexesOf_full E.toSetSem hf hv .up true
  obtain ⟨ds, ed, pd⟩ := getIndexesOf_full E.toSetSem hf hv .down true
  have hmem : ∀ s, s ∈ hs ↔ s < c.nsites ∧ occC c det s = .hole := fun s => by rw [p0.mem_iff, mem_sitesOf]
  have hel : ∀ s, s ∈ us ++ ds ↔ s < c.nsites ∧ occC c det s ≠ .hole := by
    intro s
    rw [List.mem_append, pu.mem_iff, pd.mem_iff, mem_sitesOf, mem_sitesOf]
    cases occC c det s <;> simp
  set F := fun w : (Nat × Nat) × Bool => detOf c.nsites (swapOcc (occC c det) w.1.1 w.1.2) with hF
  let St := List (Nat × Nat) × List (List Nat) × List (List Nat)
  -- the state is described by a list of labelled pairs
  let Inv : St → Prop := fun st => ∃ W : List ((Nat × Nat) × Bool), st.1 = W.map Prod.fst ∧ st.1.Nodup ∧
    (∀ w ∈ W, ∃ m < c.nsites, c.bond.e w.1.1 m = 1 ∧ c.bond.e m w.1.2 = 1 ∧
        isBondLinear E c w.1.2 m w.1.1 = .ok w.2) ∧
    st.2.1 = (W.filter (fun w => w.2)).map F ∧ st.2.2 = (W.filter (fun w => !w.2)).map F
  let mem : St → Nat × Nat → Prop := fun st p => p ∈ st.1
  have hstep : ∀ a m, a < c.nsites → occC c det a = .hole → m < c.nsites → c.bond.e a m = 1 →
      ∀ b, b < c.nsites → occC c det b ≠ .hole → c.bond.e m b = 1 → ∀ st, Inv st →
      ∃ st', nextHopStep E c det a m st b = .ok st' ∧ Inv st' ∧ ∀ x, mem st' x ↔ (mem st x ∨ x = (a, b)) := by
    intro a m ha hah hm ham b hb hbe hmb st hinv
    obtain ⟨V, col, ort⟩ := st
    obtain ⟨W, w1, w2, w3, w4, w5⟩ := hinv
    simp only at w1 w2 w4 w5
    have hne : a ≠ b := fun h => hbe (h ▸ hah)
    have i1 := pyIndex_eq (hv.mem.2 ha)
    have i2 := pyIndex_eq (hv.mem.2 hb)
    unfold nextHopStep
    by_cases hin : (a, b) ∈ V
    · refine ⟨(V, col, ort), ?_, ⟨W, w1, w2, w3, w4, w5⟩, ?_⟩
      · refine bind_ok i1 (bind_ok i2 ?_)
        simp only [hin, if_true]
        rfl
      · intro x
        constructor
        · exact Or.inl
        · rintro (h | rfl)
          · exact h
          · exact hin
    · obtain ⟨r, hr⟩ := hlin a ha m hm b hb hne ham hmb
      refine ⟨(V ++ [(a, b)], (if r then col ++ [F ((a, b), r)] else col), (if r then ort else ort ++ [F ((a, b), r)])), ?_, ?_, ?_⟩
      · refine bind_ok i1 (bind_ok i2 ?_)
        simp only [hin, if_false]
        refine bind_ok (swapped_eq hv ha hb) (bind_ok hr ?_)
        cases r <;> rfl
      · refine ⟨W ++ [((a, b), r)], ?_, ?_, ?_, ?_, ?_⟩
        · simp only [w1, List.map_append, List.map_cons, List.map_nil]
        · simp only
          rw [List.nodup_append]
          refine ⟨w2, by simp, ?_⟩
          intro x hx y hy hxy
          rw [List.mem_singleton] at hy
          exact hin (hy ▸ hxy ▸ hx)
        · intro w hw
          rcases List.mem_append.1 hw with hw | hw
          · exact w3 w hw
          · rw [List.mem_singleton] at hw
            subst hw
            exact ⟨m, hm, ham, hmb, hr⟩
        · simp only [w4]
          cases r <;> simp
        · simp only [w5]
          cases r <;> simp
      · intro x
        show x ∈ V ++ [(a, b)] ↔ _
        rw [List.mem_append, List.mem_singleton]
  obtain ⟨st, r1, r2, r3⟩ := foldlM_acc (f := fun st a => do
      let nbrs ← getNeighbors E.toSetSem a c.bond (.list [])
      nbrs.foldlM (fun st m => do
        let ups ← getIndexesOf E.toSetSem c det 1 true
        let downs ← getIndexesOf E.toSetSem c det (-1) true
        let nn ← getNeighbors E.toSetSem m c.bond c.restrArg
        (E.inter (ups ++ downs) nn).foldlM (nextHopStep E c det a m) st) st) Inv mem
    (P := fun a x => x.1 = a ∧ NextPair c (occC c det) x.1 x.2) hs (([], [], []) : St)
    ⟨[], rfl, List.nodup_nil, by simp, rfl, rfl⟩ (by
      intro a ha st hst
      obtain ⟨ha1, ha2⟩ := (hmem a).1 ha
      have hnb := nbl_spec E.toSetSem c.bond (.list []) ha1
      obtain ⟨st', q1, q2, q3⟩ := foldlM_acc (f := fun st m => do
          let ups ← getIndexesOf E.toSetSem c det 1 true
          let downs ← getIndexesOf E.toSetSem c det (-1) true
          let nn ← getNeighbors E.toSetSem m c.bond c.restrArg
          (E.inter (ups ++ downs) nn).foldlM (nextHopStep E c det a m) st) Inv mem
        (P := fun m x => x.1 = a ∧ x.2 < c.nsites ∧ occC c det x.2 ≠ .hole ∧ c.bond.e m x.2 = 1)
        (nbl E.toSetSem c.bond (.list []) a) st hst (by
          intro m hm st hst
          have hm' := (mem_nbl_nil ha1 m).1 hm
          have hee : ∀ b, b ∈ E.inter (us ++ ds) (nbl E.toSetSem c.bond c.restrArg m) ↔
              (b < c.nsites ∧ occC c det b ≠ .hole ∧ c.bond.e m b = 1) := by
            intro b
            rw [E.mem_inter, hel, mem_nbl_full hf hm'.1]
            constructor
            · rintro ⟨⟨x1, x2⟩, _, x3⟩; exact ⟨x1, x2, x3⟩
            · rintro ⟨x1, x2, x3⟩; exact ⟨⟨x1, x2⟩, x1, x3⟩
          obtain ⟨st', s1, s2, s3⟩ := foldlM_acc (f := nextHopStep E c det a m) Inv mem
            (P := fun b x => x = (a, b)) (E.inter (us ++ ds) (nbl E.toSetSem c.bond c.restrArg m)) st hst (by
              intro b hb st hst
              obtain ⟨b1, b2, b3⟩ := (hee b).1 hb
              exact hstep a m ha1 ha2 hm'.1 hm'.2 b b1 b2 b3 st hst)
          refine ⟨st', ?_, s2, ?_⟩
          · refine bind_ok eu (bind_ok ed (bind_ok (nbl_spec E.toSetSem c.bond c.restrArg hm'.1).1 s1))
          · intro x
            rw [s3]
            constructor
            · rintro (h | ⟨b, hb, rfl⟩)
              · exact Or.inl h
              · exact Or.inr ⟨rfl, (hee b).1 hb⟩
            · rintro (h | ⟨h1, h2⟩)
              · exact Or.inl h
              · exact Or.inr ⟨x.2, (hee x.2).2 h2, Prod.ext h1 rfl⟩)
      refine ⟨st', bind_ok hnb.1 q1, q2, ?_⟩
      intro x
      rw [q3]
      constructor
      · rintro (h | ⟨m, hm, h1, h2, h3, h4⟩)
        · exact Or.inl h
        · have hm' := (mem_nbl_nil ha1 m).1 hm
          subst h1
          exact Or.inr ⟨rfl, ha1, h2, ha2, h3, m, hm'.1, hm'.2, h4⟩
      · rintro (h | ⟨h1, h2, h3, h4, h5, m, h6, h7, h8⟩)
        · exact Or.inl h
        · subst h1
          exact Or.inr ⟨m, (mem_nbl_nil ha1 m).2 ⟨h6, h7⟩, rfl, h3, h5, h8⟩)
  obtain ⟨W, w1, w2, w3, w4, w5⟩ := r2
  refine ⟨W, w1 ▸ w2, ?_, w3, ?_⟩
  · intro p
    rw [← w1]
    have := r3 p
    simp only [mem] at this
    rw [this]
    constructor
    · rintro (h | ⟨a, _, _, h⟩)
      · simp at h
      · exact h
    · intro h
      exact Or.inr ⟨p.1, (hmem _).2 ⟨h.1, h.2.2.1⟩, rfl, h⟩
  · unfold computeNextHopping
    split_ifs with h0
    · refine bind_ok e0 (bind_ok r1 ?_)
      rw [w4, w5]
      rfl
    · have hnil : hs = [] := by
        apply List.eq_nil_iff_forall_not_mem.2
        intro s hs
        have := (hmem s).1 hs
        rw [occ_hole_iff] at this
        have h0 : c.nholes = 0 := by omega
        rw [h0] at this
        simp at this
      rw [hnil] at r1
      have hst : st = ([], [], []) := (Except.ok.inj r1).symm
      rw [hst] at w1
      have : W = [] := List.map_eq_nil_iff.1 w1.symm
      rw [this]
      rfl

/-! ### Singlet displacement -/

/-- The paths of singlet displacement. -/
def SDPath (c : Config) (σ : Nat → Occ) (a m b : Nat) : Prop :=
  a < c.nsites ∧ m < c.nsites ∧ b < c.nsites ∧ σ a = .hole ∧ σ m ≠ .hole ∧ σ b = (σ m).rev ∧
    c.bond.e a m = 1 ∧ c.bond.e m b = 1

theorem flatten_map_map' {α β γ δ : Type} (l : List α) (g : α → List δ) (f : α → δ → γ) (h : β → δ) (k : α → List β)
    (hg : ∀ a ∈ l, g a = (k a).map h) :
    (l.map (fun a => (g a).map (f a))).flatten =
      (l.flatMap (fun a => (k a).map (fun b => (a, b)))).map (fun p => f p.1 (h p.2)) := by
  rw [List.map_flatMap, List.flatMap]
  congr 1
  apply List.map_congr_left
  intro a ha
  rw [hg a ha]
  simp [Function.comp_def]

theorem computeSD_eq (E : Env) {c : Config} (hf : c.Full) {det : List Nat} (hv : ValidDet c.nsites det)
    (lin : Nat → Nat → Nat → Bool)
    (hlin : ∀ a < c.nsites, ∀ m < c.nsites, ∀ b < c.nsites, a ≠ b → c.bond.e a m = 1 → c.bond.e m b = 1 →
      isBondLinear E c b m a = .ok (lin a m b)) :
    ∃ L : List (Nat × Nat × Nat), L.Nodup ∧
      (∀ p, p ∈ L ↔ SDPath c (occC c det) p.1 p.2.1 p.2.2) ∧
      computeSD E c det = .ok
        ((L.filter (fun p => lin p.1 p.2.1 p.2.2)).map (fun p => (detOf c.nsites (shiftOcc (occC c det) p.1 p.2.1 p.2.2),
          detOf c.nsites (swapOcc (occC c det) p.1 p.2.2))),
         (L.filter (fun p => !lin p.1 p.2.1 p.2.2)).map (fun p => (detOf c.nsites (shiftOcc (occC c det) p.1 p.2.1 p.2.2),
          detOf c.nsites (swapOcc (occC c det) p.1 p.2.2)))) := by
  obtain ⟨hs, e0, p0⟩ := getIndexesOf_full E.toSetSem hf hv .hole false
  obtain ⟨us, eu, pu⟩ := getIndexesOf_full E.toSetSem hf hv .up true
  obtain ⟨ds, ed, pd⟩ := getIndexesOf_full E.toSetSem hf hv .down true
  have hmem : ∀ s, s ∈ hs ↔ s < c.nsites ∧ occC c det s = .hole := fun s => by rw [p0.mem_iff, mem_sitesOf]
  have hnd : hs.Nodup := p0.nodup_iff.2 (sitesOf_nodup _ _ _)
  have hel : ∀ s, s ∈ us ++ ds ↔ s < c.nsites ∧ occC c det s ≠ .hole := by
    intro s
    rw [List.mem_append, pu.mem_iff, pd.mem_iff, mem_sitesOf, mem_sitesOf]
    cases occC c det s <;> simp
  -- list of electrons with spin opposite to that of `m`
  let op : Nat → List Nat := fun m => if occC c det m = .up then ds else us
  let M : Nat → List Nat := fun a => E.inter (us ++ ds) (nbl E.toSetSem c.bond c.restrArg a)
  let B : Nat → List Nat := fun m => E.inter (op m) (nbl E.toSetSem c.bond c.restrArg m)
  have hM : ∀ a, a < c.nsites → ∀ m, m ∈ M a ↔ (m < c.nsites ∧ occC c det m ≠ .hole ∧ c.bond.e a m = 1) := by
    intro a ha m
    simp only [M]
    rw [E.mem_inter, hel, mem_nbl_full hf ha]
    constructor
    · rintro ⟨⟨x1, x2⟩, _, x3⟩; exact ⟨x1, x2, x3⟩
    · rintro ⟨x1, x2, x3⟩; exact ⟨⟨x1, x2⟩, x1, x3⟩
  have hB : ∀ m, m < c.nsites → occC c det m ≠ .hole → ∀ b, b ∈ B m ↔
      (b < c.nsites ∧ occC c det b = (occC c det m).rev ∧ c.bond.e m b = 1) := by
    intro m hm hme b
    have hop : b ∈ op m ↔ b < c.nsites ∧ occC c det b = (occC c det m).rev := by
      simp only [op]
      cases h : occC c det m with
      | hole => exact absurd h hme
      | down => simp only [reduceCtorEq, if_false]; rw [pu.mem_iff, mem_sitesOf]; rfl
      | up => simp only [if_true]; rw [pd.mem_iff, mem_sitesOf]; rfl
    simp only [B]
    rw [E.mem_inter, hop, mem_nbl_full hf hm]
    constructor
    · rintro ⟨⟨x1, x2⟩, _, x3⟩; exact ⟨x1, x2, x3⟩
    · rintro ⟨x1, x2, x3⟩; exact ⟨⟨x1, x2⟩, x1, x3⟩
  let G : Nat → Nat → Nat → Bool × List Nat × List Nat := fun a m b =>
    (lin a m b, detOf c.nsites (shiftOcc (occC c det) a m b), detOf c.nsites (swapOcc (occC c det) a b))
  let K : Nat → List (Nat × Nat) := fun a => (M a).flatMap (fun m => (B m).map (fun b => (m, b)))
  have hinner : ∀ a ∈ hs, (do
      let neigh ← getNeighbors E.toSetSem a c.bond c.restrArg
      let ups ← getIndexesOf E.toSetSem c det 1 true
      let downs ← getIndexesOf E.toSetSem c det (-1) true
      let per ← (E.inter (ups ++ downs) neigh).mapM (fun m => do
        let s ← getSpinSite c det m
        let next ← getNeighbors E.toSetSem m c.bond c.restrArg
        let opp ← getIndexesOf E.toSetSem c det (- s.twice) true
        (E.inter opp next).mapM (fun b => sdImages E c det a m b))
      return per.flatten : Py _) = .ok ((K a).map (fun q => G a q.1 q.2)) := by
    intro a ha
    obtain ⟨ha1, ha2⟩ := (hmem a).1 ha
    refine bind_ok (nbl_spec E.toSetSem c.bond c.restrArg ha1).1 (bind_ok eu (bind_ok ed ?_))
    show _ = Except.ok (((M a).flatMap (fun m => (B m).map (fun b => (m, b)))).map (fun q => G a q.1 q.2))
    rw [← flatten_map_map (M a) B (fun m b => G a m b)]
    refine bind_ok (mapM_ok (g := fun m => (B m).map (fun b => G a m b)) ?_) rfl
    intro m hm
    obtain ⟨hm1, hm2, hm3⟩ := (hM a ha1 m).1 hm
    refine bind_ok (getSpinSite_eq (hv.mem.2 hm1)) (bind_ok (nbl_spec E.toSetSem c.bond c.restrArg hm1).1 ?_)
    have hopp : getIndexesOf E.toSetSem c det (-(occC c det m).twice) true = .ok (op m) := by
      simp only [op]
      cases h : occC c det m with
      | hole => exact absurd h hm2
      | down => simp only [reduceCtorEq, if_false]; exact eu
      | up => simp only [if_true]; exact ed
    refine bind_ok hopp ?_
    apply mapM_ok
    intro b hb
    obtain ⟨hb1, hb2, hb3⟩ := (hB m hm1 hm2 b).1 hb
    have ham : a ≠ m := fun h => hm2 (h ▸ ha2)
    have hbe : occC c det b ≠ .hole := by rw [hb2]; cases h : occC c det m <;> simp_all [Occ.rev]
    have hab : a ≠ b := fun h => hbe (h ▸ ha2)
    have hmb : m ≠ b := by
      intro h
      rw [← h] at hb2
      generalize occC c det m = o at hb2 hm2
      cases o <;> simp [Occ.rev] at hb2 hm2
    unfold sdImages
    refine bind_ok (pyIndex_eq (hv.mem.2 ha1)) (bind_ok (pyIndex_eq (hv.mem.2 hm1)) (bind_ok (pyIndex_eq (hv.mem.2 hb1))
      (bind_ok (hlin a ha1 m hm1 b hb1 hab hm3 hb3) ?_)))
    rw [shifted_eq hv ha1 hm1 hb1 ham hab hmb, swapped3_eq hv ha1 hm1 hb1 ham hmb]
    rfl
  have hmapM := mapM_ok hinner
  refine ⟨hs.flatMap (fun a => (K a).map (fun q => (a, q))), ?_, ?_, ?_⟩
  · apply nodup_pairs hnd
    intro a ha
    exact nodup_pairs (E.nodup_inter _ _) (fun m _ => E.nodup_inter _ _)
  · intro p
    rw [mem_pairs]
    show p.1 ∈ hs ∧ p.2 ∈ (M p.1).flatMap (fun m => (B m).map (fun b => (m, b))) ↔ _
    rw [mem_pairs, hmem]
    unfold SDPath
    constructor
    · rintro ⟨⟨h1, h2⟩, h3, h4⟩
      obtain ⟨m1, m2, m3⟩ := (hM _ h1 _).1 h3
      obtain ⟨b1, b2, b3⟩ := (hB _ m1 m2 _).1 h4
      exact ⟨h1, m1, b1, h2, m2, b2, m3, b3⟩
    · rintro ⟨h1, m1, b1, h2, m2, b2, m3, b3⟩
      exact ⟨⟨h1, h2⟩, (hM _ h1 _).2 ⟨m1, m2, m3⟩, (hB _ m1 m2 _).2 ⟨b1, b2, b3⟩⟩
  · unfold computeSD
    refine bind_ok e0 (bind_ok hmapM ?_)
    rw [flatten_map_map hs K (fun a q => G a q.1 q.2)]
    simp only [List.filter_map, List.map_map]
    rfl

end TJ
