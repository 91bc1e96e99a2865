import Verif.Spec.Stored
import Verif.Lemmas.HamLin
import Verif.Lemmas.SpinOp

/-!
The positions at which the terms of the Hamiltonian store elements, whatever the couplings are.
-/

namespace TJ

open Finset

section
variable {K : Type} {c : Config} {dets : List (List Nat)}

/-- The triples of `l` are at the positions given by `R`. -/
def StoredAs (c : Config) (dets : List (List Nat)) (l : Coo K) (R : Conf c.nsites → Conf c.nsites → Prop) : Prop :=
  ∀ i (hi : i < dets.length) j (hj : j < dets.length), (∃ x, (x, i, j) ∈ l) ↔ R (confOf c dets[i]) (confOf c dets[j])

theorem StoredAs.nil : StoredAs c dets ([] : Coo K) (fun _ _ => False) := fun _ _ _ _ => by simp

theorem StoredAs.append {l m : Coo K} {R Q : Conf c.nsites → Conf c.nsites → Prop} (h : StoredAs c dets l R) (h' : StoredAs c dets m Q) :
    StoredAs c dets (l ++ m) (fun σ τ => R σ τ ∨ Q σ τ) := by
  intro i hi j hj
  refine Iff.trans ?_ (or_congr (h i hi j hj) (h' i hi j hj))
  rw [← exists_or]
  simp only [List.mem_append]

theorem stored_sel {f : Py (Coo K)} {R : Conf c.nsites → Conf c.nsites → Prop} (b : Bool)
    (h : ∀ l, f = .ok l → StoredAs c dets l R) :
    ∀ l, selected b f = .ok l → StoredAs c dets l (fun σ τ => b = true ∧ R σ τ) := by
  intro l hl
  cases b
  · obtain rfl := Except.ok.inj hl
    intro i hi j hj
    simp
  · have := h l hl
    intro i hi j hj
    simpa using this i hi j hj

end

section
variable {K : Type} [AddCommMonoid K] {c : Config} {dets : List (List Nat)}

theorem stored_rows {body : Nat → List Nat → Py (Coo K)} {B : Nat → List Nat → Coo K} {R : Conf c.nsites → Conf c.nsites → Prop}
    (hb : ∀ i d, dets[i]? = some d → body i d = .ok (B i d)) (hrow : ∀ i d, ∀ t ∈ B i d, t.2.1 = i)
    (hR : ∀ i (hi : i < dets.length) j (hj : j < dets.length), (∃ x, (x, i, j) ∈ B i dets[i]) ↔ R (confOf c dets[i]) (confOf c dets[j])) :
    ∀ l, forDets dets body = .ok l → StoredAs c dets l R := by
  intro l hl
  obtain ⟨l', h1, h2, _⟩ := forDets_row hb hrow
  obtain rfl := Except.ok.inj (hl.symm.trans h1)
  intro i hi j hj
  rw [← hR i hi j hj]
  constructor
  · rintro ⟨x, hx⟩
    obtain ⟨k, d, e1, e2⟩ := (h2 _).1 hx
    obtain rfl : i = k := hrow k d _ e2
    rw [List.getElem?_eq_getElem hi] at e1
    obtain rfl := Option.some.inj e1
    exact ⟨x, e2⟩
  · rintro ⟨x, hx⟩
    exact ⟨x, (h2 _).2 ⟨i, _, List.getElem?_eq_getElem hi, hx⟩⟩

omit [AddCommMonoid K] in
/-- Elements of a list of images. -/
theorem stored_images {i j : Nat} {x : K} {M : List (List Nat)} : (∃ y, (y, i, j) ∈ addImages c i x M) ↔ ∃ im ∈ M, getIndexInBasis c im = j := by
  constructor
  · rintro ⟨y, hy⟩
    obtain ⟨im, h1, h2⟩ := mem_addImages.1 hy
    exact ⟨im, h1, (congrArg (fun t => t.2.2) h2).symm⟩
  · rintro ⟨im, h1, rfl⟩
    exact ⟨x, mem_addImages.2 ⟨im, h1, rfl⟩⟩

end

section
variable {K : Type} [Field K] {c : Config} {dets : List (List Nat)} {E : Env} {pos : Nat → Pt} (I : Interactions K)

omit [Field K] in
theorem stored_pairs [Neg K] {i j : Nat} {x : K} {M : List (List Nat × List Nat)} :
    (∃ y, (y, i, j) ∈ addPairs c i x M) ↔ ∃ im ∈ M, getIndexInBasis c im.1 = j ∨ getIndexInBasis c im.2 = j := by
  constructor
  · rintro ⟨y, hy⟩
    obtain ⟨im, h1, h2 | h2⟩ := mem_addPairs.1 hy
    · exact ⟨im, h1, Or.inl (congrArg (fun t => t.2.2) h2).symm⟩
    · exact ⟨im, h1, Or.inr (congrArg (fun t => t.2.2) h2).symm⟩
  · rintro ⟨im, h1, rfl | rfl⟩
    · exact ⟨x, mem_addPairs.2 ⟨im, h1, Or.inl rfl⟩⟩
    · exact ⟨-x, mem_addPairs.2 ⟨im, h1, Or.inr rfl⟩⟩

theorem stored_diag {f : List Nat → Py K} (hb : constructBasis c = .ok dets) (hf : ∀ d, ValidDet c.nsites d → ∃ v, f d = .ok v) :
    ∀ l, forDets dets (fun i det => do let x ← f det; return [(x, i, i)]) = .ok l → StoredAs c dets l (fun σ τ => τ = σ) := by
  have hex : ∀ d, ∃ v, ValidDet c.nsites d → f d = .ok v := by
    intro d
    by_cases hv : ValidDet c.nsites d
    · obtain ⟨v, h⟩ := hf d hv
      exact ⟨v, fun _ => h⟩
    · exact ⟨0, fun h => absurd h hv⟩
  choose v hv using hex
  apply stored_rows (B := fun i d => [(v d, i, i)])
  · intro i d hd
    exact bind_ok (hv d (valid_getElem hb hd)) rfl
  · intro i d t ht
    rw [List.mem_singleton] at ht
    rw [ht]
  · intro i hi j hj
    constructor
    · rintro ⟨x, hx⟩
      rw [List.mem_singleton] at hx
      have : j = i := congrArg (fun t => t.2.2) hx
      subst this
      rfl
    · intro h
      have : j = i := conf_inj hb hj hi h
      subst this
      exact ⟨_, List.mem_singleton.2 rfl⟩

theorem stored_hopping (S : SetSem) (g : GeomLattice E c pos) (hf : c.Full) (hn : c.nholes + c.nbeta ≤ c.nsites)
    (hb : constructBasis c = .ok dets) :
    ∀ l, addHopping S c dets I = .ok l → StoredAs c dets l (fun σ τ => ∃ a b, HopMove (fpos c.nsites pos) σ a b ∧ τ = exch σ a b) := by
  have hex : ∀ det, ∃ L : List (Nat × Nat), ValidDet c.nsites det → (L.Nodup ∧
      (∀ p, p ∈ L ↔ p.1 < c.nsites ∧ p.2 < c.nsites ∧ occC c det p.1 = .hole ∧ occC c det p.2 ≠ .hole ∧
        c.bond.e p.1 p.2 = 1) ∧
      computeHopping S c det = .ok (L.map (fun p => detOf c.nsites (swapOcc (occC c det) p.1 p.2)))) := by
    intro det
    by_cases hv : ValidDet c.nsites det
    · obtain ⟨L, h⟩ := computeHopping_eq S hf hv hn
      exact ⟨L, fun _ => h⟩
    · exact ⟨[], fun h => absurd h hv⟩
  choose L hL using hex
  by_cases h0 : c.nholes > 0
  · unfold addHopping
    rw [if_pos h0]
    apply stored_rows (B := fun i det => addImages c i I.t ((L det).map (fun p => detOf c.nsites (swapOcc (occC c det) p.1 p.2))))
    · intro i d hd
      exact bind_ok (hL d (valid_getElem hb hd)).2.2 rfl
    · intro i d t ht
      obtain ⟨_, _, rfl⟩ := mem_addImages.1 ht
      rfl
    · intro i hi j hj
      have hv := valid_getElem hb (List.getElem?_eq_getElem hi)
      obtain ⟨_, hmem, _⟩ := hL _ hv
      rw [stored_images]
      constructor
      · rintro ⟨im, h1, h2⟩
        obtain ⟨p, hp, rfl⟩ := List.mem_map.1 h1
        obtain ⟨q1, q2, q3, q4, q5⟩ := (hmem p).1 hp
        exact ⟨⟨p.1, q1⟩, ⟨p.2, q2⟩, ⟨q3, q4, (g.bond_iff q1 q2).1 q5⟩, ((idx_swap hn hb hv ⟨p.1, q1⟩ ⟨p.2, q2⟩).2 j hj).1 h2⟩
      · rintro ⟨a, b, ⟨q3, q4, q5⟩, h2⟩
        exact ⟨_, List.mem_map.2 ⟨(a, b), (hmem _).2 ⟨a.2, b.2, q3, q4, (g.bond_iff a.2 b.2).2 q5⟩, rfl⟩, ((idx_swap hn hb hv a b).2 j hj).2 h2⟩
  · intro l hl
    unfold addHopping at hl
    rw [if_neg h0] at hl
    obtain rfl := Except.ok.inj hl
    intro i hi j hj
    simp only [List.not_mem_nil, exists_false, false_iff]
    rintro ⟨a, b, ⟨h, _⟩, _⟩
    exact no_holes (by omega) _ _ h

theorem stored_next (g : GeomLattice E c pos) (hf : c.Full) (hn : c.nholes + c.nbeta ≤ c.nsites) (hb : constructBasis c = .ok dets) :
    ∀ l, addNextHopping E c dets I = .ok l → StoredAs c dets l (fun σ τ => ∃ a b, NextMove (fpos c.nsites pos) σ a b ∧ τ = exch σ a b) := by
  have hlin : ∀ a < c.nsites, ∀ m < c.nsites, ∀ b < c.nsites, a ≠ b → c.bond.e a m = 1 → c.bond.e m b = 1 →
      ∃ r, isBondLinear E c b m a = .ok r := by
    intro a ha m hm b hb hab h1 h2
    rw [g.bond_iff ha hm] at h1
    rw [g.bond_iff hm hb] at h2
    exact ⟨_, g.linear a ha m hm b hb hab h1 h2 b m a (List.reverse_perm [a, m, b])⟩
  have hex : ∀ det, ∃ W : List ((Nat × Nat) × Bool), ValidDet c.nsites det → (
      (∀ p, p ∈ W.map Prod.fst ↔ NextPair c (occC c det) p.1 p.2) ∧
      computeNextHopping E c det = .ok
        ((W.filter (fun w => w.2)).map (fun w => detOf c.nsites (swapOcc (occC c det) w.1.1 w.1.2)),
         (W.filter (fun w => !w.2)).map (fun w => detOf c.nsites (swapOcc (occC c det) w.1.1 w.1.2)))) := by
    intro det
    by_cases hv : ValidDet c.nsites det
    · obtain ⟨W, _, h2, _, h4⟩ := computeNextHopping_eq E hf hv hlin
      exact ⟨W, fun _ => ⟨h2, h4⟩⟩
    · exact ⟨[], fun h => absurd h hv⟩
  choose W hW using hex
  by_cases h0 : c.nholes > 0
  · unfold addNextHopping
    rw [if_pos h0]
    apply stored_rows (B := fun i det =>
      addImages c i I.tnNNN (((W det).filter (fun w => w.2)).map (fun w => detOf c.nsites (swapOcc (occC c det) w.1.1 w.1.2))) ++
      addImages c i I.tNNN (((W det).filter (fun w => !w.2)).map (fun w => detOf c.nsites (swapOcc (occC c det) w.1.1 w.1.2))))
    · intro i d hd
      exact bind_ok (hW d (valid_getElem hb hd)).2 rfl
    · intro i d t ht
      rcases List.mem_append.1 ht with ht | ht
      · obtain ⟨_, _, rfl⟩ := mem_addImages.1 ht; rfl
      · obtain ⟨_, _, rfl⟩ := mem_addImages.1 ht; rfl
    · intro i hi j hj
      have hv := valid_getElem hb (List.getElem?_eq_getElem hi)
      obtain ⟨hmem, _⟩ := hW _ hv
      simp only [List.mem_append, exists_or, stored_images]
      have key : ∀ w ∈ W dets[i], getIndexInBasis c (detOf c.nsites (swapOcc (occC c dets[i]) w.1.1 w.1.2)) = j →
          ∃ a b, NextMove (fpos c.nsites pos) (confOf c dets[i]) a b ∧ confOf c dets[j] = exch (confOf c dets[i]) a b := by
        intro w hw h2
        obtain ⟨q1, q2, q3, q4, m, q5, q6, q7⟩ := (hmem w.1).1 (List.mem_map.2 ⟨w, hw, rfl⟩)
        exact ⟨⟨w.1.1, q1⟩, ⟨w.1.2, q2⟩, ⟨q3, q4, ⟨m, q5⟩, (g.bond_iff q1 q5).1 q6, (g.bond_iff q5 q2).1 q7⟩,
          ((idx_swap hn hb hv ⟨w.1.1, q1⟩ ⟨w.1.2, q2⟩).2 j hj).1 h2⟩
      constructor
      · rintro (⟨im, h1, h2⟩ | ⟨im, h1, h2⟩)
        · obtain ⟨w, hw, rfl⟩ := List.mem_map.1 h1
          exact key w (List.mem_filter.1 hw).1 h2
        · obtain ⟨w, hw, rfl⟩ := List.mem_map.1 h1
          exact key w (List.mem_filter.1 hw).1 h2
      · rintro ⟨a, b, ⟨q3, q4, m, q5, q6⟩, h2⟩
        obtain ⟨w, hw, e⟩ := List.mem_map.1 ((hmem (a, b)).2 ⟨a.2, b.2, q3, q4, m, m.2, (g.bond_iff a.2 m.2).2 q5, (g.bond_iff m.2 b.2).2 q6⟩)
        have h3 := ((idx_swap hn hb hv a b).2 j hj).2 h2
        have h4 : getIndexInBasis c (detOf c.nsites (swapOcc (occC c dets[i]) w.1.1 w.1.2)) = j := by rw [e]; exact h3
        cases hw2 : w.2
        · exact Or.inr ⟨_, List.mem_map.2 ⟨w, List.mem_filter.2 ⟨hw, by rw [hw2]; rfl⟩, rfl⟩, h4⟩
        · exact Or.inl ⟨_, List.mem_map.2 ⟨w, List.mem_filter.2 ⟨hw, hw2⟩, rfl⟩, h4⟩
  · intro l hl
    unfold addNextHopping at hl
    rw [if_neg h0] at hl
    obtain rfl := Except.ok.inj hl
    intro i hi j hj
    simp only [List.not_mem_nil, exists_false, false_iff]
    rintro ⟨a, b, ⟨h, _⟩, _⟩
    exact no_holes (by omega) _ _ h

theorem stored_flip (g : TJLattice E c pos) (hf : c.Full) (hn : c.nholes + c.nbeta ≤ c.nsites) (hb : constructBasis c = .ok dets) :
    ∀ l, addFlip E.toSetSem c dets I = .ok l → StoredAs c dets l (fun σ τ => ∃ a b, FlipMove (fpos c.nsites pos) σ a b ∧ τ = exch σ a b) := by
  let F : List Nat → Nat × Nat → List Nat := fun det p => detOf c.nsites (swapOcc (occC c det) p.1 p.2)
  let cls : List Nat → Nat × Nat → BondClass := fun det p => clsN c.nsites pos (occC c det) p.1 p.2
  have hex : ∀ det, ∃ L : List (Nat × Nat), ValidDet c.nsites det → (
      (∀ p, p ∈ L ↔ p.1 < p.2 ∧ p.2 < c.nsites ∧ Near (pos p.1) (pos p.2) ∧ occC c det p.1 ≠ .hole ∧
        occC c det p.2 ≠ .hole ∧ occC c det p.1 ≠ occC c det p.2) ∧
      computeFlip E.toSetSem c det = .ok
        ((L.filter (fun p => cls det p = .par)).map (F det), (L.filter (fun p => cls det p = .per)).map (F det),
         (L.filter (fun p => cls det p = .undoped)).map (F det))) := by
    intro det
    by_cases hv : ValidDet c.nsites det
    · obtain ⟨L, _, h⟩ := computeFlip_eq g hf hv
      exact ⟨L, fun _ => h⟩
    · exact ⟨[], fun h => absurd h hv⟩
  choose L hL using hex
  unfold addFlip
  apply stored_rows (B := fun i det =>
    addImages c i (I.Jhpar / 2) (((L det).filter (fun p => cls det p = .par)).map (F det)) ++
    addImages c i (I.Jhper / 2) (((L det).filter (fun p => cls det p = .per)).map (F det)) ++
    addImages c i (I.J / 2) (((L det).filter (fun p => cls det p = .undoped)).map (F det)))
  · intro i d hd
    exact bind_ok (hL d (valid_getElem hb hd)).2 rfl
  · intro i d t ht
    rcases List.mem_append.1 ht with ht | ht
    · rcases List.mem_append.1 ht with ht | ht
      · obtain ⟨_, _, rfl⟩ := mem_addImages.1 ht; rfl
      · obtain ⟨_, _, rfl⟩ := mem_addImages.1 ht; rfl
    · obtain ⟨_, _, rfl⟩ := mem_addImages.1 ht; rfl
  · intro i hi j hj
    have hv := valid_getElem hb (List.getElem?_eq_getElem hi)
    obtain ⟨hmem, _⟩ := hL _ hv
    simp only [List.mem_append, exists_or, stored_images]
    have key : ∀ p ∈ L dets[i], getIndexInBasis c (F dets[i] p) = j →
        ∃ a b, FlipMove (fpos c.nsites pos) (confOf c dets[i]) a b ∧ confOf c dets[j] = exch (confOf c dets[i]) a b := by
      intro p hp h2
      obtain ⟨q1, q2, q3⟩ := (hmem p).1 hp
      exact ⟨⟨p.1, by omega⟩, ⟨p.2, q2⟩, ⟨q1, q3⟩, ((idx_swap hn hb hv ⟨p.1, by omega⟩ ⟨p.2, q2⟩).2 j hj).1 h2⟩
    constructor
    · rintro ((⟨im, h1, h2⟩ | ⟨im, h1, h2⟩) | ⟨im, h1, h2⟩) <;>
      · obtain ⟨w, hw, rfl⟩ := List.mem_map.1 h1
        exact key w (List.mem_filter.1 hw).1 h2
    · rintro ⟨a, b, ⟨q1, q3⟩, h2⟩
      have hp := (hmem (a, b)).2 ⟨q1, b.2, q3⟩
      have h3 : getIndexInBasis c (F dets[i] (a, b)) = j := ((idx_swap hn hb hv a b).2 j hj).2 h2
      cases hc : cls dets[i] (a, b)
      · exact Or.inl (Or.inl ⟨_, List.mem_map.2 ⟨_, List.mem_filter.2 ⟨hp, by simp [hc]⟩, rfl⟩, h3⟩)
      · exact Or.inl (Or.inr ⟨_, List.mem_map.2 ⟨_, List.mem_filter.2 ⟨hp, by simp [hc]⟩, rfl⟩, h3⟩)
      · exact Or.inr ⟨_, List.mem_map.2 ⟨_, List.mem_filter.2 ⟨hp, by simp [hc]⟩, rfl⟩, h3⟩

theorem stored_singlet (g : GeomLattice E c pos) (hf : c.Full) (hn : c.nholes + c.nbeta ≤ c.nsites) (hb : constructBasis c = .ok dets) :
    ∀ l, addSD E c dets I = .ok l → StoredAs c dets l (fun σ τ => ∃ a m b, SingletMove (fpos c.nsites pos) σ a m b ∧
      (τ = shift3 σ a m b ∨ τ = exch σ a b)) := by
  let F : List Nat → Nat × Nat × Nat → List Nat := fun det p => detOf c.nsites (shiftOcc (occC c det) p.1 p.2.1 p.2.2)
  let G : List Nat → Nat × Nat × Nat → List Nat := fun det p => detOf c.nsites (swapOcc (occC c det) p.1 p.2.2)
  let lin : Nat × Nat × Nat → Bool := fun p => decide (Aligned (pos p.1) (pos p.2.1) (pos p.2.2))
  have hex : ∀ det, ∃ L : List (Nat × Nat × Nat), ValidDet c.nsites det → (
      (∀ p, p ∈ L ↔ SDPath c (occC c det) p.1 p.2.1 p.2.2) ∧
      computeSD E c det = .ok ((L.filter (fun p => lin p)).map (fun p => (F det p, G det p)),
         (L.filter (fun p => !lin p)).map (fun p => (F det p, G det p)))) := by
    intro det
    by_cases hv : ValidDet c.nsites det
    · obtain ⟨L, _, h⟩ := computeSD_eq E hf hv (fun a m b => decide (Aligned (pos a) (pos m) (pos b))) (by
        intro a ha m hm b hb hab h1 h2
        rw [g.bond_iff ha hm] at h1
        rw [g.bond_iff hm hb] at h2
        exact g.linear a ha m hm b hb hab h1 h2 b m a (List.reverse_perm [a, m, b]))
      exact ⟨L, fun _ => h⟩
    · exact ⟨[], fun h => absurd h hv⟩
  choose L hL using hex
  have hne : ∀ det a m b, SDPath c (occC c det) a m b → a ≠ m ∧ a ≠ b ∧ m ≠ b := by
    intro det a m b h
    obtain ⟨h1, h2, h3, h4, h5, h6, _⟩ := h
    have hbe : occC c det b ≠ .hole := by
      rw [h6]; intro h; apply h5
      generalize occC c det m = o at h
      cases o <;> simp_all [Occ.rev]
    refine ⟨fun h => h5 (h ▸ h4), fun h => hbe (h ▸ h4), ?_⟩
    intro h
    rw [← h] at h6
    generalize occC c det m = o at h6 h5
    cases o <;> simp [Occ.rev] at h6 h5
  unfold addSD
  apply stored_rows (B := fun i det =>
    addPairs c i I.hSDpar (((L det).filter (fun p => lin p)).map (fun p => (F det p, G det p))) ++
    addPairs c i I.hSDper (((L det).filter (fun p => !lin p)).map (fun p => (F det p, G det p))))
  · intro i d hd
    exact bind_ok (hL d (valid_getElem hb hd)).2 rfl
  · intro i d t ht
    rcases List.mem_append.1 ht with ht | ht
    · obtain ⟨_, _, rfl | rfl⟩ := mem_addPairs.1 ht <;> rfl
    · obtain ⟨_, _, rfl | rfl⟩ := mem_addPairs.1 ht <;> rfl
  · intro i hi j hj
    have hv := valid_getElem hb (List.getElem?_eq_getElem hi)
    obtain ⟨hmem, _⟩ := hL _ hv
    simp only [List.mem_append, exists_or, stored_pairs]
    have key : ∀ a m b : Fin c.nsites, SDPath c (occC c dets[i]) a m b →
        (getIndexInBasis c (F dets[i] (a.1, m.1, b.1)) = j ∨ getIndexInBasis c (G dets[i] (a.1, m.1, b.1)) = j ↔
          confOf c dets[j] = shift3 (confOf c dets[i]) a m b ∨ confOf c dets[j] = exch (confOf c dets[i]) a b) := by
      intro a m b h
      obtain ⟨n1, n2, n3⟩ := hne _ _ _ _ h
      exact or_congr ((idx_shift hn hb hv a m b (fun h => n1 (Fin.ext_iff.1 h)) (fun h => n2 (Fin.ext_iff.1 h))
        (fun h => n3 (Fin.ext_iff.1 h))).2 j hj) ((idx_swap hn hb hv a b).2 j hj)
    have fwd : ∀ p ∈ L dets[i], getIndexInBasis c (F dets[i] p) = j ∨ getIndexInBasis c (G dets[i] p) = j →
        ∃ a m b, SingletMove (fpos c.nsites pos) (confOf c dets[i]) a m b ∧
          (confOf c dets[j] = shift3 (confOf c dets[i]) a m b ∨ confOf c dets[j] = exch (confOf c dets[i]) a b) := by
      intro p hp h2
      have hs := (hmem p).1 hp
      obtain ⟨q1, q2, q3, q4, q5, q6, q7, q8⟩ := (hmem p).1 hp
      exact ⟨⟨p.1, q1⟩, ⟨p.2.1, q2⟩, ⟨p.2.2, q3⟩, ⟨q4, q5, q6, (g.bond_iff q1 q2).1 q7, (g.bond_iff q2 q3).1 q8⟩,
        (key ⟨p.1, q1⟩ ⟨p.2.1, q2⟩ ⟨p.2.2, q3⟩ hs).1 h2⟩
    constructor
    · rintro (⟨im, h1, h2⟩ | ⟨im, h1, h2⟩) <;>
      · obtain ⟨w, hw, rfl⟩ := List.mem_map.1 h1
        exact fwd w (List.mem_filter.1 hw).1 h2
    · rintro ⟨a, m, b, ⟨q4, q5, q6, q7, q8⟩, h2⟩
      have hs : SDPath c (occC c dets[i]) a m b := ⟨a.2, m.2, b.2, q4, q5, q6, (g.bond_iff a.2 m.2).2 q7, (g.bond_iff m.2 b.2).2 q8⟩
      have hp := (hmem (a.1, m.1, b.1)).2 hs
      have h3 := (key a m b hs).2 h2
      cases hc : lin (a.1, m.1, b.1)
      · exact Or.inr ⟨_, List.mem_map.2 ⟨_, List.mem_filter.2 ⟨hp, by simp [hc]⟩, rfl⟩, h3⟩
      · exact Or.inl ⟨_, List.mem_map.2 ⟨_, List.mem_filter.2 ⟨hp, hc⟩, rfl⟩, h3⟩

/-- The positions of the elements of the Hamiltonian. -/
theorem stored_ham (g : TJLattice E c pos) (hf : c.Full) (hn : c.nholes + c.nbeta ≤ c.nsites) (hb : constructBasis c = .ok dets)
    (B : BoolInteractions) (r : List Nat) (v : Bool) (H : SpMat K) (h : buildHamiltonian E c I dets B r v = .ok H) :
    StoredAs c dets H.coo (Linked (fpos c.nsites pos) B) := by
  unfold buildHamiltonian at h
  obtain ⟨l1, e1, h⟩ := bind_eq_ok.1 h
  obtain ⟨l2, e2, h⟩ := bind_eq_ok.1 h
  obtain ⟨l3, e3, h⟩ := bind_eq_ok.1 h
  obtain ⟨l4, e4, h⟩ := bind_eq_ok.1 h
  obtain ⟨l5, e5, h⟩ := bind_eq_ok.1 h
  obtain ⟨l6, e6, h⟩ := bind_eq_ok.1 h
  have t1 := stored_sel B.bt (stored_hopping I E.toSetSem g.toGeomLattice hf hn hb) l1 e1
  have t2 := stored_sel B.bz (stored_diag (f := computeStatic E c I) hb (fun d hv => ⟨_, computeStatic_eq I g.toGeomLattice hf hv⟩)) l2 e2
  have t3 := stored_sel B.bij (stored_flip I g hf hn hb) l3 e3
  have t4 := stored_sel B.bSD (stored_singlet I g.toGeomLattice hf hn hb) l4 e4
  have t5 := stored_sel B.btN (stored_next I g.toGeomLattice hf hn hb) l5 e5
  have t6 := stored_sel B.bV (stored_diag (f := computeRepulsion E c I) hb (fun d hv => ⟨_, computeRepulsion_eq I g.toGeomLattice hf hv⟩)) l6 e6
  have T := ((((t1.append t2).append t3).append t4).append t5).append t6
  unfold cooMatrix at h
  split_ifs at h
  obtain rfl := Except.ok.inj h
  intro i hi j hj
  rw [T i hi j hj]
  unfold Linked
  generalize confOf c dets[i] = σ
  generalize confOf c dets[j] = τ
  constructor
  · rintro (((((⟨h1, a, b, h2, h3⟩ | ⟨h1, h2⟩) | ⟨h1, a, b, h2, h3⟩) | ⟨h1, h2⟩) | ⟨h1, a, b, h2, h3⟩) | ⟨h1, h2⟩)
    · exact Or.inr (Or.inl ⟨a, b, Or.inl ⟨h1, h2⟩, h3⟩)
    · exact Or.inl ⟨Or.inl h1, h2⟩
    · exact Or.inr (Or.inl ⟨a, b, Or.inr (Or.inr ⟨h1, h2⟩), h3⟩)
    · exact Or.inr (Or.inr ⟨h1, h2⟩)
    · exact Or.inr (Or.inl ⟨a, b, Or.inr (Or.inl ⟨h1, h2⟩), h3⟩)
    · exact Or.inl ⟨Or.inr h1, h2⟩
  · rintro (⟨h1 | h1, h2⟩ | ⟨a, b, ⟨h1, h2⟩ | ⟨h1, h2⟩ | ⟨h1, h2⟩, h3⟩ | ⟨h1, h2⟩)
    · exact Or.inl (Or.inl (Or.inl (Or.inl (Or.inr ⟨h1, h2⟩))))
    · exact Or.inr ⟨h1, h2⟩
    · exact Or.inl (Or.inl (Or.inl (Or.inl (Or.inl ⟨h1, a, b, h2, h3⟩))))
    · exact Or.inl (Or.inr ⟨h1, a, b, h2, h3⟩)
    · exact Or.inl (Or.inl (Or.inl (Or.inr ⟨h1, a, b, h2, h3⟩)))
    · exact Or.inl (Or.inl (Or.inr ⟨h1, h2⟩))

end

end TJ
