/-
Entries of the Hamiltonian matrix.
-/
import Verif.Lemmas.Repulsion
import Verif.Props.Basis

namespace TJ

open Finset

/-! ### COO lists -/

/-- Entry of a COO list. -/
def cooEntry {K : Type} [AddCommMonoid K] (l : Coo K) (i j : Nat) : K :=
  (l.map (fun p => if p.2.1 = i ∧ p.2.2 = j then p.1 else 0)).sum

section
variable {K : Type} [AddCommMonoid K]

theorem entry_eq (M : SpMat K) (i j : Nat) : M.entry i j = cooEntry M.coo i j := by
  unfold SpMat.entry cooEntry
  induction M.coo with
  | nil => rfl
  | cons x l ih =>
    rw [List.filter_cons, List.map_cons, List.sum_cons, ← ih]
    split_ifs with h1 h2 h2
    · simp
    · exact absurd (by simpa using h1) h2
    · exact absurd h2 (by simpa using h1)
    · simp

theorem cooEntry_append (l m : Coo K) (i j : Nat) : cooEntry (l ++ m) i j = cooEntry l i j + cooEntry m i j := by
  unfold cooEntry; simp

theorem cooEntry_nil (i j : Nat) : cooEntry ([] : Coo K) i j = 0 := rfl

theorem cooEntry_flatten (L : List (Coo K)) (i j : Nat) :
    cooEntry L.flatten i j = (L.map (fun l => cooEntry l i j)).sum := by
  induction L with
  | nil => rfl
  | cons x l ih => rw [List.flatten_cons, cooEntry_append, ih, List.map_cons, List.sum_cons]

theorem cooEntry_single (x : K) (r s i j : Nat) : cooEntry [(x, r, s)] i j = if r = i ∧ s = j then x else 0 := by
  unfold cooEntry; simp

theorem sum_zipIdx {F : Nat → List Nat → K} {i : Nat} (h0 : ∀ k d, k ≠ i → F k d = 0) :
    ∀ (l : List (List Nat)) (k : Nat),
      ((l.zipIdx k).map (fun p => F p.2 p.1)).sum = if h : k ≤ i ∧ i < k + l.length then F i (l[i - k]'(by omega)) else 0
  | [], k => by
    rw [dif_neg (by simp)]
    rfl
  | d :: l, k => by
    rw [List.zipIdx_cons, List.map_cons, List.sum_cons, sum_zipIdx h0 l (k + 1)]
    by_cases hk : k = i
    · subst hk
      rw [dif_neg (by omega), add_zero, dif_pos (by simp)]
      simp
    · simp only [h0 k d hk, zero_add]
      by_cases h : k + 1 ≤ i ∧ i < k + 1 + l.length
      · rw [dif_pos h, dif_pos (by rw [List.length_cons]; omega)]
        congr 1
        rw [List.getElem_cons, dif_neg (by omega)]
        congr 1
      · rw [dif_neg h, dif_neg (by rw [List.length_cons]; omega)]

theorem forDets_row {dets : List (List Nat)} {body : Nat → List Nat → Py (Coo K)} {B : Nat → List Nat → Coo K}
    (hb : ∀ i d, dets[i]? = some d → body i d = .ok (B i d)) (hrow : ∀ i d, ∀ t ∈ B i d, t.2.1 = i) :
    ∃ l, forDets dets body = .ok l ∧ (∀ t, t ∈ l ↔ ∃ i d, dets[i]? = some d ∧ t ∈ B i d) ∧
      ∀ i (hi : i < dets.length) j, cooEntry l i j = cooEntry (B i dets[i]) i j := by
  have hz : ∀ p, p ∈ dets.zipIdx ↔ dets[p.2]? = some p.1 := fun p => List.mem_zipIdx_iff_getElem?
  refine ⟨(dets.zipIdx.map (fun p => B p.2 p.1)).flatten, ?_, ?_, ?_⟩
  · unfold forDets
    refine bind_ok (mapM_ok (g := fun p => B p.2 p.1) ?_) rfl
    intro p hp
    exact hb _ _ ((hz p).1 hp)
  · intro t
    rw [List.mem_flatten]
    constructor
    · rintro ⟨l, hl, ht⟩
      obtain ⟨p, hp, rfl⟩ := List.mem_map.1 hl
      exact ⟨p.2, p.1, (hz p).1 hp, ht⟩
    · rintro ⟨i, d, h1, h2⟩
      exact ⟨_, List.mem_map.2 ⟨(d, i), (hz _).2 h1, rfl⟩, h2⟩
  · intro i hi j
    rw [cooEntry_flatten, List.map_map]
    have := sum_zipIdx (F := fun k d => cooEntry (B k d) i j) (i := i) (by
      intro k d hk
      unfold cooEntry
      apply List.sum_eq_zero
      intro x hx
      obtain ⟨t, ht, rfl⟩ := List.mem_map.1 hx
      rw [if_neg]
      rintro ⟨h, _⟩
      exact hk ((hrow k d t ht).symm.trans h)) dets 0
    rw [dif_pos (by omega)] at this
    exact this

end

/-! ### Columns -/

section
variable {c : Config} {dets : List (List Nat)}

theorem idx_spec (hn : c.nholes + c.nbeta ≤ c.nsites) (hb : constructBasis c = .ok dets) {σ : Nat → Occ}
    (h1 : cnt c.nsites σ .hole = c.nholes) (h2 : cnt c.nsites σ .down = c.nbeta) :
    getIndexInBasis c (detOf c.nsites σ) < dets.length ∧
      ∀ j (hj : j < dets.length), (getIndexInBasis c (detOf c.nsites σ) = j ↔
        confOf c dets[j] = fun s : Fin c.nsites => σ s) := by
  rw [constructBasis_eq] at hb
  obtain rfl := Except.ok.inj hb
  have hc : Canonical c.nsites c.nholes c.nbeta (detOf c.nsites σ) := detOf_canonical h1 h2
  have hg := getElem?_index hc.1 hn
  rw [reorder_of_canonical hc] at hg
  obtain ⟨g1, g2⟩ := List.getElem?_eq_some_iff.1 hg
  refine ⟨g1, ?_⟩
  intro j hj
  constructor
  · rintro rfl
    funext s
    simp only [g2]
    exact occ_detOf h1 h2 s.2
  · intro h
    have hcj := canonical_of_mem_basisList (List.getElem_mem hj)
    have : (basisList c.nsites c.nholes c.nbeta)[j] = detOf c.nsites σ := by
      rw [← detOf_occ hcj]
      apply detOf_congr
      intro s hs
      exact congrFun h ⟨s, hs⟩
    rw [← this]
    exact C04_index_is_position c _ (constructBasis_eq c) j hj

theorem valid_getElem (hb : constructBasis c = .ok dets) {i : Nat} {d : List Nat} (h : dets[i]? = some d) :
    ValidDet c.nsites d := by
  rw [constructBasis_eq] at hb
  obtain rfl := Except.ok.inj hb
  exact (canonical_of_mem_basisList (List.mem_of_getElem? h)).1

theorem lt_of_getElem? {i : Nat} {d : List Nat} (h : dets[i]? = some d) : i < dets.length :=
  (List.getElem?_eq_some_iff.1 h).1

end

theorem exch_eq {n : Nat} (σ : Nat → Occ) (a b : Fin n) :
    exch (fun s : Fin n => σ s) a b = fun s : Fin n => swapOcc σ a b s := by
  funext s
  unfold exch swapOcc
  congr 1
  simp only [Equiv.swap_apply_def]
  split_ifs <;> simp_all [Fin.ext_iff]

theorem shift3_eq {n : Nat} (σ : Nat → Occ) (a m b : Fin n) :
    shift3 (fun s : Fin n => σ s) a m b = fun s : Fin n => shiftOcc σ a m b s := by
  funext s
  unfold shift3 shiftOcc
  simp only [Fin.ext_iff]

/-! ### Terms -/

/-- A COO list with indices in range whose entries are the matrix elements `el`. -/
def IsTerm {K : Type} [AddCommMonoid K] (c : Config) (dets : List (List Nat)) (l : Coo K)
    (el : Conf c.nsites → Conf c.nsites → K) : Prop :=
  (∀ t ∈ l, t.2.1 < dets.length ∧ t.2.2 < dets.length) ∧
    ∀ i (hi : i < dets.length) j (hj : j < dets.length), cooEntry l i j = el (confOf c dets[i]) (confOf c dets[j])

theorem cooEntry_images {K α : Type} [AddCommMonoid K] (c : Config) (i j : Nat) (x : K) (M : List α) (F : α → List Nat) :
    cooEntry (addImages c i x (M.map F)) i j = (M.map (fun p => if getIndexInBasis c (F p) = j then x else 0)).sum := by
  unfold cooEntry addImages
  simp only [List.map_map, Function.comp_def, true_and]

theorem cooEntry_pairs {K α : Type} [Field K] (c : Config) (i j : Nat) (x : K) (M : List α) (F G : α → List Nat) :
    cooEntry (addPairs c i x (M.map (fun p => (F p, G p)))) i j =
      (M.map (fun p => x * ((if getIndexInBasis c (F p) = j then 1 else 0) - (if getIndexInBasis c (G p) = j then 1 else 0)))).sum := by
  induction M with
  | nil => rfl
  | cons p M ih =>
    have : addPairs c i x ((p :: M).map (fun p => (F p, G p))) =
        [(x, i, getIndexInBasis c (F p)), (-x, i, getIndexInBasis c (G p))] ++
          addPairs c i x (M.map (fun p => (F p, G p))) := rfl
    rw [this, cooEntry_append, ih, List.map_cons, List.sum_cons]
    congr 1
    unfold cooEntry
    simp only [List.map_cons, List.map_nil, List.sum_cons, List.sum_nil, true_and, add_zero]
    split_ifs <;> ring

theorem mem_addImages {K : Type} {c : Config} {i : Nat} {x : K} {M : List (List Nat)} {t : K × Nat × Nat} :
    t ∈ addImages c i x M ↔ ∃ im ∈ M, t = (x, i, getIndexInBasis c im) := by
  unfold addImages
  rw [List.mem_map]
  constructor <;> rintro ⟨im, h1, h2⟩ <;> exact ⟨im, h1, h2.symm⟩

theorem mem_addPairs {K : Type} [Neg K] {c : Config} {i : Nat} {x : K} {M : List (List Nat × List Nat)} {t : K × Nat × Nat} :
    t ∈ addPairs c i x M ↔ ∃ im ∈ M, t = (x, i, getIndexInBasis c im.1) ∨ t = (-x, i, getIndexInBasis c im.2) := by
  unfold addPairs
  rw [List.mem_flatMap]
  simp

theorem sum_filter_bool {α M : Type} [AddCommMonoid M] (L : List α) (p : α → Bool) (f g : α → M) :
    ((L.filter p).map f).sum + ((L.filter (fun x => !p x)).map g).sum = (L.map (fun x => if p x then f x else g x)).sum := by
  induction L with
  | nil => simp
  | cons x l ih =>
    rw [List.map_cons, List.sum_cons, ← ih, List.filter_cons, List.filter_cons]
    cases p x <;> simp [add_assoc, add_left_comm]

theorem sum_filter_class {α M : Type} [AddCommMonoid M] (L : List α) (cls : α → BondClass) (f : BondClass → α → M) :
    ((L.filter (fun x => cls x = .par)).map (f .par)).sum + ((L.filter (fun x => cls x = .per)).map (f .per)).sum +
      ((L.filter (fun x => cls x = .undoped)).map (f .undoped)).sum = (L.map (fun x => f (cls x) x)).sum := by
  induction L with
  | nil => simp
  | cons x l ih =>
    rw [List.map_cons, List.sum_cons, ← ih, List.filter_cons, List.filter_cons, List.filter_cons]
    cases cls x <;> simp [add_assoc, add_left_comm]

section
variable {K : Type} [Field K] {E : Env} {c : Config} {pos : Nat → Pt} {dets : List (List Nat)} (I : Interactions K)

/-- Column of an exchange. -/
theorem idx_swap (hn : c.nholes + c.nbeta ≤ c.nsites) (hb : constructBasis c = .ok dets) {det : List Nat}
    (hv : ValidDet c.nsites det) (a b : Fin c.nsites) :
    getIndexInBasis c (detOf c.nsites (swapOcc (occC c det) a b)) < dets.length ∧ ∀ j (hj : j < dets.length),
      (getIndexInBasis c (detOf c.nsites (swapOcc (occC c det) a b)) = j ↔ confOf c dets[j] = exch (confOf c det) a b) := by
  have := idx_spec hn hb ((cnt_swapOcc a.2 b.2 (occC c det) _).trans (cnt_occ_hole hv hn))
    ((cnt_swapOcc a.2 b.2 (occC c det) _).trans (cnt_occ_down hv hn))
  rw [exch_eq]
  exact this

theorem idx_shift (hn : c.nholes + c.nbeta ≤ c.nsites) (hb : constructBasis c = .ok dets) {det : List Nat}
    (hv : ValidDet c.nsites det) (a m b : Fin c.nsites) (ham : a ≠ m) (hab : a ≠ b) (hmb : m ≠ b) :
    getIndexInBasis c (detOf c.nsites (shiftOcc (occC c det) a m b)) < dets.length ∧ ∀ j (hj : j < dets.length),
      (getIndexInBasis c (detOf c.nsites (shiftOcc (occC c det) a m b)) = j ↔ confOf c dets[j] = shift3 (confOf c det) a m b) := by
  have h1 : a.val ≠ m.val := fun h => ham (Fin.ext h)
  have h2 : a.val ≠ b.val := fun h => hab (Fin.ext h)
  have h3 : m.val ≠ b.val := fun h => hmb (Fin.ext h)
  have := idx_spec hn hb ((cnt_shiftOcc a.2 m.2 b.2 h1 h2 h3 (occC c det) _).trans (cnt_occ_hole hv hn))
    ((cnt_shiftOcc a.2 m.2 b.2 h1 h2 h3 (occC c det) _).trans (cnt_occ_down hv hn))
  rw [shift3_eq]
  exact this

/-- A term that appends the same triples whether or not there are holes. -/
theorem term_of_rows {body : Nat → List Nat → Py (Coo K)} {B : Nat → List Nat → Coo K}
    {el : Conf c.nsites → Conf c.nsites → K}
    (hb : ∀ i d, dets[i]? = some d → body i d = .ok (B i d)) (hrow : ∀ i d, ∀ t ∈ B i d, t.2.1 = i)
    (hcol : ∀ i d, dets[i]? = some d → ∀ t ∈ B i d, t.2.2 < dets.length)
    (hel : ∀ i (hi : i < dets.length) j (hj : j < dets.length), cooEntry (B i dets[i]) i j =
      el (confOf c dets[i]) (confOf c dets[j])) :
    ∃ l, forDets dets body = .ok l ∧ IsTerm c dets l el := by
  obtain ⟨l, h1, h2, h3⟩ := forDets_row hb hrow
  refine ⟨l, h1, ?_, ?_⟩
  · intro t ht
    obtain ⟨i, d, hd, hm⟩ := (h2 t).1 ht
    refine ⟨?_, hcol i d hd t hm⟩
    rw [hrow i d t hm]
    exact lt_of_getElem? hd
  · intro i hi j hj
    rw [h3 i hi j, hel i hi j hj]

/-- The matrix elements of a diagonal term. -/
theorem term_diag {f : List Nat → Py K} {v : Conf c.nsites → K} (hb : constructBasis c = .ok dets)
    (hf : ∀ d, ValidDet c.nsites d → f d = .ok (v (confOf c d))) :
    ∃ l, forDets dets (fun i det => do let x ← f det; return [(x, i, i)]) = .ok l ∧
      IsTerm c dets l (fun σ τ => if τ = σ then v σ else 0) := by
  apply term_of_rows (B := fun i d => [(v (confOf c d), i, i)])
  · intro i d hd
    exact bind_ok (hf d (valid_getElem hb hd)) rfl
  · intro i d t ht
    rw [List.mem_singleton] at ht
    rw [ht]
  · intro i d hd t ht
    rw [List.mem_singleton] at ht
    rw [ht]
    exact lt_of_getElem? hd
  · intro i hi j hj
    rw [cooEntry_single]
    have hcan : ∀ k (hk : k < dets.length), Canonical c.nsites c.nholes c.nbeta dets[k] := by
      rw [constructBasis_eq] at hb
      obtain rfl := Except.ok.inj hb
      exact fun k hk => canonical_of_mem_basisList (List.getElem_mem hk)
    have hnd : dets.Nodup := by
      rw [constructBasis_eq] at hb
      obtain rfl := Except.ok.inj hb
      exact nodup_basisList _ _ _
    refine if_congr ?_ rfl rfl
    constructor
    · rintro ⟨_, rfl⟩; rfl
    · intro h
      refine ⟨rfl, ?_⟩
      have : dets[i] = dets[j] := by
        rw [← detOf_occ (hcan i hi), ← detOf_occ (hcan j hj)]
        apply detOf_congr
        intro s hs
        exact (congrFun h ⟨s, hs⟩).symm
      exact (hnd.getElem_inj_iff).1 this

theorem addStatic_spec (g : GeomLattice E c pos) (hf : c.Full) (hb : constructBasis c = .ok dets) :
    ∃ l, addStatic E c dets I = .ok l ∧ IsTerm c dets l (staticEl I (fpos c.nsites pos)) :=
  term_diag hb (fun _ hv => computeStatic_eq I g hf hv)

theorem addRepulsion_spec (g : GeomLattice E c pos) (hf : c.Full) (hb : constructBasis c = .ok dets) :
    ∃ l, addRepulsion E c dets I = .ok l ∧ IsTerm c dets l (repEl I (fpos c.nsites pos)) :=
  term_diag hb (fun _ hv => computeRepulsion_eq I g hf hv)

/-- Without holes a term that moves holes vanishes. -/
theorem no_holes (hn : c.nholes = 0) (det : List Nat) (s : Nat) : occC c det s ≠ .hole := by
  intro h
  rw [occ_hole_iff, hn] at h
  simp at h

theorem addHopping_spec (S : SetSem) (g : GeomLattice E c pos) (hf : c.Full) (hn : c.nholes + c.nbeta ≤ c.nsites)
    (hb : constructBasis c = .ok dets) :
    ∃ l, addHopping S c dets I = .ok l ∧ IsTerm c dets l (hopEl I (fpos c.nsites pos)) := by
  have hex : ∀ det, ∃ L : List (Nat × Nat), ValidDet c.nsites det → (L.Nodup ∧
      (∀ p, p ∈ L ↔ p.1 < c.nsites ∧ p.2 < c.nsites ∧ occC c det p.1 = .hole ∧ occC c det p.2 ≠ .hole ∧
        c.bond.e p.1 p.2 = 1) ∧
      computeHopping S c det = .ok (L.map (fun p => detOf c.nsites (swapOcc (occC c det) p.1 p.2)))) := by
    intro det
    by_cases hv : ValidDet c.nsites det
    · obtain ⟨L, h⟩ := computeHopping_eq S hf hv hn
      exact ⟨L, fun _ => h⟩
    · exact ⟨[], fun h => absurd h hv⟩
  choose L hL using hex
  by_cases h0 : c.nholes > 0
  · unfold addHopping
    rw [if_pos h0]
    apply term_of_rows (B := fun i det => addImages c i I.t ((L det).map (fun p => detOf c.nsites (swapOcc (occC c det) p.1 p.2))))
    · intro i d hd
      exact bind_ok (hL d (valid_getElem hb hd)).2.2 rfl
    · intro i d t ht
      obtain ⟨_, _, rfl⟩ := mem_addImages.1 ht
      rfl
    · intro i d hd t ht
      obtain ⟨im, him, rfl⟩ := mem_addImages.1 ht
      obtain ⟨p, hp, rfl⟩ := List.mem_map.1 him
      have hv := valid_getElem hb hd
      have hm := ((hL d hv).2.1 p).1 hp
      exact (idx_swap hn hb hv ⟨p.1, hm.1⟩ ⟨p.2, hm.2.1⟩).1
    · intro i hi j hj
      have hv := valid_getElem hb (List.getElem?_eq_getElem hi)
      obtain ⟨hnd, hmem, _⟩ := hL _ hv
      rw [cooEntry_images, sum_pairs (n := c.nsites) (Q := fun a b => occC c dets[i] a = .hole ∧
        occC c dets[i] b ≠ .hole ∧ Near (pos a) (pos b)) hnd ?_
        (fun a b => if getIndexInBasis c (detOf c.nsites (swapOcc (occC c dets[i]) a b)) = j then I.t else 0)]
      · unfold hopEl
        refine sum_congr rfl (fun a _ => sum_congr rfl (fun b _ => ?_))
        simp only [(idx_swap hn hb hv a b).2 j hj]
        rw [← ite_and]
        refine if_congr ?_ rfl rfl
        simp only [and_assoc]
      · intro x
        rw [hmem]
        constructor
        · rintro ⟨h1, h2, h3, h4, h5⟩
          exact ⟨⟨x.1, h1⟩, ⟨x.2, h2⟩, rfl, h3, h4, (g.bond_iff h1 h2).1 h5⟩
        · rintro ⟨a, b, rfl, h1, h2, h3⟩
          exact ⟨a.2, b.2, h1, h2, (g.bond_iff a.2 b.2).2 h3⟩
  · refine ⟨[], by unfold addHopping; rw [if_neg h0], by simp, ?_⟩
    intro i hi j hj
    rw [cooEntry_nil]
    symm
    apply sum_eq_zero
    intro a _
    apply sum_eq_zero
    intro b _
    rw [if_neg]
    rintro ⟨h, _⟩
    exact no_holes (by omega) _ _ h

theorem straight_iff {g : GeomLattice E c pos} {a m b : Nat} (ha : a < c.nsites) (hb : b < c.nsites) (hab : a ≠ b)
    (h1 : Near (pos a) (pos m)) (h2 : Near (pos m) (pos b)) :
    Aligned (pos a) (pos m) (pos b) ↔ ((pos a).1 = (pos b).1 ∨ (pos a).2 = (pos b).2) := by
  have hne : pos a ≠ pos b := fun h => hab (g.inj a ha b hb h)
  have : (pos a).1 ≠ (pos b).1 ∨ (pos a).2 ≠ (pos b).2 := by
    by_contra h
    push Not at h
    exact hne (Prod.ext h.1 h.2)
  unfold Aligned
  unfold Near at h1 h2
  omega

theorem addNextHopping_spec (g : GeomLattice E c pos) (hf : c.Full) (hn : c.nholes + c.nbeta ≤ c.nsites)
    (hb : constructBasis c = .ok dets) :
    ∃ l, addNextHopping E c dets I = .ok l ∧ IsTerm c dets l (nextEl I (fpos c.nsites pos)) := by
  have hlin : ∀ a < c.nsites, ∀ m < c.nsites, ∀ b < c.nsites, a ≠ b → c.bond.e a m = 1 → c.bond.e m b = 1 →
      isBondLinear E c b m a = .ok (decide ((pos a).1 = (pos b).1 ∨ (pos a).2 = (pos b).2)) := by
    intro a ha m hm b hb hab h1 h2
    rw [g.bond_iff ha hm] at h1
    rw [g.bond_iff hm hb] at h2
    rw [g.linear a ha m hm b hb hab h1 h2 b m a (List.reverse_perm [a, m, b])]
    simp only [straight_iff (g := g) ha hb hab h1 h2]
  have hex : ∀ det, ∃ W : List ((Nat × Nat) × Bool), ValidDet c.nsites det → ((W.map Prod.fst).Nodup ∧
      (∀ p, p ∈ W.map Prod.fst ↔ NextPair c (occC c det) p.1 p.2) ∧
      (∀ w ∈ W, w.2 = decide ((pos w.1.1).1 = (pos w.1.2).1 ∨ (pos w.1.1).2 = (pos w.1.2).2)) ∧
      computeNextHopping E c det = .ok
        ((W.filter (fun w => w.2)).map (fun w => detOf c.nsites (swapOcc (occC c det) w.1.1 w.1.2)),
         (W.filter (fun w => !w.2)).map (fun w => detOf c.nsites (swapOcc (occC c det) w.1.1 w.1.2)))) := by
    intro det
    by_cases hv : ValidDet c.nsites det
    · obtain ⟨W, h1, h2, h3, h4⟩ := computeNextHopping_eq E hf hv
        (fun a ha m hm b hb hab h1 h2 => ⟨_, hlin a ha m hm b hb hab h1 h2⟩)
      refine ⟨W, fun _ => ⟨h1, h2, ?_, h4⟩⟩
      intro w hw
      obtain ⟨m, hm, m1, m2, m3⟩ := h3 w hw
      have hp := (h2 w.1).1 (List.mem_map.2 ⟨w, hw, rfl⟩)
      have := (hlin w.1.1 hp.1 m hm w.1.2 hp.2.1 (fun h => hp.2.2.2.1 (h ▸ hp.2.2.1)) m1 m2).symm.trans m3
      exact (Except.ok.inj this).symm
    · exact ⟨[], fun h => absurd h hv⟩
  choose W hW using hex
  by_cases h0 : c.nholes > 0
  · unfold addNextHopping
    rw [if_pos h0]
    apply term_of_rows (B := fun i det =>
      addImages c i I.tnNNN (((W det).filter (fun w => w.2)).map (fun w => detOf c.nsites (swapOcc (occC c det) w.1.1 w.1.2))) ++
      addImages c i I.tNNN (((W det).filter (fun w => !w.2)).map (fun w => detOf c.nsites (swapOcc (occC c det) w.1.1 w.1.2))))
    · intro i d hd
      exact bind_ok (hW d (valid_getElem hb hd)).2.2.2 rfl
    · intro i d t ht
      rcases List.mem_append.1 ht with ht | ht
      · obtain ⟨_, _, rfl⟩ := mem_addImages.1 ht; rfl
      · obtain ⟨_, _, rfl⟩ := mem_addImages.1 ht; rfl
    · intro i d hd t ht
      have hv := valid_getElem hb hd
      have key : ∀ w ∈ W d, getIndexInBasis c (detOf c.nsites (swapOcc (occC c d) w.1.1 w.1.2)) < dets.length := by
        intro w hw
        have hp := ((hW d hv).2.1 w.1).1 (List.mem_map.2 ⟨w, hw, rfl⟩)
        exact (idx_swap hn hb hv ⟨w.1.1, hp.1⟩ ⟨w.1.2, hp.2.1⟩).1
      rcases List.mem_append.1 ht with ht | ht
      · obtain ⟨im, him, rfl⟩ := mem_addImages.1 ht
        obtain ⟨w, hw, rfl⟩ := List.mem_map.1 him
        exact key w (List.mem_filter.1 hw).1
      · obtain ⟨im, him, rfl⟩ := mem_addImages.1 ht
        obtain ⟨w, hw, rfl⟩ := List.mem_map.1 him
        exact key w (List.mem_filter.1 hw).1
    · intro i hi j hj
      have hv := valid_getElem hb (List.getElem?_eq_getElem hi)
      obtain ⟨hnd, hmem, hlab, _⟩ := hW _ hv
      rw [cooEntry_append, cooEntry_images, cooEntry_images,
        sum_filter_bool (W dets[i]) (fun w => w.2)]
      have hsum : (W dets[i]).map (fun w => if w.2 = true then
            (if getIndexInBasis c (detOf c.nsites (swapOcc (occC c dets[i]) w.1.1 w.1.2)) = j then I.tnNNN else 0)
          else (if getIndexInBasis c (detOf c.nsites (swapOcc (occC c dets[i]) w.1.1 w.1.2)) = j then I.tNNN else 0)) =
          ((W dets[i]).map Prod.fst).map (fun p =>
            if getIndexInBasis c (detOf c.nsites (swapOcc (occC c dets[i]) p.1 p.2)) = j then
              (if (pos p.1).1 = (pos p.2).1 ∨ (pos p.1).2 = (pos p.2).2 then I.tnNNN else I.tNNN) else 0) := by
        rw [List.map_map]
        apply List.map_congr_left
        intro w hw
        simp only [Function.comp_apply]
        rw [hlab w hw]
        simp only [decide_eq_true_eq]
        split_ifs <;> rfl
      rw [hsum, sum_pairs (n := c.nsites) (Q := fun a b => occC c dets[i] a = .hole ∧
        occC c dets[i] b ≠ .hole ∧ ∃ m : Fin c.nsites, Near (pos a) (pos m) ∧ Near (pos m) (pos b)) hnd ?_
        (fun a b => if getIndexInBasis c (detOf c.nsites (swapOcc (occC c dets[i]) a b)) = j then
              (if (pos a).1 = (pos b).1 ∨ (pos a).2 = (pos b).2 then I.tnNNN else I.tNNN) else 0)]
      · unfold nextEl
        refine sum_congr rfl (fun a _ => sum_congr rfl (fun b _ => ?_))
        simp only [(idx_swap hn hb hv a b).2 j hj]
        rw [← ite_and]
        refine if_congr ?_ rfl rfl
        simp only [and_assoc]
      · intro x
        rw [hmem]
        unfold NextPair
        constructor
        · rintro ⟨h1, h2, h3, h4, m, h5, h6, h7⟩
          exact ⟨⟨x.1, h1⟩, ⟨x.2, h2⟩, rfl, h3, h4, ⟨m, h5⟩, (g.bond_iff h1 h5).1 h6, (g.bond_iff h5 h2).1 h7⟩
        · rintro ⟨a, b, rfl, h1, h2, m, h3, h4⟩
          exact ⟨a.2, b.2, h1, h2, m, m.2, (g.bond_iff a.2 m.2).2 h3, (g.bond_iff m.2 b.2).2 h4⟩
  · refine ⟨[], by unfold addNextHopping; rw [if_neg h0], by simp, ?_⟩
    intro i hi j hj
    rw [cooEntry_nil]
    symm
    apply sum_eq_zero
    intro a _
    apply sum_eq_zero
    intro b _
    rw [if_neg]
    rintro ⟨h, _⟩
    exact no_holes (by omega) _ _ h

theorem addFlip_spec (g : TJLattice E c pos) (hf : c.Full) (hn : c.nholes + c.nbeta ≤ c.nsites)
    (hb : constructBasis c = .ok dets) :
    ∃ l, addFlip E.toSetSem c dets I = .ok l ∧ IsTerm c dets l (flipEl I (fpos c.nsites pos)) := by
  let F : List Nat → Nat × Nat → List Nat := fun det p => detOf c.nsites (swapOcc (occC c det) p.1 p.2)
  let cls : List Nat → Nat × Nat → BondClass := fun det p => clsN c.nsites pos (occC c det) p.1 p.2
  have hex : ∀ det, ∃ L : List (Nat × Nat), ValidDet c.nsites det → (L.Nodup ∧
      (∀ p, p ∈ L ↔ p.1 < p.2 ∧ p.2 < c.nsites ∧ Near (pos p.1) (pos p.2) ∧ occC c det p.1 ≠ .hole ∧
        occC c det p.2 ≠ .hole ∧ occC c det p.1 ≠ occC c det p.2) ∧
      computeFlip E.toSetSem c det = .ok
        ((L.filter (fun p => cls det p = .par)).map (F det), (L.filter (fun p => cls det p = .per)).map (F det),
         (L.filter (fun p => cls det p = .undoped)).map (F det))) := by
    intro det
    by_cases hv : ValidDet c.nsites det
    · obtain ⟨L, h⟩ := computeFlip_eq g hf hv
      exact ⟨L, fun _ => h⟩
    · exact ⟨[], fun h => absurd h hv⟩
  choose L hL using hex
  unfold addFlip
  apply term_of_rows (B := fun i det =>
    addImages c i (I.Jhpar / 2) (((L det).filter (fun p => cls det p = .par)).map (F det)) ++
    addImages c i (I.Jhper / 2) (((L det).filter (fun p => cls det p = .per)).map (F det)) ++
    addImages c i (I.J / 2) (((L det).filter (fun p => cls det p = .undoped)).map (F det)))
  · intro i d hd
    exact bind_ok (hL d (valid_getElem hb hd)).2.2 rfl
  · intro i d t ht
    rcases List.mem_append.1 ht with ht | ht
    · rcases List.mem_append.1 ht with ht | ht
      · obtain ⟨_, _, rfl⟩ := mem_addImages.1 ht; rfl
      · obtain ⟨_, _, rfl⟩ := mem_addImages.1 ht; rfl
    · obtain ⟨_, _, rfl⟩ := mem_addImages.1 ht; rfl
  · intro i d hd t ht
    have hv := valid_getElem hb hd
    have key : ∀ p ∈ L d, getIndexInBasis c (F d p) < dets.length := by
      intro p hp
      have hm := ((hL d hv).2.1 p).1 hp
      exact (idx_swap hn hb hv ⟨p.1, by omega⟩ ⟨p.2, hm.2.1⟩).1
    rcases List.mem_append.1 ht with ht | ht
    · rcases List.mem_append.1 ht with ht | ht
      · obtain ⟨im, him, rfl⟩ := mem_addImages.1 ht
        obtain ⟨w, hw, rfl⟩ := List.mem_map.1 him
        exact key w (List.mem_filter.1 hw).1
      · obtain ⟨im, him, rfl⟩ := mem_addImages.1 ht
        obtain ⟨w, hw, rfl⟩ := List.mem_map.1 him
        exact key w (List.mem_filter.1 hw).1
    · obtain ⟨im, him, rfl⟩ := mem_addImages.1 ht
      obtain ⟨w, hw, rfl⟩ := List.mem_map.1 him
      exact key w (List.mem_filter.1 hw).1
  · intro i hi j hj
    have hv := valid_getElem hb (List.getElem?_eq_getElem hi)
    obtain ⟨hnd, hmem, _⟩ := hL _ hv
    rw [cooEntry_append, cooEntry_append, cooEntry_images, cooEntry_images, cooEntry_images]
    have := sum_filter_class (L dets[i]) (cls dets[i])
      (fun cl p => if getIndexInBasis c (F dets[i] p) = j then I.coupling cl / 2 else 0)
    simp only [Interactions.coupling] at this
    rw [this]
    change ((L dets[i]).map (fun p => (fun a b => if getIndexInBasis c (detOf c.nsites (swapOcc (occC c dets[i]) a b)) = j then
        I.coupling (clsN c.nsites pos (occC c dets[i]) a b) / 2 else 0) p.1 p.2)).sum = _
    rw [sum_pairs (n := c.nsites) (Q := fun a b => a < b ∧ Near (pos a) (pos b) ∧ occC c dets[i] a ≠ .hole ∧
        occC c dets[i] b ≠ .hole ∧ occC c dets[i] a ≠ occC c dets[i] b) hnd ?_
        (fun a b => if getIndexInBasis c (detOf c.nsites (swapOcc (occC c dets[i]) a b)) = j then
        I.coupling (clsN c.nsites pos (occC c dets[i]) a b) / 2 else 0)]
    · unfold flipEl
      refine sum_congr rfl (fun a _ => sum_congr rfl (fun b _ => ?_))
      simp only [(idx_swap hn hb hv a b).2 j hj, coupling_clsN]
      rw [← ite_and]
      refine if_congr ?_ rfl rfl
      simp only [and_assoc]
    · intro x
      rw [hmem]
      constructor
      · rintro ⟨h1, h2, h3⟩
        exact ⟨⟨x.1, by omega⟩, ⟨x.2, h2⟩, rfl, h1, h3⟩
      · rintro ⟨a, b, rfl, h1, h2⟩
        exact ⟨h1, b.2, h2⟩

theorem addSD_spec (g : GeomLattice E c pos) (hf : c.Full) (hn : c.nholes + c.nbeta ≤ c.nsites)
    (hb : constructBasis c = .ok dets) :
    ∃ l, addSD E c dets I = .ok l ∧ IsTerm c dets l (sdEl I (fpos c.nsites pos)) := by
  let F : List Nat → Nat × Nat × Nat → List Nat := fun det p => detOf c.nsites (shiftOcc (occC c det) p.1 p.2.1 p.2.2)
  let G : List Nat → Nat × Nat × Nat → List Nat := fun det p => detOf c.nsites (swapOcc (occC c det) p.1 p.2.2)
  let lin : Nat × Nat × Nat → Bool := fun p => decide (Aligned (pos p.1) (pos p.2.1) (pos p.2.2))
  have hex : ∀ det, ∃ L : List (Nat × Nat × Nat), ValidDet c.nsites det → (L.Nodup ∧
      (∀ p, p ∈ L ↔ SDPath c (occC c det) p.1 p.2.1 p.2.2) ∧
      computeSD E c det = .ok ((L.filter (fun p => lin p)).map (fun p => (F det p, G det p)),
         (L.filter (fun p => !lin p)).map (fun p => (F det p, G det p)))) := by
    intro det
    by_cases hv : ValidDet c.nsites det
    · obtain ⟨L, h⟩ := computeSD_eq E hf hv (fun a m b => decide (Aligned (pos a) (pos m) (pos b))) (by
        intro a ha m hm b hb hab h1 h2
        rw [g.bond_iff ha hm] at h1
        rw [g.bond_iff hm hb] at h2
        exact g.linear a ha m hm b hb hab h1 h2 b m a (List.reverse_perm [a, m, b]))
      exact ⟨L, fun _ => h⟩
    · exact ⟨[], fun h => absurd h hv⟩
  choose L hL using hex
  have hne : ∀ det a m b, SDPath c (occC c det) a m b → a ≠ m ∧ a ≠ b ∧ m ≠ b := by
    intro det a m b h
    obtain ⟨h1, h2, h3, h4, h5, h6, _⟩ := h
    have hbe : occC c det b ≠ .hole := by
      rw [h6]; intro h; apply h5
      generalize occC c det m = o at h
      cases o <;> simp_all [Occ.rev]
    refine ⟨fun h => h5 (h ▸ h4), fun h => hbe (h ▸ h4), ?_⟩
    intro h
    rw [← h] at h6
    generalize occC c det m = o at h6 h5
    cases o <;> simp [Occ.rev] at h6 h5
  unfold addSD
  apply term_of_rows (B := fun i det =>
    addPairs c i I.hSDpar (((L det).filter (fun p => lin p)).map (fun p => (F det p, G det p))) ++
    addPairs c i I.hSDper (((L det).filter (fun p => !lin p)).map (fun p => (F det p, G det p))))
  · intro i d hd
    exact bind_ok (hL d (valid_getElem hb hd)).2.2 rfl
  · intro i d t ht
    rcases List.mem_append.1 ht with ht | ht
    · obtain ⟨_, _, rfl | rfl⟩ := mem_addPairs.1 ht <;> rfl
    · obtain ⟨_, _, rfl | rfl⟩ := mem_addPairs.1 ht <;> rfl
  · intro i d hd t ht
    have hv := valid_getElem hb hd
    have key : ∀ p ∈ L d, getIndexInBasis c (F d p) < dets.length ∧ getIndexInBasis c (G d p) < dets.length := by
      intro p hp
      have hm := ((hL d hv).2.1 p).1 hp
      obtain ⟨n1, n2, n3⟩ := hne _ _ _ _ hm
      exact ⟨(idx_shift hn hb hv ⟨p.1, hm.1⟩ ⟨p.2.1, hm.2.1⟩ ⟨p.2.2, hm.2.2.1⟩ (fun h => n1 (Fin.ext_iff.1 h))
        (fun h => n2 (Fin.ext_iff.1 h)) (fun h => n3 (Fin.ext_iff.1 h))).1,
        (idx_swap hn hb hv ⟨p.1, hm.1⟩ ⟨p.2.2, hm.2.2.1⟩).1⟩
    rcases List.mem_append.1 ht with ht | ht
    · obtain ⟨im, him, h⟩ := mem_addPairs.1 ht
      obtain ⟨w, hw, rfl⟩ := List.mem_map.1 him
      have := key w (List.mem_filter.1 hw).1
      rcases h with rfl | rfl
      · exact this.1
      · exact this.2
    · obtain ⟨im, him, h⟩ := mem_addPairs.1 ht
      obtain ⟨w, hw, rfl⟩ := List.mem_map.1 him
      have := key w (List.mem_filter.1 hw).1
      rcases h with rfl | rfl
      · exact this.1
      · exact this.2
  · intro i hi j hj
    have hv := valid_getElem hb (List.getElem?_eq_getElem hi)
    obtain ⟨hnd, hmem, _⟩ := hL _ hv
    rw [cooEntry_append, cooEntry_pairs, cooEntry_pairs, sum_filter_bool (L dets[i]) (fun p => lin p)]
    have h1 : (L dets[i]).map (fun p => if lin p = true then
          I.hSDpar * ((if getIndexInBasis c (F dets[i] p) = j then 1 else 0) - (if getIndexInBasis c (G dets[i] p) = j then 1 else 0))
        else I.hSDper * ((if getIndexInBasis c (F dets[i] p) = j then 1 else 0) - (if getIndexInBasis c (G dets[i] p) = j then 1 else 0))) =
        (L dets[i]).map (fun p => (fun a m b => (if Aligned (pos a) (pos m) (pos b) then I.hSDpar else I.hSDper) *
          ((if getIndexInBasis c (detOf c.nsites (shiftOcc (occC c dets[i]) a m b)) = j then (1 : K) else 0) -
           (if getIndexInBasis c (detOf c.nsites (swapOcc (occC c dets[i]) a b)) = j then (1 : K) else 0))) p.1 p.2.1 p.2.2) := by
      apply List.map_congr_left
      intro p _
      by_cases hl : Aligned (pos p.1) (pos p.2.1) (pos p.2.2)
      · rw [if_pos (show lin p = true from decide_eq_true hl)]
        simp only
        rw [if_pos hl]
      · rw [if_neg (show ¬ lin p = true from fun h => hl (of_decide_eq_true h))]
        simp only
        rw [if_neg hl]
    rw [h1, sum_triples (n := c.nsites) (Q := fun a m b => occC c dets[i] a = .hole ∧ occC c dets[i] m ≠ .hole ∧
        occC c dets[i] b = (occC c dets[i] m).rev ∧ Near (pos a) (pos m) ∧ Near (pos m) (pos b)) hnd ?_
        (fun a m b => (if Aligned (pos a) (pos m) (pos b) then I.hSDpar else I.hSDper) *
          ((if getIndexInBasis c (detOf c.nsites (shiftOcc (occC c dets[i]) a m b)) = j then (1 : K) else 0) -
           (if getIndexInBasis c (detOf c.nsites (swapOcc (occC c dets[i]) a b)) = j then (1 : K) else 0)))]
    · unfold sdEl
      refine sum_congr rfl (fun a _ => sum_congr rfl (fun m _ => sum_congr rfl (fun b _ => ?_)))
      by_cases hq : occC c dets[i] a = .hole ∧ occC c dets[i] m ≠ .hole ∧
          occC c dets[i] b = (occC c dets[i] m).rev ∧ Near (pos a) (pos m) ∧ Near (pos m) (pos b)
      · rw [if_pos hq, if_pos hq]
        obtain ⟨n1, n2, n3⟩ := hne dets[i] a m b ⟨a.2, m.2, b.2, hq.1, hq.2.1, hq.2.2.1, (g.bond_iff a.2 m.2).2 hq.2.2.2.1,
          (g.bond_iff m.2 b.2).2 hq.2.2.2.2⟩
        simp only [(idx_swap hn hb hv a b).2 j hj, (idx_shift hn hb hv a m b (fun h => n1 (Fin.ext_iff.1 h))
          (fun h => n2 (Fin.ext_iff.1 h)) (fun h => n3 (Fin.ext_iff.1 h))).2 j hj]
      · rw [if_neg hq, if_neg hq]
    · intro x
      rw [hmem]
      unfold SDPath
      constructor
      · rintro ⟨h1, h2, h3, h4, h5, h6, h7, h8⟩
        exact ⟨⟨x.1, h1⟩, ⟨x.2.1, h2⟩, ⟨x.2.2, h3⟩, rfl, h4, h5, h6, (g.bond_iff h1 h2).1 h7, (g.bond_iff h2 h3).1 h8⟩
      · rintro ⟨a, m, b, rfl, h1, h2, h3, h4, h5⟩
        exact ⟨a.2, m.2, b.2, h1, h2, h3, (g.bond_iff a.2 m.2).2 h4, (g.bond_iff m.2 b.2).2 h5⟩

theorem IsTerm.zero : IsTerm c dets ([] : Coo K) (fun _ _ => 0) := ⟨by simp, fun _ _ _ _ => rfl⟩

theorem IsTerm.add {l m : Coo K} {e f : Conf c.nsites → Conf c.nsites → K} (h : IsTerm c dets l e) (h' : IsTerm c dets m f) :
    IsTerm c dets (l ++ m) (fun σ τ => e σ τ + f σ τ) := by
  refine ⟨?_, ?_⟩
  · intro t ht
    exact (List.mem_append.1 ht).elim (h.1 t) (h'.1 t)
  · intro i hi j hj
    rw [cooEntry_append, h.2 i hi j hj, h'.2 i hi j hj]

/-- The selected term or nothing. -/
theorem term_sel {f : Py (Coo K)} {e : Conf c.nsites → Conf c.nsites → K} (b : Bool)
    (h : ∃ l, f = .ok l ∧ IsTerm c dets l e) :
    ∃ l, selected b f = .ok l ∧ IsTerm c dets l (fun σ τ => if b then e σ τ else 0) := by
  cases b
  · exact ⟨[], rfl, IsTerm.zero⟩
  · exact h

/-- The Hamiltonian exists and has the textbook matrix elements. -/
theorem buildHamiltonian_spec (g : TJLattice E c pos) (hf : c.Full) (hn : c.nholes + c.nbeta ≤ c.nsites)
    (hb : constructBasis c = .ok dets) (B : BoolInteractions) (r : List Nat) (v : Bool) :
    ∃ H, buildHamiltonian E c I dets B r v = .ok H ∧ H.dim = dets.length ∧
      IsTerm c dets H.coo (hamEl I (fpos c.nsites pos) B) := by
  obtain ⟨l1, e1, t1⟩ := term_sel B.bt (addHopping_spec I E.toSetSem g.toGeomLattice hf hn hb)
  obtain ⟨l2, e2, t2⟩ := term_sel B.bz (addStatic_spec I g.toGeomLattice hf hb)
  obtain ⟨l3, e3, t3⟩ := term_sel B.bij (addFlip_spec I g hf hn hb)
  obtain ⟨l4, e4, t4⟩ := term_sel B.bSD (addSD_spec I g.toGeomLattice hf hn hb)
  obtain ⟨l5, e5, t5⟩ := term_sel B.btN (addNextHopping_spec I g.toGeomLattice hf hn hb)
  obtain ⟨l6, e6, t6⟩ := term_sel B.bV (addRepulsion_spec I g.toGeomLattice hf hb)
  have T := ((((t1.add t2).add t3).add t4).add t5).add t6
  have hdim : computeDimension c.nsites c.nalpha c.nbeta = dets.length := (C02_dimension c dets hb).symm
  refine ⟨⟨dets.length, l1 ++ l2 ++ l3 ++ l4 ++ l5 ++ l6⟩, ?_, rfl, T⟩
  unfold buildHamiltonian
  refine bind_ok e1 (bind_ok e2 (bind_ok e3 (bind_ok e4 (bind_ok e5 (bind_ok e6 ?_)))))
  rw [hdim]
  unfold cooMatrix
  rw [if_pos]
  rw [List.all_eq_true]
  intro t ht
  simpa using T.1 t ht

end

end TJ
