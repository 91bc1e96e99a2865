/-
Static spin term, spin flips and hole repulsion: normal forms.
-/
import Verif.Lemmas.Images2
import Verif.Spec.Hamiltonian

namespace TJ

open Finset

/-! ### Sums over lists of sites -/

theorem sum_list_fintype {α β M : Type} [AddCommMonoid M] [Fintype β] {L : List α} (hL : L.Nodup) {e : β → α}
    (he : Function.Injective e) {Q : β → Prop} [DecidablePred Q] (hmem : ∀ x, x ∈ L ↔ ∃ y, e y = x ∧ Q y) (g : α → M) :
    (L.map g).sum = ∑ y, if Q y then g (e y) else 0 := by
  have hp : L.Perm ((univ.filter Q).toList.map e) := by
    refine (List.perm_ext_iff_of_nodup hL ((Finset.nodup_toList _).map he)).2 ?_
    intro x
    rw [hmem, List.mem_map]
    constructor
    · rintro ⟨y, rfl, h⟩; exact ⟨y, by simp [h], rfl⟩
    · rintro ⟨y, h, rfl⟩; exact ⟨y, rfl, by simpa using h⟩
  rw [(hp.map g).sum_eq, List.map_map, ← Finset.sum_filter, ← Finset.sum_map_toList]
  rfl

theorem sum_sites {M : Type} [AddCommMonoid M] {n : Nat} {L : List Nat} (hL : L.Nodup) {Q : Fin n → Prop}
    [DecidablePred Q] (hmem : ∀ x, x ∈ L ↔ ∃ y : Fin n, y.val = x ∧ Q y) (g : Nat → M) :
    (L.map g).sum = ∑ y : Fin n, if Q y then g y else 0 :=
  sum_list_fintype hL Fin.val_injective hmem g

theorem sum_pairs {M : Type} [AddCommMonoid M] {n : Nat} {L : List (Nat × Nat)} (hL : L.Nodup)
    {Q : Fin n → Fin n → Prop} [∀ a b, Decidable (Q a b)]
    (hmem : ∀ x, x ∈ L ↔ ∃ a b : Fin n, (a.val, b.val) = x ∧ Q a b) (g : Nat → Nat → M) :
    (L.map (fun p => g p.1 p.2)).sum = ∑ a : Fin n, ∑ b : Fin n, if Q a b then g a b else 0 := by
  have := sum_list_fintype (β := Fin n × Fin n) (e := fun y => (y.1.val, y.2.val)) (Q := fun y => Q y.1 y.2) hL
    (by intro x y h; simp only [Prod.mk.injEq] at h; exact Prod.ext (Fin.ext h.1) (Fin.ext h.2))
    (by
      intro x
      rw [hmem]
      constructor
      · rintro ⟨a, b, h1, h2⟩; exact ⟨(a, b), h1, h2⟩
      · rintro ⟨y, h1, h2⟩; exact ⟨y.1, y.2, h1, h2⟩) (fun p => g p.1 p.2)
  rw [this, Fintype.sum_prod_type]

theorem sum_triples {M : Type} [AddCommMonoid M] {n : Nat} {L : List (Nat × Nat × Nat)} (hL : L.Nodup)
    {Q : Fin n → Fin n → Fin n → Prop} [∀ a m b, Decidable (Q a m b)]
    (hmem : ∀ x, x ∈ L ↔ ∃ a m b : Fin n, (a.val, m.val, b.val) = x ∧ Q a m b) (g : Nat → Nat → Nat → M) :
    (L.map (fun p => g p.1 p.2.1 p.2.2)).sum = ∑ a : Fin n, ∑ m : Fin n, ∑ b : Fin n, if Q a m b then g a m b else 0 := by
  have := sum_list_fintype (β := Fin n × Fin n × Fin n) (e := fun y => (y.1.val, y.2.1.val, y.2.2.val))
    (Q := fun y => Q y.1 y.2.1 y.2.2) hL
    (by
      intro x y h
      simp only [Prod.mk.injEq] at h
      exact Prod.ext (Fin.ext h.1) (Prod.ext (Fin.ext h.2.1) (Fin.ext h.2.2)))
    (by
      intro x
      rw [hmem]
      constructor
      · rintro ⟨a, m, b, h1, h2⟩; exact ⟨(a, m, b), h1, h2⟩
      · rintro ⟨y, h1, h2⟩; exact ⟨y.1, y.2.1, y.2.2, h1, h2⟩) (fun p => g p.1 p.2.1 p.2.2)
  rw [this]
  simp only [Fintype.sum_prod_type]

/-! ### Classes of bonds -/

/-- `HoleNext` on site numbers. -/
def HoleNextN (n : Nat) (pos : Nat → Pt) (σ : Nat → Occ) (a b : Nat) : Prop :=
  ∃ x, x < n ∧ σ x = .hole ∧ (Near (pos a) (pos x) ∨ Near (pos b) (pos x))

/-- `HoleInline` on site numbers. -/
def HoleInlineN (n : Nat) (pos : Nat → Pt) (σ : Nat → Occ) (a b : Nat) : Prop :=
  ∃ x, x < n ∧ σ x = .hole ∧ (Near (pos a) (pos x) ∨ Near (pos b) (pos x)) ∧ Aligned (pos a) (pos b) (pos x)

open Classical in
/-- The class of a bond. -/
noncomputable def clsN (n : Nat) (pos : Nat → Pt) (σ : Nat → Occ) (a b : Nat) : BondClass :=
  if HoleInlineN n pos σ a b then .par else if HoleNextN n pos σ a b then .per else .undoped

/-- The occupation of a determinant. -/
abbrev confOf (c : Config) (det : List Nat) : Conf c.nsites := fun s => occC c det s

/-- Positions of the sites. -/
abbrev fpos (n : Nat) (pos : Nat → Pt) : Fin n → Pt := fun s => pos s

theorem holeNextN_iff {c : Config} {pos : Nat → Pt} {det : List Nat} (a b : Fin c.nsites) :
    HoleNextN c.nsites pos (occC c det) a b ↔ HoleNext (fpos c.nsites pos) (confOf c det) a b := by
  unfold HoleNextN HoleNext
  constructor
  · rintro ⟨x, hx, h⟩; exact ⟨⟨x, hx⟩, h⟩
  · rintro ⟨x, h⟩; exact ⟨x, x.2, h⟩

theorem holeInlineN_iff {c : Config} {pos : Nat → Pt} {det : List Nat} (a b : Fin c.nsites) :
    HoleInlineN c.nsites pos (occC c det) a b ↔ HoleInline (fpos c.nsites pos) (confOf c det) a b := by
  unfold HoleInlineN HoleInline
  constructor
  · rintro ⟨x, hx, h⟩; exact ⟨⟨x, hx⟩, h⟩
  · rintro ⟨x, h⟩; exact ⟨x, x.2, h⟩

theorem coupling_clsN {K : Type} [Field K] (I : Interactions K) {c : Config} {pos : Nat → Pt} {det : List Nat}
    (a b : Fin c.nsites) :
    I.coupling (clsN c.nsites pos (occC c det) a b) = Jeff I (fpos c.nsites pos) (confOf c det) a b := by
  unfold clsN Jeff
  simp only [holeNextN_iff, holeInlineN_iff]
  split_ifs <;> rfl

theorem GeomLattice.bond_iff {E : Env} {c : Config} {pos : Nat → Pt} (g : GeomLattice E c pos) {i j : Nat}
    (hi : i < c.nsites) (hj : j < c.nsites) : c.bond.e i j = 1 ↔ Near (pos i) (pos j) := by
  rw [g.bond i hi j hj]
  split_ifs with h <;> simp [h]

theorem not_near_self (p : Pt) : ¬ Near p p := by unfold Near; omega

theorem aligned_rot {p q r : Pt} : Aligned q p r ↔ Aligned p q r := by
  unfold Aligned
  constructor <;> rintro (⟨a, b⟩ | ⟨a, b⟩)
  · exact Or.inl ⟨a.symm, a.trans b⟩
  · exact Or.inr ⟨a.symm, a.trans b⟩
  · exact Or.inl ⟨a.symm, a.trans b⟩
  · exact Or.inr ⟨a.symm, a.trans b⟩

theorem getIndexesOf_zero (S : SetSem) {c : Config} (hf : c.Full) {det : List Nat} (hv : ValidDet c.nsites det) :
    ∃ hs, getIndexesOf S c det 0 = .ok hs ∧ hs.Nodup ∧ ∀ s, s ∈ hs ↔ s < c.nsites ∧ occC c det s = .hole := by
  obtain ⟨hs, e0, p0⟩ := getIndexesOf_full S hf hv .hole false
  exact ⟨hs, e0, p0.nodup_iff.2 (sitesOf_nodup _ _ _), fun s => by rw [p0.mem_iff, mem_sitesOf]⟩

section
variable {E : Env} {c : Config} {pos : Nat → Pt}

theorem staticClass_eq (g : GeomLattice E c pos) (hf : c.Full) {det : List Nat} (hv : ValidDet c.nsites det)
    {a b : Nat} (ha : a < c.nsites) (hb : b < c.nsites) (hlt : a < b) (hab : Near (pos a) (pos b))
    (hae : occC c det a ≠ .hole) (hbe : occC c det b ≠ .hole) :
    staticClass E c det (a, b) = .ok (clsN c.nsites pos (occC c det) a b) := by
  obtain ⟨hs, e0, hnd, hmem⟩ := getIndexesOf_zero E.toSetSem hf hv
  unfold staticClass
  simp only [Nat.min_eq_left (Nat.le_of_lt hlt), Nat.max_eq_right (Nat.le_of_lt hlt)]
  refine bind_ok (nbl_spec E.toSetSem c.bond (.list []) ha).1 (bind_ok (nbl_spec E.toSetSem c.bond (.list []) hb).1
    (bind_ok e0 ?_))
  set hole0 := E.inter ((nbl E.toSetSem c.bond (.list []) a).filter (fun s => s ≠ b)) hs with d0
  set hole1 := E.inter ((nbl E.toSetSem c.bond (.list []) b).filter (fun s => s ≠ a)) hs with d1
  have m0 : ∀ x, x ∈ hole0 ↔ x < c.nsites ∧ occC c det x = .hole ∧ Near (pos a) (pos x) := by
    intro x
    rw [d0, E.mem_inter, List.mem_filter, mem_nbl_nil ha, hmem]
    constructor
    · rintro ⟨⟨⟨h1, h2⟩, _⟩, h3⟩
      exact ⟨h1, h3.2, (g.bond_iff ha h1).1 h2⟩
    · rintro ⟨h1, h2, h3⟩
      refine ⟨⟨⟨h1, (g.bond_iff ha h1).2 h3⟩, ?_⟩, h1, h2⟩
      have : x ≠ b := fun h => hbe (h ▸ h2)
      simpa using this
  have m1 : ∀ x, x ∈ hole1 ↔ x < c.nsites ∧ occC c det x = .hole ∧ Near (pos b) (pos x) := by
    intro x
    rw [d1, E.mem_inter, List.mem_filter, mem_nbl_nil hb, hmem]
    constructor
    · rintro ⟨⟨⟨h1, h2⟩, _⟩, h3⟩
      exact ⟨h1, h3.2, (g.bond_iff hb h1).1 h2⟩
    · rintro ⟨h1, h2, h3⟩
      refine ⟨⟨⟨h1, (g.bond_iff hb h1).2 h3⟩, ?_⟩, h1, h2⟩
      have : x ≠ a := fun h => hae (h ▸ h2)
      simpa using this
  have hlins : (hole0 ++ hole1).mapM (fun h => isBondLinear E c b a h) =
      .ok ((hole0 ++ hole1).map (fun h => decide (Aligned (pos a) (pos b) (pos h)))) := by
    apply mapM_ok
    intro x hx
    rcases List.mem_append.1 hx with hx | hx
    · obtain ⟨h1, h2, h3⟩ := (m0 x).1 hx
      rw [g.linear b hb a ha x h1 (fun h => hbe (h ▸ h2)) ((near_comm _ _).1 hab) h3 b a x (List.Perm.refl _)]
      simp only [aligned_rot]
    · obtain ⟨h1, h2, h3⟩ := (m1 x).1 hx
      rw [g.linear a ha b hb x h1 (fun h => hae (h ▸ h2)) hab h3 b a x (List.Perm.swap _ _ _)]
  refine bind_ok hlins ?_
  have hne0 : hole0 ≠ [] ↔ ∃ x, x ∈ hole0 := by
    rw [← List.length_pos_iff, List.length_pos_iff_exists_mem]
  have hne1 : hole1 ≠ [] ↔ ∃ x, x ∈ hole1 := by
    rw [← List.length_pos_iff, List.length_pos_iff_exists_mem]
  have hnext : (hole0 ≠ [] ∨ hole1 ≠ []) ↔ HoleNextN c.nsites pos (occC c det) a b := by
    rw [hne0, hne1]
    unfold HoleNextN
    constructor
    · rintro (⟨x, h⟩ | ⟨x, h⟩)
      · rw [m0] at h; exact ⟨x, h.1, h.2.1, Or.inl h.2.2⟩
      · rw [m1] at h; exact ⟨x, h.1, h.2.1, Or.inr h.2.2⟩
    · rintro ⟨x, h1, h2, h3 | h3⟩
      · exact Or.inl ⟨x, (m0 x).2 ⟨h1, h2, h3⟩⟩
      · exact Or.inr ⟨x, (m1 x).2 ⟨h1, h2, h3⟩⟩
  have hin : true ∈ (hole0 ++ hole1).map (fun h => decide (Aligned (pos a) (pos b) (pos h))) ↔
      HoleInlineN c.nsites pos (occC c det) a b := by
    rw [List.mem_map]
    unfold HoleInlineN
    constructor
    · rintro ⟨x, h, h'⟩
      have h' : Aligned (pos a) (pos b) (pos x) := by simpa using h'
      rcases List.mem_append.1 h with h | h
      · rw [m0] at h; exact ⟨x, h.1, h.2.1, Or.inl h.2.2, h'⟩
      · rw [m1] at h; exact ⟨x, h.1, h.2.1, Or.inr h.2.2, h'⟩
    · rintro ⟨x, h1, h2, h3, h4⟩
      refine ⟨x, ?_, by simpa using h4⟩
      rw [List.mem_append]
      rcases h3 with h3 | h3
      · exact Or.inl ((m0 x).2 ⟨h1, h2, h3⟩)
      · exact Or.inr ((m1 x).2 ⟨h1, h2, h3⟩)
  have himp : HoleInlineN c.nsites pos (occC c det) a b → HoleNextN c.nsites pos (occC c det) a b := by
    rintro ⟨x, h1, h2, h3, _⟩; exact ⟨x, h1, h2, h3⟩
  unfold clsN
  by_cases q1 : HoleInlineN c.nsites pos (occC c det) a b
  · rw [if_pos ⟨hnext.2 (himp q1), hin.2 q1⟩, if_pos q1]; rfl
  · rw [if_neg (fun h => q1 (hin.1 h.2)), if_neg q1]
    by_cases q2 : HoleNextN c.nsites pos (occC c det) a b
    · rw [if_pos q2]
      have h := hnext.2 q2
      have h' : hole0 ≠ [] ∨ (hole1 ≠ [] ∧ true ∉ (hole0 ++ hole1).map (fun h => decide (Aligned (pos a) (pos b) (pos h)))) :=
        h.imp id (fun h => ⟨h, fun k => q1 (hin.1 k)⟩)
      rw [if_pos h']; rfl
    · rw [if_neg q2, if_neg]
      · rfl
      · rintro (h | h)
        · exact q2 (hnext.1 (Or.inl h))
        · exact q2 (hnext.1 (Or.inr h.1))

theorem Occ.twice_mul_ne_zero {o o' : Occ} : o.twice * o'.twice ≠ 0 ↔ o ≠ .hole ∧ o' ≠ .hole := by
  cases o <;> cases o' <;> decide

theorem Occ.twice_mul_neg {o o' : Occ} : o.twice * o'.twice = -1 ↔ o ≠ .hole ∧ o' ≠ .hole ∧ o ≠ o' := by
  cases o <;> cases o' <;> decide

/-- The list of bonds of an unrestricted lattice. -/
theorem buildBondList_eq (g : GeomLattice E c pos) (hf : c.Full) :
    ∃ L, buildBondList E.toSetSem c.bond c.restrArg = .ok L ∧ L.Nodup ∧
      ∀ p, p ∈ L ↔ p.1 < p.2 ∧ p.2 < c.nsites ∧ Near (pos p.1) (pos p.2) := by
  have h := nodup_bondGo E.toSetSem c.bond c.restr.1 c.restr.2
  refine ⟨_, ?_, h, ?_⟩
  · unfold buildBondList Config.restrArg
    rfl
  · intro p
    rw [show p = (p.1, p.2) from rfl, mem_bondGo]
    constructor
    · rintro ⟨h1, h2, h3, h4, h5⟩
      have h4' : p.2 < c.nsites := h4
      rw [g.bond_iff (by omega) h4'] at h5
      refine ⟨lt_of_le_of_ne h3 ?_, h4, h5⟩
      intro h
      rw [h] at h5
      exact not_near_self _ h5
    · rintro ⟨h1, h2, h3⟩
      refine ⟨(hf _ (by omega)).1, (hf _ h2).2, h1.le, h2, (g.bond_iff (by omega) h2).2 h3⟩

open Classical in
theorem staticBond_eq {K : Type} [Field K] (I : Interactions K) (g : GeomLattice E c pos) (hf : c.Full) {det : List Nat}
    (hv : ValidDet c.nsites det) {a b : Nat} (ha : a < c.nsites) (hb : b < c.nsites) (hlt : a < b)
    (hab : Near (pos a) (pos b)) :
    staticBond E c I det (a, b) = .ok (if occC c det a ≠ .hole ∧ occC c det b ≠ .hole then
      I.coupling (clsN c.nsites pos (occC c det) a b) * ((occC c det a).val * (occC c det b).val - 1 / 4) else 0) := by
  unfold staticBond
  refine bind_ok (getSpinSite_eq (hv.mem.2 ha)) (bind_ok (getSpinSite_eq (hv.mem.2 hb)) ?_)
  by_cases h : occC c det a ≠ .hole ∧ occC c det b ≠ .hole
  · rw [if_pos h, if_pos (Occ.twice_mul_ne_zero.2 h)]
    refine bind_ok (staticClass_eq g hf hv ha hb hlt hab h.1 h.2) ?_
    rw [mul_one]
    rfl
  · rw [if_neg h, if_neg (fun h' => h (Occ.twice_mul_ne_zero.1 h'))]
    rfl

/-- A loop that adds up values. -/
theorem foldlM_sum {α M : Type} [AddCommMonoid M] {f : α → Py M} {v : α → M} :
    ∀ (l : List α) (z : M), (∀ x ∈ l, f x = .ok (v x)) →
      l.foldlM (fun s x => do let y ← f x; return s + y) z = .ok (z + (l.map v).sum)
  | [], z, _ => by simp; rfl
  | x :: l, z, h => by
    rw [List.foldlM_cons]
    refine bind_ok (bind_ok (h x (by simp)) rfl) ?_
    rw [foldlM_sum l _ (fun y hy => h y (List.mem_cons_of_mem _ hy))]
    simp [add_assoc]

theorem computeStatic_eq {K : Type} [Field K] (I : Interactions K) (g : GeomLattice E c pos) (hf : c.Full)
    {det : List Nat} (hv : ValidDet c.nsites det) :
    computeStatic E c I det = .ok (∑ a : Fin c.nsites, ∑ b : Fin c.nsites,
      if a < b ∧ Near (pos a) (pos b) ∧ occC c det a ≠ .hole ∧ occC c det b ≠ .hole
      then Jeff I (fpos c.nsites pos) (confOf c det) a b * ((occC c det a).val * (occC c det b).val - 1 / 4) else 0) := by
  classical
  obtain ⟨L, e1, hnd, hmem⟩ := buildBondList_eq g hf
  unfold computeStatic
  refine bind_ok e1 ?_
  rw [foldlM_sum (v := fun p => if occC c det p.1 ≠ .hole ∧ occC c det p.2 ≠ .hole then
      I.coupling (clsN c.nsites pos (occC c det) p.1 p.2) * ((occC c det p.1).val * (occC c det p.2).val - 1 / 4) else 0)]
  · rw [zero_add]
    congr 1
    rw [sum_pairs (n := c.nsites) (Q := fun a b => a < b ∧ Near (pos a) (pos b)) hnd ?_
      (fun a b => if occC c det a ≠ .hole ∧ occC c det b ≠ .hole then
      I.coupling (clsN c.nsites pos (occC c det) a b) * ((occC c det a).val * (occC c det b).val - 1 / 4) else 0)]
    · refine sum_congr rfl (fun a _ => sum_congr rfl (fun b _ => ?_))
      simp only [coupling_clsN]
      by_cases h1 : a < b ∧ Near (pos a) (pos b)
      · rw [if_pos h1]
        simp only [h1.1, h1.2, true_and]
      · rw [if_neg h1, if_neg (fun h => h1 ⟨h.1, h.2.1⟩)]
    · intro x
      rw [hmem]
      constructor
      · rintro ⟨h1, h2, h3⟩
        exact ⟨⟨x.1, by omega⟩, ⟨x.2, h2⟩, rfl, h1, h3⟩
      · rintro ⟨a, b, rfl, h1, h2⟩
        exact ⟨h1, b.2, h2⟩
  · intro p hp
    obtain ⟨h1, h2, h3⟩ := (hmem p).1 hp
    exact staticBond_eq I g hf hv (by omega) h2 h1 h3

/-! ### Spin flips -/

/-- A lattice of the plane on which equal index differences along a path of two bonds mean
a straight path. -/
structure TJLattice (E : Env) (c : Config) (pos : Nat → Pt) : Prop extends GeomLattice E c pos where
  idx : ∀ a < c.nsites, ∀ m < c.nsites, ∀ b < c.nsites, a ≠ b → Near (pos a) (pos m) → Near (pos m) (pos b) →
    (absDiff b m = absDiff m a ↔ Aligned (pos a) (pos m) (pos b))

theorem RectConf.tj {nbh nbv nb : Nat} (E : Env) (h : RectConf c nbh nbv nb) : TJLattice E c (gridPos (nbh * nb)) :=
  { h.geom E with idx := fun _ _ _ _ _ _ hab h1 h2 => diff_eq_iff_aligned hab h1 h2 }

theorem flipClass_eq (g : TJLattice E c pos) (hf : c.Full) {det : List Nat} (hv : ValidDet c.nsites det)
    {a b : Nat} (ha : a < c.nsites) (hb : b < c.nsites) (hlt : a < b) (hab : Near (pos a) (pos b))
    (hae : occC c det a ≠ .hole) (hbe : occC c det b ≠ .hole) :
    flipClass E.toSetSem c det (a, b) = .ok (clsN c.nsites pos (occC c det) a b) := by
  obtain ⟨hs, e0, hnd, hmem⟩ := getIndexesOf_zero E.toSetSem hf hv
  unfold flipClass
  simp only [Nat.min_eq_left (Nat.le_of_lt hlt), Nat.max_eq_right (Nat.le_of_lt hlt)]
  refine bind_ok (nbl_spec E.toSetSem c.bond (.list []) ha).1 (bind_ok (nbl_spec E.toSetSem c.bond (.list []) hb).1
    (bind_ok e0 ?_))
  set hole0 := E.inter (nbl E.toSetSem c.bond (.list []) a) hs with d0
  set hole1 := E.inter (nbl E.toSetSem c.bond (.list []) b) hs with d1
  have m0 : ∀ x, x ∈ hole0 ↔ x < c.nsites ∧ occC c det x = .hole ∧ Near (pos a) (pos x) := by
    intro x
    rw [d0, E.mem_inter, mem_nbl_nil ha, hmem]
    constructor
    · rintro ⟨⟨h1, h2⟩, h3⟩
      exact ⟨h1, h3.2, (g.bond_iff ha h1).1 h2⟩
    · rintro ⟨h1, h2, h3⟩
      exact ⟨⟨h1, (g.bond_iff ha h1).2 h3⟩, h1, h2⟩
  have m1 : ∀ x, x ∈ hole1 ↔ x < c.nsites ∧ occC c det x = .hole ∧ Near (pos b) (pos x) := by
    intro x
    rw [d1, E.mem_inter, mem_nbl_nil hb, hmem]
    constructor
    · rintro ⟨⟨h1, h2⟩, h3⟩
      exact ⟨h1, h3.2, (g.bond_iff hb h1).1 h2⟩
    · rintro ⟨h1, h2, h3⟩
      exact ⟨⟨h1, (g.bond_iff hb h1).2 h3⟩, h1, h2⟩
  have hne0 : hole0 ≠ [] ↔ ∃ x, x ∈ hole0 := by
    rw [← List.length_pos_iff, List.length_pos_iff_exists_mem]
  have hne1 : hole1 ≠ [] ↔ ∃ x, x ∈ hole1 := by
    rw [← List.length_pos_iff, List.length_pos_iff_exists_mem]
  have hnext : (hole0 ≠ [] ∨ hole1 ≠ []) ↔ HoleNextN c.nsites pos (occC c det) a b := by
    rw [hne0, hne1]
    unfold HoleNextN
    constructor
    · rintro (⟨x, h⟩ | ⟨x, h⟩)
      · rw [m0] at h; exact ⟨x, h.1, h.2.1, Or.inl h.2.2⟩
      · rw [m1] at h; exact ⟨x, h.1, h.2.1, Or.inr h.2.2⟩
    · rintro ⟨x, h1, h2, h3 | h3⟩
      · exact Or.inl ⟨x, (m0 x).2 ⟨h1, h2, h3⟩⟩
      · exact Or.inr ⟨x, (m1 x).2 ⟨h1, h2, h3⟩⟩
  -- index differences
  have k0 : ∀ x, x ∈ hole0 → (absDiff a x = b - a ↔ Aligned (pos a) (pos b) (pos x)) := by
    intro x hx
    obtain ⟨h1, h2, h3⟩ := (m0 x).1 hx
    have := g.idx b hb a ha x h1 (fun h => hbe (h ▸ h2)) ((near_comm _ _).1 hab) h3
    rw [aligned_rot] at this
    rw [← this]
    unfold absDiff
    omega
  have k1 : ∀ x, x ∈ hole1 → (absDiff b x = b - a ↔ Aligned (pos a) (pos b) (pos x)) := by
    intro x hx
    obtain ⟨h1, h2, h3⟩ := (m1 x).1 hx
    rw [← g.idx a ha b hb x h1 (fun h => hae (h ▸ h2)) hab h3]
    unfold absDiff
    omega
  have hin : b - a ∈ hole0.map (fun h => absDiff a h) ++ hole1.map (fun h => absDiff b h) ↔
      HoleInlineN c.nsites pos (occC c det) a b := by
    rw [List.mem_append, List.mem_map, List.mem_map]
    unfold HoleInlineN
    constructor
    · rintro (⟨x, h, h'⟩ | ⟨x, h, h'⟩)
      · have q := (k0 x h).1 h'
        rw [m0] at h; exact ⟨x, h.1, h.2.1, Or.inl h.2.2, q⟩
      · have q := (k1 x h).1 h'
        rw [m1] at h; exact ⟨x, h.1, h.2.1, Or.inr h.2.2, q⟩
    · rintro ⟨x, h1, h2, h3 | h3, h4⟩
      · have := (m0 x).2 ⟨h1, h2, h3⟩
        exact Or.inl ⟨x, this, (k0 x this).2 h4⟩
      · have := (m1 x).2 ⟨h1, h2, h3⟩
        exact Or.inr ⟨x, this, (k1 x this).2 h4⟩
  have himp : HoleInlineN c.nsites pos (occC c det) a b → HoleNextN c.nsites pos (occC c det) a b := by
    rintro ⟨x, h1, h2, h3, _⟩; exact ⟨x, h1, h2, h3⟩
  unfold clsN
  by_cases q1 : HoleInlineN c.nsites pos (occC c det) a b
  · rw [if_pos ⟨hnext.2 (himp q1), hin.2 q1⟩, if_pos q1]; rfl
  · rw [if_neg (fun h => q1 (hin.1 h.2)), if_neg q1]
    by_cases q2 : HoleNextN c.nsites pos (occC c det) a b
    · rw [if_pos q2, if_pos (hnext.2 q2)]; rfl
    · rw [if_neg q2, if_neg (fun h => q2 (hnext.1 h))]; rfl

theorem computeFlip_eq (g : TJLattice E c pos) (hf : c.Full) {det : List Nat} (hv : ValidDet c.nsites det) :
    ∃ L : List (Nat × Nat), L.Nodup ∧
      (∀ p, p ∈ L ↔ p.1 < p.2 ∧ p.2 < c.nsites ∧ Near (pos p.1) (pos p.2) ∧ occC c det p.1 ≠ .hole ∧
        occC c det p.2 ≠ .hole ∧ occC c det p.1 ≠ occC c det p.2) ∧
      computeFlip E.toSetSem c det = .ok
        ((L.filter (fun p => clsN c.nsites pos (occC c det) p.1 p.2 = .par)).map
            (fun p => detOf c.nsites (swapOcc (occC c det) p.1 p.2)),
         (L.filter (fun p => clsN c.nsites pos (occC c det) p.1 p.2 = .per)).map
            (fun p => detOf c.nsites (swapOcc (occC c det) p.1 p.2)),
         (L.filter (fun p => clsN c.nsites pos (occC c det) p.1 p.2 = .undoped)).map
            (fun p => detOf c.nsites (swapOcc (occC c det) p.1 p.2))) := by
  obtain ⟨B, e1, hnd, hmem⟩ := buildBondList_eq g.toGeomLattice hf
  let opp : Nat × Nat → Bool := fun p => decide ((occC c det p.1).twice * (occC c det p.2).twice = -1)
  let F : Nat × Nat → BondClass × List Nat := fun p =>
    (clsN c.nsites pos (occC c det) p.1 p.2, detOf c.nsites (swapOcc (occC c det) p.1 p.2))
  have hper : B.mapM (flipBond E.toSetSem c det) = .ok (B.map (fun p => if opp p then [F p] else [])) := by
    apply mapM_ok
    intro p hp
    obtain ⟨h1, h2, h3⟩ := (hmem p).1 hp
    have h1' : p.1 < c.nsites := by omega
    unfold flipBond
    refine bind_ok (getSpinSite_eq (hv.mem.2 h1')) (bind_ok (getSpinSite_eq (hv.mem.2 h2)) ?_)
    by_cases h : (occC c det p.1).twice * (occC c det p.2).twice = -1
    · have h' := Occ.twice_mul_neg.1 h
      rw [if_pos h, show opp p = true from decide_eq_true h, if_pos rfl]
      exact bind_ok (swapped_eq hv h1' h2) (bind_ok (flipClass_eq g hf hv h1' h2 h1 h3 h'.1 h'.2.1) rfl)
    · rw [if_neg h, show opp p = false from decide_eq_false h, if_neg (by simp)]
      rfl
  have hflat : (B.map (fun p => if opp p then [F p] else [])).flatten = (B.filter opp).map F := by
    clear hper e1 hnd hmem
    induction B with
    | nil => rfl
    | cons x l ih =>
      rw [List.map_cons, List.flatten_cons, ih, List.filter_cons]
      cases opp x <;> simp
  refine ⟨B.filter opp, hnd.filter _, ?_, ?_⟩
  · intro p
    rw [List.mem_filter, hmem]
    have : opp p = true ↔ _ := decide_eq_true_iff
    rw [this, Occ.twice_mul_neg]
    simp only [and_assoc]
  · unfold computeFlip
    refine bind_ok e1 (bind_ok hper ?_)
    rw [hflat]
    simp only [List.filter_map, List.map_map]
    rfl

/-! ### Repulsion of holes -/

theorem diagonal_comm (p q : Pt) : Diagonal p q ↔ Diagonal q p := by unfold Diagonal; omega

end

/-- Number of pairs (first, later) of list members in relation. -/
def pairCount (R : Nat → Nat → Bool) : List Nat → Nat
  | [] => 0
  | x :: l => (l.filter (fun y => R x y)).length + pairCount R l

theorem pairCount_eq {K : Type} [Field K] (R : Nat → Nat → Bool) (hs : ∀ a b, R a b = R b a) (l : List Nat)
    (hl : l.Nodup) : (pairCount R l : K) =
      (l.map (fun a => (l.map (fun b => if a < b ∧ R a b = true then (1 : K) else 0)).sum)).sum := by
  induction l with
  | nil => simp [pairCount]
  | cons x l ih =>
    have hl' := List.nodup_cons.1 hl
    simp only [pairCount, Nat.cast_add]
    rw [ih hl'.2]
    simp only [List.map_cons, List.sum_cons, lt_irrefl, false_and, if_false, zero_add]
    rw [List.sum_map_add]
    rw [← add_assoc]
    congr 1
    rw [← List.sum_map_add]
    -- the new element against the others
    have : ∀ m : List Nat, x ∉ m → ((m.filter (fun y => R x y)).length : K) =
        (m.map (fun b => (if x < b ∧ R x b = true then (1 : K) else 0) + (if b < x ∧ R b x = true then 1 else 0))).sum := by
      intro m
      induction m with
      | nil => simp
      | cons y m ihm =>
        intro hx
        rw [List.mem_cons, not_or] at hx
        rw [List.map_cons, List.sum_cons, ← ihm hx.2, List.filter_cons, hs y x]
        by_cases hR : R x y = true
        · rcases Nat.lt_or_gt_of_ne hx.1 with h | h
          · simp [hR, h, Nat.not_lt_of_gt h, add_comm]
          · simp [hR, h, Nat.not_lt_of_gt h, add_comm]
        · simp [hR]
    exact this l hl'.1

end TJ
