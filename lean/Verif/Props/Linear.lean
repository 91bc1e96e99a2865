/-
Properties C19, C20, C22, C23: the collinearity test and diagonal neighbours.
-/
import Verif.Lemmas.Linear
import Verif.Spec.Occupation

namespace TJ

/-! ### C19 -/

/-- C19. On a rectangular lattice, for three distinct sites of which one (`m`) is bonded to
the other two, `is_bond_linear` returns whether they lie on one line, whatever the order of
the arguments. -/
theorem C19_rectangular_linear (E : Env) (c : Config) (nbh nbv nb : Nat) (hc : RectConf c nbh nbv nb) (a m b : Nat)
    (ha : a < c.nsites) (hm : m < c.nsites) (hb : b < c.nsites) (hab : a ≠ b)
    (h1 : c.bond.e m a = 1) (h2 : c.bond.e m b = 1) (s1 s2 s3 : Nat) (hp : [s1, s2, s3].Perm [a, m, b]) :
    isBondLinear E c s1 s2 s3 =
      .ok (decide (Aligned (gridPos (nbh * nb) a) (gridPos (nbh * nb) m) (gridPos (nbh * nb) b))) := by
  have g := hc.geom E
  rw [g.bond m hm a ha] at h1
  rw [g.bond m hm b hb] at h2
  refine g.linear a ha m hm b hb hab ?_ ?_ s1 s2 s3 hp
  · by_contra h; rw [if_neg (fun h' => h ((near_comm _ _).1 h'))] at h1; exact absurd h1 (by decide)
  · by_contra h; rw [if_neg h] at h2; exact absurd h2 (by decide)

/-- An environment used in examples. -/
def exEnv : Env := { SetSem.sorted with transferIsOne := fun _ _ _ _ => false }

/-- A rectangular configuration, used in examples. -/
def rectConf (nbh nbv nb nholes nbeta : Nat) : Config :=
  match buildRectangularBondMatrix nbh nbv nb with
  | .ok m => ⟨m, nholes, nbeta, (List.range m.rows, List.range m.rows), .periodic, nbh, nbv, nb⟩
  | .error _ => ⟨NdMat.zeros 0 0, nholes, nbeta, ([], []), .periodic, nbh, nbv, nb⟩

/-- A peripheral configuration, used in examples. -/
def periConf (nbh nbv nb nholes nbeta : Nat) : Config :=
  match buildBondMatrixNeelEmbedding nbh nbv nb with
  | .ok m => ⟨m, nholes, nbeta, (List.range m.rows, List.range m.rows), .peripheral, nbh, nbv, nb⟩
  | .error _ => ⟨NdMat.zeros 0 0, nholes, nbeta, ([], []), .peripheral, nbh, nbv, nb⟩

theorem rectConf_ok (nbh nbv nb nholes nbeta : Nat) (h1 : 1 ≤ nbh) (h2 : 1 ≤ nbv) (h3 : 1 ≤ nb) :
    RectConf (rectConf nbh nbv nb nholes nbeta) nbh nbv nb := by
  obtain ⟨m, a, _⟩ := rect_eq nbh nbv nb h1 h2 h3
  refine ⟨h1, h2, h3, ?_, ?_⟩ <;> unfold rectConf <;> rw [a]

theorem periConf_ok (nbh nbv nb nholes nbeta : Nat) (h1 : 1 ≤ nbh) (h2 : 1 ≤ nbv) (h3 : 1 ≤ nb) :
    PeriConf (periConf nbh nbv nb nholes nbeta) := by
  obtain ⟨m, a, _⟩ := neel_eq nbh nbv nb _ _ rfl rfl (Nat.mul_pos h1 h3) (Nat.mul_pos h2 h3)
  have e : periConf nbh nbv nb nholes nbeta =
      ⟨m, nholes, nbeta, (List.range m.rows, List.range m.rows), .peripheral, nbh, nbv, nb⟩ := by
    unfold periConf; rw [a]
  rw [e]
  exact ⟨h1, h2, h3, rfl, a⟩

/-- 3 x 3 lattice: 3-4-5 are aligned, 1-4-5 are not; 2 x 2: 0-1-3 are not. -/
example : isBondLinear exEnv (rectConf 3 3 1 1 1) 5 4 3 = .ok true := by decide
example : isBondLinear exEnv (rectConf 3 3 1 1 1) 5 1 4 = .ok false := by decide
example : isBondLinear exEnv (rectConf 1 3 1 1 1) 2 1 0 = .ok true := by decide
example : RectConf (rectConf 3 3 1 1 1) 3 3 1 := rectConf_ok _ _ _ _ _ (by decide) (by decide) (by decide)

/-! ### C20 -/

/-- C20 on blocks with at least two rows and two columns. The full claim (all block sizes)
is false, see `C20_thin_fails`. -/
theorem C20_peripheral_linear_partial (E : Env) (c : Config) (hc : PeriConf c) (hW : 2 ≤ c.nbh * c.nblocs)
    (hH : 2 ≤ c.nbv * c.nblocs) (a m b : Nat)
    (ha : a < c.nsites) (hm : m < c.nsites) (hb : b < c.nsites) (hab : a ≠ b)
    (h1 : c.bond.e m a = 1) (h2 : c.bond.e m b = 1) (s1 s2 s3 : Nat) (hp : [s1, s2, s3].Perm [a, m, b]) :
    isBondLinear E c s1 s2 s3 =
      .ok (decide (Aligned (periPos (c.nbh * c.nblocs) (c.nbv * c.nblocs) a)
        (periPos (c.nbh * c.nblocs) (c.nbv * c.nblocs) m) (periPos (c.nbh * c.nblocs) (c.nbv * c.nblocs) b))) := by
  have g := hc.geom hW hH E
  rw [g.bond m hm a ha] at h1
  rw [g.bond m hm b hb] at h2
  refine g.linear a ha m hm b hb hab ?_ ?_ s1 s2 s3 hp
  · by_contra h; rw [if_neg (fun h' => h ((near_comm _ _).1 h'))] at h1; exact absurd h1 (by decide)
  · by_contra h; rw [if_neg h] at h2; exact absurd h2 (by decide)

/-- C20 fails on every block with one column or one row: the two border sites on both sides
of block site 0 are aligned with it, the code says they are not. -/
theorem C20_thin_fails (E : Env) (c : Config) (hc : PeriConf c)
    (hthin : c.nbh * c.nblocs = 1 ∨ c.nbv * c.nblocs = 1) :
    ∃ a b, a < c.nsites ∧ b < c.nsites ∧ a ≠ b ∧ c.bond.e 0 a = 1 ∧ c.bond.e 0 b = 1 ∧
      Aligned (periPos (c.nbh * c.nblocs) (c.nbv * c.nblocs) a)
        (periPos (c.nbh * c.nblocs) (c.nbv * c.nblocs) 0) (periPos (c.nbh * c.nblocs) (c.nbv * c.nblocs) b) ∧
      isBondLinear E c a 0 b = .ok false := by
  have hW : 1 ≤ c.nbh * c.nblocs := Nat.mul_pos hc.hh hc.hb
  have hH : 1 ≤ c.nbv * c.nblocs := Nat.mul_pos hc.hv hc.hb
  have hn : c.nbh * c.nbv * c.nblocs ^ 2 = c.nbh * c.nblocs * (c.nbv * c.nblocs) := by ring
  obtain ⟨sp1, sp2⟩ := hc.spec
  have hpos : 1 ≤ c.nbh * c.nblocs * (c.nbv * c.nblocs) := Nat.mul_pos hW hH
  -- it is enough to find two peripheral sites next to site 0, on opposite sides
  have key : ∀ a b, c.nbh * c.nblocs * (c.nbv * c.nblocs) ≤ a → a < b → b < c.nsites →
      Near (periPos (c.nbh * c.nblocs) (c.nbv * c.nblocs) a) (periPos (c.nbh * c.nblocs) (c.nbv * c.nblocs) 0) →
      Near (periPos (c.nbh * c.nblocs) (c.nbv * c.nblocs) 0) (periPos (c.nbh * c.nblocs) (c.nbv * c.nblocs) b) →
      c.bond.e 0 a = 1 ∧ c.bond.e 0 b = 1 ∧ isBondLinear E c a 0 b = .ok false := by
    intro a b h1 h2 h3 h4 h5
    have h0 : 0 < c.nsites := by omega
    have ha : a < c.nsites := by omega
    refine ⟨?_, ?_, ?_⟩
    · rw [sp2 0 h0 a ha]; exact if_pos ((near_comm _ _).1 h4)
    · rw [sp2 0 h0 b h3]; exact if_pos h5
    · have hpath := pathIn_of_near sp2 ha h0 h3 (by omega) h4 h5
      have hpro := prologue_any hpath (List.Perm.refl _)
      rw [Nat.min_eq_left (by omega), Nat.max_eq_right (by omega)] at hpro
      unfold isBondLinear
      rw [hc.ltype]
      simp only
      rw [hpro]
      show (if _ then _ else _ : Py Bool) = _
      simp only
      rw [hn, if_neg (by omega), if_neg (by omega)]
      have k1 : c.nbh * c.nblocs * (c.nbv * c.nblocs) ≤ b := by omega
      have k2 : ¬ c.nbh * c.nblocs * (c.nbv * c.nblocs) ≤ 0 := by omega
      rw [if_pos (by simp only [List.filter_cons, List.filter_nil, k1, k2, h1, decide_true, decide_false]; rfl)]
      rfl
  have h0 : periPos (c.nbh * c.nblocs) (c.nbv * c.nblocs) 0 = (0, 0) := by
    rw [periPos_block (by omega)]
    unfold gridPos
    simp
  rw [sp1] at *
  rcases hthin with h | h
  · -- one column: right and left neighbours of site 0
    have e1 : periPos (c.nbh * c.nblocs) (c.nbv * c.nblocs) (c.nbh * c.nblocs * (c.nbv * c.nblocs) + 1) = (1, 0) := by
      unfold periPos
      rw [if_neg (by omega), Nat.add_sub_cancel_left, h]
      simp only
      rw [if_neg (by omega), if_pos (by omega)]
      simp
    have e2 : periPos (c.nbh * c.nblocs) (c.nbv * c.nblocs)
        (c.nbh * c.nblocs * (c.nbv * c.nblocs) + (2 * (c.nbv * c.nblocs) + 1)) = (-1, 0) := by
      unfold periPos
      rw [if_neg (by omega), Nat.add_sub_cancel_left, h]
      simp only
      rw [if_neg (by omega), if_neg (by omega), if_neg (by omega)]
      simp only [Prod.mk.injEq, true_and]
      omega
    have := key (c.nbh * c.nblocs * (c.nbv * c.nblocs) + 1) (c.nbh * c.nblocs * (c.nbv * c.nblocs) + (2 * (c.nbv * c.nblocs) + 1))
      (by omega) (by omega) (by omega) (by rw [e1, h0]; decide) (by rw [e2, h0]; decide)
    refine ⟨_, _, by omega, by omega, by omega, this.1, this.2.1, ?_, this.2.2⟩
    rw [e1, e2, h0]
    decide
  · -- one row: lower and upper neighbours of site 0
    have e1 : periPos (c.nbh * c.nblocs) (c.nbv * c.nblocs) (c.nbh * c.nblocs * (c.nbv * c.nblocs) + 0) = (0, -1) := by
      unfold periPos
      rw [if_neg (by omega), Nat.add_sub_cancel_left]
      simp only
      rw [if_pos (by omega)]
      rfl
    have e2 : periPos (c.nbh * c.nblocs) (c.nbv * c.nblocs)
        (c.nbh * c.nblocs * (c.nbv * c.nblocs) + (2 * (c.nbh * c.nblocs))) = (0, 1) := by
      unfold periPos
      rw [if_neg (by omega), Nat.add_sub_cancel_left, h]
      simp only
      rw [if_neg (by omega), if_neg (by omega), if_pos (by omega)]
      simp only [Prod.mk.injEq]
      omega
    have := key (c.nbh * c.nblocs * (c.nbv * c.nblocs) + 0) (c.nbh * c.nblocs * (c.nbv * c.nblocs) + (2 * (c.nbh * c.nblocs)))
      (by omega) (by omega) (by omega) (by rw [e1, h0]; decide) (by rw [e2, h0]; decide)
    refine ⟨_, _, by omega, by omega, by omega, this.1, this.2.1, ?_, this.2.2⟩
    rw [e1, e2, h0]
    decide

/-- 2 x 2 block: the site below site 0 (4), site 0 and site 2 are aligned; with site 1
instead they are not. -/
example : isBondLinear exEnv (periConf 1 1 2 0 0) 4 0 2 = .ok true := by decide
example : isBondLinear exEnv (periConf 1 1 2 0 0) 4 0 1 = .ok false := by decide
example : PeriConf (periConf 1 1 2 0 0) := periConf_ok _ _ _ _ _ (by decide) (by decide) (by decide)
/-- Counterexample on a block of one site. -/
example : isBondLinear exEnv (periConf 1 1 1 0 0) 2 0 4 = .ok false := by decide
example : PeriConf (periConf 1 1 1 0 0) := periConf_ok _ _ _ _ _ (by decide) (by decide) (by decide)

/-! ### C22 -/

theorem diagonal_iff {p q m : Pt} (h1 : Near p m) (h2 : Near m q) :
    Diagonal p q ↔ (p ≠ q ∧ ¬ Aligned p m q) := by
  have hne : p ≠ q ↔ (p.1 ≠ q.1 ∨ p.2 ≠ q.2) := by
    rw [Ne, Prod.ext_iff]
    tauto
  rw [hne]
  unfold Diagonal Aligned
  unfold Near at h1 h2
  omega

/-- C22 on every lattice of the plane with any restriction: the second neighbours found are those of the second list of the
restriction. -/
theorem C22_diagonal_restricted (E : Env) (c : Config) (pos : Nat → Pt) (g : GeomLattice E c pos) (a : Nat)
    (ha : a < c.nsites) :
    ∃ l, getDiagonalSecondNeighbors E c a = .ok l ∧ l.Nodup ∧
      ∀ s, s ∈ l ↔ (s < c.nsites ∧ s ∈ c.restr.2 ∧ Diagonal (pos a) (pos s)) := by
  obtain ⟨nb, h1, h2, h3⟩ := getNeighbors_spec E.toSetSem c.bond (.list []) a ha
  have one : ∀ i < c.nsites, ∀ j < c.nsites, (c.bond.e i j = 1 ↔ Near (pos i) (pos j)) := by
    intro i hi j hj
    rw [g.bond i hi j hj]
    split_ifs with h <;> simp [h]
  have h3' : ∀ s, s ∈ nb ↔ s < c.nsites ∧ Near (pos a) (pos s) := by
    intro s
    rw [h3]
    constructor
    · rintro ⟨q1, _, q2⟩; exact ⟨q1, (one a ha s q1).1 q2⟩
    · rintro ⟨q1, q2⟩; exact ⟨q1, q1, (one a ha s q1).2 q2⟩
  obtain ⟨d, h4, h5⟩ := foldlM_mem (f := fun (diag : List Nat) neigh => do
      let nn ← getNeighbors E.toSetSem neigh c.bond (.pair c.restr.1 c.restr.2)
      (E.diff nn (a :: nb)).foldlM (fun (diag : List Nat) s => do
        if s ∉ diag then
          let lin ← isBondLinear E c a neigh s
          if lin then return diag else return diag ++ [s]
        else return diag) diag)
    (P := fun m s => (s < c.nsites ∧ s ∈ c.restr.2) ∧ Near (pos a) (pos m) ∧ Near (pos m) (pos s) ∧ Diagonal (pos a) (pos s)) nb [] (by
      intro m hm d
      have hm' := (h3' m).1 hm
      obtain ⟨nn, g1, _, g3⟩ := getNeighbors_spec E.toSetSem c.bond (.pair c.restr.1 c.restr.2) m hm'.1
      have hnn : ∀ s, s ∈ E.diff nn (a :: nb) ↔ ((s < c.nsites ∧ s ∈ c.restr.2) ∧ Near (pos m) (pos s) ∧ s ≠ a ∧ ¬ Near (pos a) (pos s)) := by
        intro s
        rw [E.mem_diff, g3, List.mem_cons, not_or, h3']
        constructor
        · rintro ⟨⟨q1, q0, q2⟩, q3, q4⟩
          exact ⟨⟨q1, q0⟩, (one m hm'.1 s q1).1 q2, q3, fun h => q4 ⟨q1, h⟩⟩
        · rintro ⟨⟨q1, q0⟩, q2, q3, q4⟩
          exact ⟨⟨q1, q0, (one m hm'.1 s q1).2 q2⟩, q3, fun h => q4 h.2⟩
      obtain ⟨d', k1, k2⟩ := foldlM_mem (f := fun (diag : List Nat) s => do
          if s ∉ diag then
            let lin ← isBondLinear E c a m s
            if lin then return diag else return diag ++ [s]
          else return diag)
        (P := fun s x => x = s ∧ Diagonal (pos a) (pos s)) (E.diff nn (a :: nb)) d (by
          intro s hs d
          obtain ⟨⟨q1, _⟩, q2, q3, q4⟩ := (hnn s).1 hs
          by_cases hd : s ∈ d
          · refine ⟨d, by simp [hd]; rfl, ?_⟩
            intro x
            constructor
            · exact Or.inl
            · rintro (h | ⟨rfl, _⟩)
              · exact h
              · exact hd
          · have hl := g.linear a ha m hm'.1 s q1 q3.symm hm'.2 q2 a m s (List.Perm.refl _)
            have hdi := diagonal_iff hm'.2 q2
            have hne : pos a ≠ pos s := fun h => q3 (g.inj a ha s q1 h).symm
            simp only [hd, not_false_eq_true, if_true, hl]
            by_cases hal : Aligned (pos a) (pos m) (pos s)
            · refine ⟨d, by simp [hal]; rfl, ?_⟩
              intro x
              constructor
              · exact Or.inl
              · rintro (h | ⟨rfl, h⟩)
                · exact h
                · exact absurd hal (hdi.1 h).2
            · refine ⟨d ++ [s], by simp [hal]; rfl, ?_⟩
              intro x
              rw [List.mem_append, List.mem_singleton]
              constructor
              · rintro (h | rfl)
                · exact Or.inl h
                · exact Or.inr ⟨rfl, hdi.2 ⟨hne, hal⟩⟩
              · rintro (h | ⟨rfl, _⟩)
                · exact Or.inl h
                · exact Or.inr rfl)
      refine ⟨d', bind_ok g1 k1, ?_⟩
      intro x
      rw [k2]
      constructor
      · rintro (h | ⟨s, hs, rfl, hdg⟩)
        · exact Or.inl h
        · have := (hnn x).1 hs
          exact Or.inr ⟨this.1, hm'.2, this.2.1, hdg⟩
      · rintro (h | ⟨q1, q2, q3, q4⟩)
        · exact Or.inl h
        · refine Or.inr ⟨x, (hnn x).2 ⟨q1, q3, ?_, ?_⟩, rfl, q4⟩
          · rintro rfl
            unfold Diagonal at q4
            simp at q4
          · unfold Diagonal at q4
            unfold Near
            omega)
  refine ⟨E.ofList d, ?_, E.nodup_ofList _, ?_⟩
  · unfold getDiagonalSecondNeighbors
    exact bind_ok h1 (bind_ok h4 rfl)
  · intro s
    rw [E.mem_ofList, h5]
    constructor
    · rintro (h | ⟨m, _, ⟨h, h0⟩, _, _, h'⟩)
      · simp at h
      · exact ⟨h, h0, h'⟩
    · rintro ⟨h, h0, h'⟩
      obtain ⟨m, hm, q1, q2⟩ := g.tile a ha s h h'
      exact Or.inr ⟨m, (h3' m).2 ⟨hm, q1⟩, ⟨h, h0⟩, q1, q2, h'⟩

/-- C22 on every lattice of the plane without restriction. -/
theorem C22_diagonal (E : Env) (c : Config) (pos : Nat → Pt) (g : GeomLattice E c pos) (hf : c.Full) (a : Nat)
    (ha : a < c.nsites) :
    ∃ l, getDiagonalSecondNeighbors E c a = .ok l ∧ l.Nodup ∧
      ∀ s, s ∈ l ↔ (s < c.nsites ∧ Diagonal (pos a) (pos s)) := by
  obtain ⟨l, h1, h2, h3⟩ := C22_diagonal_restricted E c pos g a ha
  refine ⟨l, h1, h2, fun s => ?_⟩
  rw [h3]
  constructor
  · rintro ⟨q1, _, q2⟩; exact ⟨q1, q2⟩
  · rintro ⟨q1, q2⟩; exact ⟨q1, (hf s q1).2, q2⟩

/-- C22 for rectangular lattices, in coordinates. -/
theorem C22_rectangular_diagonal (E : Env) (c : Config) (nbh nbv nb : Nat) (hc : RectConf c nbh nbv nb) (hf : c.Full)
    (a : Nat) (ha : a < c.nsites) :
    ∃ l, getDiagonalSecondNeighbors E c a = .ok l ∧ l.Nodup ∧
      ∀ s, s ∈ l ↔ (s < c.nsites ∧ Diagonal (gridPos (nbh * nb) a) (gridPos (nbh * nb) s)) :=
  C22_diagonal E c _ (hc.geom E) hf a ha

example : getDiagonalSecondNeighbors exEnv (rectConf 3 3 1 1 1) 4 = .ok [0, 2, 6, 8] := by decide
example : getDiagonalSecondNeighbors exEnv (rectConf 3 2 1 1 1) 0 = .ok [4] := by decide
example : getDiagonalSecondNeighbors exEnv { rectConf 3 3 1 1 1 with restr := ([4], [1, 2, 3, 6]) } 4 = .ok [2, 6] := by decide

/-! ### C23 -/

/-- C23. On a symmetric loop-free 0/1 bond matrix `is_bond_linear` (type 'periodic') raises
`ValueError` when two sites are equal or one is bonded to neither of the others, and returns
a boolean otherwise. -/
theorem C23_errors (E : Env) (c : Config) (hper : c.ltype = .periodic)
    (h01 : ∀ i < c.nsites, ∀ j < c.nsites, c.bond.e i j = 0 ∨ c.bond.e i j = 1)
    (hsym : ∀ i < c.nsites, ∀ j < c.nsites, c.bond.e i j = c.bond.e j i)
    (hloop : ∀ i < c.nsites, c.bond.e i i = 0)
    (s1 s2 s3 : Nat) (h1 : s1 < c.nsites) (h2 : s2 < c.nsites) (h3 : s3 < c.nsites) :
    let bad := s1 = s2 ∨ s1 = s3 ∨ s2 = s3 ∨ (c.bond.e s1 s2 ≠ 1 ∧ c.bond.e s1 s3 ≠ 1) ∨
      (c.bond.e s2 s1 ≠ 1 ∧ c.bond.e s2 s3 ≠ 1) ∨ (c.bond.e s3 s1 ≠ 1 ∧ c.bond.e s3 s2 ≠ 1)
    (bad → isBondLinear E c s1 s2 s3 = .error .valueError) ∧ (¬ bad → ∃ r, isBondLinear E c s1 s2 s3 = .ok r) := by
  have a12 := h01 s1 h1 s2 h2
  have a13 := h01 s1 h1 s3 h3
  have a23 := h01 s2 h2 s3 h3
  have b12 := hsym s1 h1 s2 h2
  have b13 := hsym s1 h1 s3 h3
  have b23 := hsym s2 h2 s3 h3
  have l1 := hloop s1 h1
  have l2 := hloop s2 h2
  have l3 := hloop s3 h3
  unfold Config.nsites at h1 h2 h3
  intro bad
  have hcore : ∀ r, linearPrologue c.bond s1 s2 s3 = r → isBondLinear E c s1 s2 s3 =
      (r >>= fun p => .ok (decide (absDiff p.2.2 p.2.1 = absDiff p.2.1 p.1))) := by
    intro r hr
    unfold isBondLinear
    rw [hper]
    simp only [isBondLinearPeriodic, hr]
    rfl
  constructor
  · intro hb
    have : linearPrologue c.bond s1 s2 s3 = .error .valueError := by
      unfold linearPrologue
      by_cases heq : s1 = s2 ∨ s1 = s3 ∨ s2 = s3
      · rw [if_pos heq]
      · rw [if_neg heq, if_neg (by simp [h1, h2, h3])]
        have hb' : (c.bond.e s1 s2 = 0 ∧ c.bond.e s1 s3 = 0) ∨ (c.bond.e s1 s2 = 0 ∧ c.bond.e s2 s3 = 0) ∨
            (c.bond.e s1 s3 = 0 ∧ c.bond.e s2 s3 = 0) := by
          simp only [bad] at hb
          omega
        split_ifs <;> first | rfl | omega
    rw [hcore _ this]
    rfl
  · intro hb
    have hne : s1 ≠ s2 ∧ s1 ≠ s3 ∧ s2 ≠ s3 := by
      simp only [bad] at hb
      omega
    obtain ⟨n12, n13, n23⟩ := hne
    have : ∃ p, linearPrologue c.bond s1 s2 s3 = .ok p := by
      have hb' : (c.bond.e s1 s2 = 1 ∧ c.bond.e s1 s3 = 1) ∨ (c.bond.e s1 s2 = 1 ∧ c.bond.e s2 s3 = 1) ∨
            (c.bond.e s1 s3 = 1 ∧ c.bond.e s2 s3 = 1) := by
        simp only [bad] at hb
        omega
      unfold linearPrologue
      rcases a12 with a12 | a12 <;> rcases a13 with a13 | a13 <;> rcases a23 with a23 | a23 <;>
        first
        | omega
        | (rw [a12] at b12; rw [a13] at b13; rw [a23] at b23
           simp [n12, n13, n23, n12.symm, n13.symm, n23.symm, h1, h2, h3, a12, a13, a23, ← b12, ← b13, ← b23, l1, l2, l3])
    obtain ⟨p, hp⟩ := this
    exact ⟨_, hcore _ hp⟩

/-- C23. For every lattice type, a triple with two equal sites or a site bonded to neither
of the others is rejected with `ValueError`. -/
theorem C23_rejects (E : Env) (c : Config)
    (hsym : ∀ i < c.nsites, ∀ j < c.nsites, c.bond.e i j = c.bond.e j i)
    (s1 s2 s3 : Nat) (h1 : s1 < c.nsites) (h2 : s2 < c.nsites) (h3 : s3 < c.nsites)
    (hbad : s1 = s2 ∨ s1 = s3 ∨ s2 = s3 ∨ (c.bond.e s1 s2 = 0 ∧ c.bond.e s1 s3 = 0) ∨
      (c.bond.e s2 s1 = 0 ∧ c.bond.e s2 s3 = 0) ∨ (c.bond.e s3 s1 = 0 ∧ c.bond.e s3 s2 = 0)) :
    isBondLinear E c s1 s2 s3 = .error .valueError := by
  have b12 := hsym s1 h1 s2 h2
  have b13 := hsym s1 h1 s3 h3
  have b23 := hsym s2 h2 s3 h3
  unfold Config.nsites at h1 h2 h3
  have : linearPrologue c.bond s1 s2 s3 = .error .valueError := by
    unfold linearPrologue
    by_cases heq : s1 = s2 ∨ s1 = s3 ∨ s2 = s3
    · rw [if_pos heq]
    · rw [if_neg heq, if_neg (by simp [h1, h2, h3])]
      split_ifs <;> first | rfl | omega
  unfold isBondLinear
  cases c.ltype <;> simp only [isBondLinearPeriodic, this] <;> rfl

example : isBondLinear exEnv (periConf 1 1 2 0 0) 0 4 10 = .error .valueError := by decide
example : isBondLinear exEnv (rectConf 3 3 1 1 1) 0 0 1 = .error .valueError := by decide
example : isBondLinear exEnv (rectConf 3 3 1 1 1) 0 1 8 = .error .valueError := by decide

end TJ
