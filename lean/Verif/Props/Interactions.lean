/-
Properties C24 to C29: action of the interactions on a determinant.
-/
import Verif.Lemmas.Repulsion
import Verif.Props.Basis

namespace TJ

open Finset

/-- `images` are the basis elements obtained from `det` by exchanging the two sites of
each pair of `pairs`, in this order. -/
def ExchangeImages (c : Config) (det : List Nat) (pairs : List (Nat × Nat)) (images : List (List Nat)) : Prop :=
  List.Forall₂ (fun p d => Moved c.nsites c.nholes c.nbeta (Equiv.swap p.1 p.2) det d) pairs images

/-- The numbers of holes, down and up spins of `d` are those of `det`. -/
def SameCounts (c : Config) (det d : List Nat) : Prop :=
  ∀ o, cnt c.nsites (occ c.nholes c.nbeta d) o = cnt c.nsites (occ c.nholes c.nbeta det) o

/-- `d` puts something else than `det` on some site. -/
def Differs (c : Config) (det d : List Nat) : Prop :=
  ∃ s < c.nsites, occ c.nholes c.nbeta d s ≠ occ c.nholes c.nbeta det s

section
variable {c : Config} {det : List Nat}

theorem Moved.sameCounts {π : Nat → Nat} {d : List Nat} (hr : ∀ s < c.nsites, π s < c.nsites)
    (hi : ∀ s < c.nsites, ∀ t < c.nsites, π s = π t → s = t) (h : Moved c.nsites c.nholes c.nbeta π det d) :
    SameCounts c det d := fun o => cnt_perm hr hi h.2 o

theorem exchangeImages_map (hv : ValidDet c.nsites det) (hn : c.nholes + c.nbeta ≤ c.nsites) {L : List (Nat × Nat)}
    (hL : ∀ p ∈ L, p.1 < c.nsites ∧ p.2 < c.nsites) :
    ExchangeImages c det L (L.map (fun p => detOf c.nsites (swapOcc (occC c det) p.1 p.2))) := by
  unfold ExchangeImages
  rw [List.forall₂_map_right_iff, List.forall₂_same]
  intro p hp
  exact moved_swap hv hn (hL p hp).1 (hL p hp).2

theorem swapOcc_ne {σ : Nat → Occ} {a b : Nat} (h : σ a ≠ σ b) (s : Nat) : swapOcc σ a b s ≠ σ s ↔ s = a ∨ s = b := by
  unfold swapOcc
  by_cases h1 : s = a
  · subst h1; simp [Equiv.swap_apply_left, h.symm]
  · by_cases h2 : s = b
    · subst h2; simp [Equiv.swap_apply_right, h]
    · simp [Equiv.swap_apply_of_ne_of_ne h1 h2, h1, h2]

/-- Exchanges of different contents give different images, and never the input. -/
theorem images_distinct (hv : ValidDet c.nsites det) (hn : c.nholes + c.nbeta ≤ c.nsites) {L : List (Nat × Nat)}
    (hnd : L.Nodup)
    (hL : ∀ p ∈ L, p.1 < c.nsites ∧ p.2 < c.nsites ∧ occC c det p.1 ≠ occC c det p.2 ∧ (p.2, p.1) ∉ L) :
    (L.map (fun p => detOf c.nsites (swapOcc (occC c det) p.1 p.2))).Nodup ∧
      ∀ d ∈ L.map (fun p => detOf c.nsites (swapOcc (occC c det) p.1 p.2)), SameCounts c det d ∧ Differs c det d := by
  have key : ∀ p ∈ L, ∀ s < c.nsites, occC c (detOf c.nsites (swapOcc (occC c det) p.1 p.2)) s =
      swapOcc (occC c det) p.1 p.2 s := by
    intro p hp s hs
    obtain ⟨h1, h2, _⟩ := hL p hp
    exact occ_detOf ((cnt_swapOcc h1 h2 _ _).trans (cnt_occ_hole hv hn))
      ((cnt_swapOcc h1 h2 _ _).trans (cnt_occ_down hv hn)) hs
  constructor
  · refine hnd.map_on ?_
    intro p hp q hq he
    obtain ⟨p1, p2, p3, p4⟩ := hL p hp
    obtain ⟨q1, q2, q3, q4⟩ := hL q hq
    have hs : ∀ s < c.nsites, (s = p.1 ∨ s = p.2 ↔ s = q.1 ∨ s = q.2) := by
      intro s hs
      rw [← swapOcc_ne p3, ← swapOcc_ne q3, ← key p hp s hs, ← key q hq s hs]
      rw [he]
    have hne : p.1 ≠ p.2 := fun h => p3 (by rw [h])
    rcases (hs p.1 p1).1 (Or.inl rfl) with e1 | e1 <;> rcases (hs p.2 p2).1 (Or.inr rfl) with e2 | e2
    · exact absurd (e1.trans e2.symm) hne
    · exact Prod.ext e1 e2
    · refine absurd hq ?_
      rw [show q = (p.2, p.1) from Prod.ext e2.symm e1.symm]
      exact p4
    · exact absurd (e1.trans e2.symm) hne
  · intro d hd
    obtain ⟨p, hp, rfl⟩ := List.mem_map.1 hd
    obtain ⟨p1, p2, p3, p4⟩ := hL p hp
    refine ⟨(moved_swap hv hn p1 p2).sameCounts (fun s hs => swap_lt p1 p2 hs)
      (fun _ _ _ _ h => (Equiv.swap _ _).injective h), p.1, p1, ?_⟩
    have := key p hp p.1 p1
    rw [show occ c.nholes c.nbeta (detOf c.nsites (swapOcc (occC c det) p.1 p.2)) p.1 =
      swapOcc (occC c det) p.1 p.2 p.1 from this]
    exact (swapOcc_ne p3 p.1).2 (Or.inl rfl)

end

/-! ### C24 -/

/-- C24. Hopping of holes to neighbouring electron sites. -/
theorem C24_hopping (S : SetSem) (c : Config) (hf : c.Full) (hn : c.nholes + c.nbeta ≤ c.nsites) (det : List Nat)
    (hv : ValidDet c.nsites det) :
    ∃ pairs images, computeHopping S c det = .ok images ∧ pairs.Nodup ∧
      (∀ a b, (a, b) ∈ pairs ↔ a < c.nsites ∧ b < c.nsites ∧ occ c.nholes c.nbeta det a = .hole ∧
        occ c.nholes c.nbeta det b ≠ .hole ∧ c.bond.e a b = 1) ∧
      ExchangeImages c det pairs images ∧ images.Nodup ∧
      ∀ d ∈ images, SameCounts c det d ∧ Differs c det d ∧ ∀ basis, constructBasis c = .ok basis → d ∈ basis := by
  obtain ⟨L, hnd, hmem, he⟩ := computeHopping_eq S hf hv hn
  have hd := images_distinct hv hn hnd (by
    intro p hp
    obtain ⟨h1, h2, h3, h4, _⟩ := (hmem p).1 hp
    refine ⟨h1, h2, ?_, fun h => h4 ((hmem _).1 h).2.2.1⟩
    rw [h3]
    exact fun h => h4 h.symm)
  have hL : ∀ p ∈ L, p.1 < c.nsites ∧ p.2 < c.nsites := fun p hp => ⟨((hmem p).1 hp).1, ((hmem p).1 hp).2.1⟩
  refine ⟨L, _, he, hnd, fun a b => hmem (a, b), exchangeImages_map hv hn hL, hd.1, ?_⟩
  intro d hdd
  refine ⟨(hd.2 d hdd).1, (hd.2 d hdd).2, ?_⟩
  intro basis hb
  obtain ⟨p, hp, rfl⟩ := List.mem_map.1 hdd
  rw [(constructBasis_eq c)] at hb
  rw [← Except.ok.inj hb]
  exact (mem_basisList_iff_canonical hn).2 (moved_swap hv hn (hL p hp).1 (hL p hp).2).1

/-- On the 2 x 2 lattice with one hole on site 0 the hole hops to sites 1 and 2. -/
example : computeHopping SetSem.sorted (rectConf 2 2 1 1 1) [0, 1, 2, 3] = .ok [[1, 0, 2, 3], [2, 1, 0, 3]] := by decide
example : (rectConf 2 2 1 1 1).Full ∧ ValidDet (rectConf 2 2 1 1 1).nsites [0, 1, 2, 3] := by
  constructor
  · show ∀ s < 4, _
    decide
  · decide

/-! ### C25 -/

theorem near_path_straight {p m q : Pt} (hne : p ≠ q) (h1 : Near p m) (h2 : Near m q) :
    Aligned p m q ↔ (p.1 = q.1 ∨ p.2 = q.2) := by
  have : p.1 ≠ q.1 ∨ p.2 ≠ q.2 := by
    by_contra h
    push Not at h
    exact hne (Prod.ext h.1 h.2)
  unfold Aligned
  unfold Near at h1 h2
  omega

/-- The pairs (hole, electron with a common neighbour). -/
def NextNeighbours (c : Config) (det : List Nat) (a b : Nat) : Prop :=
  a < c.nsites ∧ b < c.nsites ∧ occ c.nholes c.nbeta det a = .hole ∧ occ c.nholes c.nbeta det b ≠ .hole ∧
    ∃ m, m < c.nsites ∧ c.bond.e a m = 1 ∧ c.bond.e m b = 1

section
variable {c : Config} {det : List Nat}

theorem next_core (E : Env) (hf : c.Full) (hn : c.nholes + c.nbeta ≤ c.nsites) (hv : ValidDet c.nsites det)
    (hlin : ∀ a < c.nsites, ∀ m < c.nsites, ∀ b < c.nsites, a ≠ b → c.bond.e a m = 1 → c.bond.e m b = 1 →
      ∃ r, isBondLinear E c b m a = .ok r) :
    ∃ P Q col ort, computeNextHopping E c det = .ok (col, ort) ∧ (P ++ Q).Nodup ∧
      (∀ a b, (a, b) ∈ P ++ Q ↔ NextNeighbours c det a b) ∧
      (∀ p ∈ P, ∃ m < c.nsites, c.bond.e p.1 m = 1 ∧ c.bond.e m p.2 = 1 ∧ isBondLinear E c p.2 m p.1 = .ok true) ∧
      (∀ p ∈ Q, ∃ m < c.nsites, c.bond.e p.1 m = 1 ∧ c.bond.e m p.2 = 1 ∧ isBondLinear E c p.2 m p.1 = .ok false) ∧
      ExchangeImages c det P col ∧ ExchangeImages c det Q ort ∧ (col ++ ort).Nodup ∧
      ∀ d ∈ col ++ ort, SameCounts c det d ∧ Differs c det d := by
  obtain ⟨W, hnd, hmem, hlab, he⟩ := computeNextHopping_eq E hf hv hlin
  have hperm : ((W.filter (fun w => w.2)).map Prod.fst ++ (W.filter (fun w => !w.2)).map Prod.fst).Perm
      (W.map Prod.fst) := by
    rw [← List.map_append]
    exact (List.filter_append_perm (fun w : (Nat × Nat) × Bool => w.2) W).map _
  have hmem' : ∀ p, p ∈ (W.filter (fun w => w.2)).map Prod.fst ++ (W.filter (fun w => !w.2)).map Prod.fst ↔
      NextPair c (occC c det) p.1 p.2 := fun p => by rw [hperm.mem_iff, hmem]
  have hnd' := hperm.nodup_iff.2 hnd
  set P := (W.filter (fun w => w.2)).map Prod.fst with hP
  set Q := (W.filter (fun w => !w.2)).map Prod.fst with hQ
  have hd := images_distinct (L := P ++ Q) hv hn hnd' (by
    intro p hp
    obtain ⟨h1, h2, h3, h4, _⟩ := (hmem' p).1 hp
    refine ⟨h1, h2, ?_, fun h => h4 ((hmem' _).1 h).2.2.1⟩
    rw [h3]
    exact fun h => h4 h.symm)
  rw [List.map_append] at hd
  have hc : (W.filter (fun w => w.2)).map (fun w => detOf c.nsites (swapOcc (occC c det) w.1.1 w.1.2)) =
      P.map (fun p => detOf c.nsites (swapOcc (occC c det) p.1 p.2)) := by
    rw [hP, List.map_map]; rfl
  have ho : (W.filter (fun w => !w.2)).map (fun w => detOf c.nsites (swapOcc (occC c det) w.1.1 w.1.2)) =
      Q.map (fun p => detOf c.nsites (swapOcc (occC c det) p.1 p.2)) := by
    rw [hQ, List.map_map]; rfl
  rw [hc, ho] at he
  refine ⟨P, Q, _, _, he, hnd', fun a b => hmem' (a, b), ?_, ?_, ?_, ?_, hd.1, hd.2⟩
  · intro p hp
    obtain ⟨w, hw, rfl⟩ := List.mem_map.1 hp
    obtain ⟨hw1, hw2⟩ := List.mem_filter.1 hw
    have hw2 : w.2 = true := hw2
    have := hlab w hw1
    rwa [hw2] at this
  · intro p hp
    obtain ⟨w, hw, rfl⟩ := List.mem_map.1 hp
    obtain ⟨hw1, hw2⟩ := List.mem_filter.1 hw
    have hw2 : w.2 = false := by simpa using hw2
    have := hlab w hw1
    rwa [hw2] at this
  · exact exchangeImages_map hv hn (fun p hp => by
      have := (hmem' p).1 (List.mem_append_left _ hp)
      exact ⟨this.1, this.2.1⟩)
  · exact exchangeImages_map hv hn (fun p hp => by
      have := (hmem' p).1 (List.mem_append_right _ hp)
      exact ⟨this.1, this.2.1⟩)

end

/-- C25 on every symmetric loop-free bond matrix of type 'periodic': the two lists together
contain the exchange of every pair (hole, electron with a common neighbour) exactly once. -/
theorem C25_next_hopping (E : Env) (c : Config) (hper : c.ltype = .periodic)
    (h01 : ∀ i < c.nsites, ∀ j < c.nsites, c.bond.e i j = 0 ∨ c.bond.e i j = 1)
    (hsym : ∀ i < c.nsites, ∀ j < c.nsites, c.bond.e i j = c.bond.e j i)
    (hloop : ∀ i < c.nsites, c.bond.e i i = 0)
    (hf : c.Full) (hn : c.nholes + c.nbeta ≤ c.nsites) (det : List Nat) (hv : ValidDet c.nsites det) :
    ∃ P Q col ort, computeNextHopping E c det = .ok (col, ort) ∧ (P ++ Q).Nodup ∧
      (∀ a b, (a, b) ∈ P ++ Q ↔ NextNeighbours c det a b) ∧
      ExchangeImages c det P col ∧ ExchangeImages c det Q ort ∧ (col ++ ort).Nodup ∧
      ∀ d ∈ col ++ ort, SameCounts c det d ∧ Differs c det d := by
  obtain ⟨P, Q, col, ort, h1, h2, h3, _, _, h4, h5, h6, h7⟩ := next_core E hf hn hv (by
    intro a ha m hm b hb hab h1 h2
    have hbm : c.bond.e b m = 1 := by rw [hsym b hb m hm]; exact h2
    have hma : c.bond.e m a = 1 := by rw [hsym m hm a ha]; exact h1
    refine (C23_errors E c hper h01 hsym hloop b m a hb hm ha).2 ?_
    rintro (h | h | h | h | h | h)
    · subst h; rw [hloop b hb] at h2; exact absurd h2 (by decide)
    · exact hab h.symm
    · subst h; rw [hloop m hm] at h1; exact absurd h1 (by decide)
    · exact h.1 hbm
    · exact h.2 hma
    · exact h.2 h1)
  exact ⟨P, Q, col, ort, h1, h2, h3, h4, h5, h6, h7⟩

/-- C25 on lattices of the plane: the first list contains the pairs on one row or column,
the second the others. -/
theorem C25_next_hopping_plane (E : Env) (c : Config) (pos : Nat → Pt) (g : GeomLattice E c pos)
    (hf : c.Full) (hn : c.nholes + c.nbeta ≤ c.nsites) (det : List Nat) (hv : ValidDet c.nsites det) :
    ∃ P Q col ort, computeNextHopping E c det = .ok (col, ort) ∧ P.Nodup ∧ Q.Nodup ∧
      (∀ a b, (a, b) ∈ P ↔ NextNeighbours c det a b ∧ ((pos a).1 = (pos b).1 ∨ (pos a).2 = (pos b).2)) ∧
      (∀ a b, (a, b) ∈ Q ↔ NextNeighbours c det a b ∧ ¬ ((pos a).1 = (pos b).1 ∨ (pos a).2 = (pos b).2)) ∧
      ExchangeImages c det P col ∧ ExchangeImages c det Q ort ∧ (col ++ ort).Nodup ∧
      ∀ d ∈ col ++ ort, SameCounts c det d ∧ Differs c det d := by
  have hl : ∀ a < c.nsites, ∀ m < c.nsites, ∀ b < c.nsites, a ≠ b → c.bond.e a m = 1 → c.bond.e m b = 1 →
      isBondLinear E c b m a = .ok (decide ((pos a).1 = (pos b).1 ∨ (pos a).2 = (pos b).2)) := by
    intro a ha m hm b hb hab h1 h2
    rw [g.bond_iff ha hm] at h1
    rw [g.bond_iff hm hb] at h2
    have := near_path_straight (fun h => hab (g.inj a ha b hb h)) h1 h2
    rw [g.linear a ha m hm b hb hab h1 h2 b m a (List.reverse_perm [a, m, b])]
    simp only [this]
  obtain ⟨P, Q, col, ort, h1, h2, h3, hP, hQ, h4, h5, h6, h7⟩ := next_core E hf hn hv
    (fun a ha m hm b hb hab h1 h2 => ⟨_, hl a ha m hm b hb hab h1 h2⟩)
  have hne : ∀ a b, NextNeighbours c det a b → a ≠ b := fun a b h e => h.2.2.2.1 (e ▸ h.2.2.1)
  have cP : ∀ a b, (a, b) ∈ P → ((pos a).1 = (pos b).1 ∨ (pos a).2 = (pos b).2) := by
    intro a b hp
    have hnn := (h3 a b).1 (List.mem_append_left _ hp)
    obtain ⟨m, hm, m1, m2, m3⟩ := hP _ hp
    have := (hl a hnn.1 m hm b hnn.2.1 (hne a b hnn) m1 m2).symm.trans m3
    simpa using Except.ok.inj this
  have cQ : ∀ a b, (a, b) ∈ Q → ¬ ((pos a).1 = (pos b).1 ∨ (pos a).2 = (pos b).2) := by
    intro a b hp
    have hnn := (h3 a b).1 (List.mem_append_right _ hp)
    obtain ⟨m, hm, m1, m2, m3⟩ := hQ _ hp
    have := (hl a hnn.1 m hm b hnn.2.1 (hne a b hnn) m1 m2).symm.trans m3
    exact decide_eq_false_iff_not.1 (Except.ok.inj this)
  refine ⟨P, Q, col, ort, h1, (List.nodup_append.1 h2).1, (List.nodup_append.1 h2).2.1, ?_, ?_, h4, h5, h6, h7⟩
  · intro a b
    rw [← h3]
    constructor
    · exact fun h => ⟨List.mem_append_left _ h, cP a b h⟩
    · rintro ⟨h, h'⟩
      exact (List.mem_append.1 h).elim id (fun hq => absurd h' (cQ a b hq))
  · intro a b
    rw [← h3]
    constructor
    · exact fun h => ⟨List.mem_append_right _ h, cQ a b h⟩
    · rintro ⟨h, h'⟩
      exact (List.mem_append.1 h).elim (fun hq => absurd (cP a b hq) h') id

/-- On the 3 x 3 lattice with a hole in the corner: two collinear moves, one move across
the tile although there are two paths. -/
example : computeNextHopping exEnv (rectConf 3 3 1 1 3) [0, 1, 2, 3, 4, 5, 6, 7, 8] =
    .ok ([[2, 0, 1, 3, 4, 5, 6, 7, 8], [6, 1, 2, 3, 0, 4, 5, 7, 8]], [[4, 1, 2, 3, 0, 5, 6, 7, 8]]) := by decide
example : GeomLattice exEnv (rectConf 3 3 1 1 3) (gridPos (3 * 1)) :=
  (rectConf_ok 3 3 1 1 3 (by decide) (by decide) (by decide)).geom _

/-! ### C26 -/

/-- C26 on lattices of the plane. -/
theorem C26_static_plane {K : Type} [Field K] (E : Env) (c : Config) (pos : Nat → Pt) (g : GeomLattice E c pos)
    (I : Interactions K) (hf : c.Full) (det : List Nat) (hv : ValidDet c.nsites det) :
    computeStatic E c I det = .ok (∑ a : Fin c.nsites, ∑ b : Fin c.nsites,
      if a < b ∧ Near (pos a) (pos b) ∧ occ c.nholes c.nbeta det a ≠ .hole ∧ occ c.nholes c.nbeta det b ≠ .hole
      then Jeff I (fun s : Fin c.nsites => pos s) (fun s => occ c.nholes c.nbeta det s) a b *
        ((occ c.nholes c.nbeta det a).val * (occ c.nholes c.nbeta det b).val - 1 / 4) else 0) :=
  computeStatic_eq I g hf hv

/-- C26. Static spin energy on a rectangular lattice. -/
theorem C26_static {K : Type} [Field K] (E : Env) (c : Config) (nbh nbv nb : Nat) (hc : RectConf c nbh nbv nb)
    (I : Interactions K) (hf : c.Full) (det : List Nat) (hv : ValidDet c.nsites det) :
    computeStatic E c I det = .ok (∑ a : Fin c.nsites, ∑ b : Fin c.nsites,
      if a < b ∧ Near (gridPos (nbh * nb) a) (gridPos (nbh * nb) b) ∧ occ c.nholes c.nbeta det a ≠ .hole ∧
        occ c.nholes c.nbeta det b ≠ .hole
      then Jeff I (fun s : Fin c.nsites => gridPos (nbh * nb) s) (fun s => occ c.nholes c.nbeta det s) a b *
        ((occ c.nholes c.nbeta det a).val * (occ c.nholes c.nbeta det b).val - 1 / 4) else 0) :=
  computeStatic_eq I (hc.geom E) hf hv

/-- C26, second form: minus half the couplings of the bonds with opposite spins. -/
theorem C26_static_opposite {K : Type} [Field K] [CharZero K] (E : Env) (c : Config) (pos : Nat → Pt)
    (g : GeomLattice E c pos) (I : Interactions K) (hf : c.Full) (det : List Nat) (hv : ValidDet c.nsites det) :
    computeStatic E c I det = .ok (- (1 / 2) * ∑ a : Fin c.nsites, ∑ b : Fin c.nsites,
      if a < b ∧ Near (pos a) (pos b) ∧ occ c.nholes c.nbeta det a ≠ .hole ∧ occ c.nholes c.nbeta det b ≠ .hole ∧
        occ c.nholes c.nbeta det a ≠ occ c.nholes c.nbeta det b
      then Jeff I (fun s : Fin c.nsites => pos s) (fun s => occ c.nholes c.nbeta det s) a b else 0) := by
  rw [C26_static_plane E c pos g I hf det hv]
  congr 1
  rw [mul_sum]
  refine sum_congr rfl (fun a _ => ?_)
  rw [mul_sum]
  refine sum_congr rfl (fun b _ => ?_)
  by_cases h : a < b ∧ Near (pos a) (pos b)
  · simp only [h.1, h.2, true_and]
    generalize Jeff I _ _ a b = J
    cases occ c.nholes c.nbeta det a <;> cases occ c.nholes c.nbeta det b <;> simp [Occ.val] <;> ring_nf <;> simp
  · rw [if_neg (fun k => h ⟨k.1, k.2.1⟩), if_neg (fun k => h ⟨k.1, k.2.1⟩), mul_zero]

/-- Couplings used in examples. -/
def exI : Interactions ℚ := ⟨1, 2, 3, 5, 7, 11, 13, 17, 19, 23⟩

/-- 3 x 1 chain hole-down-up: the bond is aligned with the hole, energy -Jhpar/2. -/
example : computeStatic exEnv (rectConf 3 1 1 1 1) exI [0, 1, 2] = .ok (-3 / 2) := by decide +kernel
/-- 2 x 2 lattice: both bonds of the electrons see the hole orthogonally or aligned. -/
example : computeStatic exEnv (rectConf 2 2 1 1 1) exI [0, 1, 2, 3] = .ok (-5 / 2) := by decide +kernel

/-! ### C27 -/

/-- The coupling class of a bond, in words of the plane. -/
def IsClass {n : Nat} (pos : Fin n → Pt) (σ : Conf n) (a b : Fin n) : BondClass → Prop
  | .par => HoleInline pos σ a b
  | .per => HoleNext pos σ a b ∧ ¬ HoleInline pos σ a b
  | .undoped => ¬ HoleNext pos σ a b

theorem isClass_iff {c : Config} {pos : Nat → Pt} {det : List Nat} (a b : Fin c.nsites) (cl : BondClass) :
    clsN c.nsites pos (occC c det) a b = cl ↔ IsClass (fpos c.nsites pos) (confOf c det) a b cl := by
  have himp : HoleInline (fpos c.nsites pos) (confOf c det) a b → HoleNext (fpos c.nsites pos) (confOf c det) a b := by
    rintro ⟨x, h1, h2, _⟩; exact ⟨x, h1, h2⟩
  unfold clsN
  rw [holeInlineN_iff, holeNextN_iff]
  cases cl <;> simp only [IsClass] <;> split_ifs <;> simp_all

/-- A bond with two opposite spins. -/
def OppositeBond (c : Config) (pos : Nat → Pt) (det : List Nat) (a b : Nat) : Prop :=
  a < b ∧ b < c.nsites ∧ Near (pos a) (pos b) ∧ occ c.nholes c.nbeta det a ≠ .hole ∧
    occ c.nholes c.nbeta det b ≠ .hole ∧ occ c.nholes c.nbeta det a ≠ occ c.nholes c.nbeta det b

/-- C27 on rectangular lattices: `compute_spin_flip` exchanges every bond with opposite
spins exactly once, in the list of the class of the bond. The same classes give the
coupling of the static term (`Jeff` in C26). -/
theorem C27_spin_flip (E : Env) (c : Config) (nbh nbv nb : Nat) (hc : RectConf c nbh nbv nb)
    (hf : c.Full) (hn : c.nholes + c.nbeta ≤ c.nsites) (det : List Nat) (hv : ValidDet c.nsites det) :
    ∃ (pairs : BondClass → List (Nat × Nat)) (images : BondClass → List (List Nat)),
      computeFlip E.toSetSem c det = .ok (images .par, images .per, images .undoped) ∧
      (∀ cl, (pairs cl).Nodup ∧ ExchangeImages c det (pairs cl) (images cl) ∧
        ∀ a b : Fin c.nsites, (a.val, b.val) ∈ pairs cl ↔ OppositeBond c (gridPos (nbh * nb)) det a b ∧
          IsClass (fun s : Fin c.nsites => gridPos (nbh * nb) s) (fun s => occ c.nholes c.nbeta det s) a b cl) ∧
      (∀ cl, ∀ p ∈ pairs cl, p.1 < c.nsites ∧ p.2 < c.nsites) ∧
      (images .par ++ images .per ++ images .undoped).Nodup ∧
      ∀ cl, ∀ d ∈ images cl, SameCounts c det d ∧ Differs c det d := by
  obtain ⟨L, hnd, hmem, he⟩ := computeFlip_eq (hc.tj E) hf hv
  set cls : Nat × Nat → BondClass := fun p => clsN c.nsites (gridPos (nbh * nb)) (occC c det) p.1 p.2 with hcls
  have hlt : ∀ p ∈ L, p.1 < c.nsites ∧ p.2 < c.nsites := by
    intro p hp
    obtain ⟨h1, h2, _⟩ := (hmem p).1 hp
    exact ⟨by omega, h2⟩
  have hcond : ∀ M : List (Nat × Nat), (∀ p ∈ M, p ∈ L) → ∀ p ∈ M, p.1 < c.nsites ∧ p.2 < c.nsites ∧
      occC c det p.1 ≠ occC c det p.2 ∧ (p.2, p.1) ∉ M := by
    intro M hM p hp
    obtain ⟨h1, h2, h3, h4, h5, h6⟩ := (hmem p).1 (hM p hp)
    refine ⟨by omega, h2, h6, fun h => ?_⟩
    have := ((hmem _).1 (hM _ h)).1
    simp only at this
    omega
  refine ⟨fun cl => L.filter (fun p => cls p = cl),
    fun cl => (L.filter (fun p => cls p = cl)).map (fun p => detOf c.nsites (swapOcc (occC c det) p.1 p.2)), he, ?_, ?_, ?_, ?_⟩
  · intro cl
    refine ⟨hnd.filter _, exchangeImages_map hv hn (fun p hp => hlt p (List.mem_filter.1 hp).1), ?_⟩
    intro a b
    rw [List.mem_filter, hmem]
    have : (decide (cls (a.val, b.val) = cl) = true) ↔ _ := decide_eq_true_iff
    rw [this, hcls]
    simp only
    rw [isClass_iff]
    rfl
  · intro cl p hp
    exact hlt p (List.mem_filter.1 hp).1
  · simp only
    rw [← List.map_append, ← List.map_append]
    have hp : (L.filter (fun p => cls p = .par) ++ L.filter (fun p => cls p = .per) ++
        L.filter (fun p => cls p = .undoped)).Nodup := by
      have hdis : ∀ c1 c2 : BondClass, c1 ≠ c2 → ∀ x, x ∈ L.filter (fun p => cls p = c1) →
          x ∉ L.filter (fun p => cls p = c2) := by
        intro c1 c2 h x h1 h2
        have h1 := (List.mem_filter.1 h1).2
        have h2 := (List.mem_filter.1 h2).2
        simp only [decide_eq_true_eq] at h1 h2
        exact h (h1.symm.trans h2)
      rw [List.nodup_append, List.nodup_append]
      refine ⟨⟨hnd.filter _, hnd.filter _, ?_⟩, hnd.filter _, ?_⟩
      · rintro x hx y hy rfl
        exact hdis _ _ (by decide) x hx hy
      · rintro x hx y hy rfl
        rcases List.mem_append.1 hx with hx | hx
        · exact hdis _ _ (by decide) x hx hy
        · exact hdis _ _ (by decide) x hx hy
    refine (images_distinct hv hn hp (hcond _ ?_)).1
    intro p hp
    rcases List.mem_append.1 hp with hp | hp
    · rcases List.mem_append.1 hp with hp | hp <;> exact (List.mem_filter.1 hp).1
    · exact (List.mem_filter.1 hp).1
  · intro cl d hd
    exact (images_distinct hv hn (hnd.filter _) (hcond _ (fun p hp => (List.mem_filter.1 hp).1))).2 d hd

/-- C27: on a rectangular lattice the two functions classify every bond with two electrons
in the same way. -/
theorem C27_same_class (E : Env) (c : Config) (nbh nbv nb : Nat) (hc : RectConf c nbh nbv nb)
    (hf : c.Full) (det : List Nat) (hv : ValidDet c.nsites det) (a b : Nat) (hb : b < c.nsites) (hab : a < b)
    (hbond : c.bond.e a b = 1) (hae : occ c.nholes c.nbeta det a ≠ .hole) (hbe : occ c.nholes c.nbeta det b ≠ .hole) :
    ∃ cl, staticClass E c det (a, b) = .ok cl ∧ flipClass E.toSetSem c det (a, b) = .ok cl := by
  have g := hc.tj E
  have hnear := (g.bond_iff (by omega) hb).1 hbond
  exact ⟨_, staticClass_eq g.toGeomLattice hf hv (by omega) hb hab hnear hae hbe,
    flipClass_eq g hf hv (by omega) hb hab hnear hae hbe⟩

example : computeFlip SetSem.sorted (rectConf 3 1 1 1 1) [0, 1, 2] = .ok ([[0, 2, 1]], [], []) := by decide
example : computeFlip SetSem.sorted (rectConf 2 2 1 1 1) [0, 1, 2, 3] = .ok ([], [[0, 3, 1, 2]], []) := by decide

/-- C27, negative half: on every peripheral lattice with at least two rows and columns, with
one hole on the site above site 0, the bond between site 0 and the border site below it is
'collinear' for the static term and 'orthogonal' for the spin flips. -/
theorem C27_peripheral_disagree (E : Env) (c : Config) (hc : PeriConf c) (hW : 2 ≤ c.nbh * c.nblocs)
    (hH : 2 ≤ c.nbv * c.nblocs) (hf : c.Full) (det : List Nat) (hv : ValidDet c.nsites det)
    (h1 : c.nholes = 1) (hhole : occ c.nholes c.nbeta det (c.nbh * c.nblocs) = .hole) :
    c.bond.e 0 (c.nbh * c.nblocs * (c.nbv * c.nblocs)) = 1 ∧
    staticClass E c det (0, c.nbh * c.nblocs * (c.nbv * c.nblocs)) = .ok .par ∧
    flipClass E.toSetSem c det (0, c.nbh * c.nblocs * (c.nbv * c.nblocs)) = .ok .per := by
  have g := hc.geom hW hH E
  obtain ⟨sp1, sp2⟩ := hc.spec
  generalize hWe : c.nbh * c.nblocs = W at *
  generalize hHe : c.nbv * c.nblocs = H at *
  have hWH : W * 2 ≤ W * H := Nat.mul_le_mul_left _ hH
  have hWn : W < c.nsites := by rw [sp1]; omega
  have hNn : W * H < c.nsites := by rw [sp1]; omega
  have h0n : 0 < c.nsites := by omega
  have p0 : periPos W H 0 = (0, 0) := by
    rw [periPos_block (by omega)]; unfold gridPos; simp
  have pW : periPos W H W = (0, 1) := by
    rw [periPos_block (by omega)]; unfold gridPos
    rw [Nat.mod_self, Nat.div_self (by omega)]; rfl
  have pN : periPos W H (W * H) = (0, -1) := by
    unfold periPos
    rw [if_neg (by omega), Nat.sub_self]
    simp only
    rw [if_pos (by omega)]
    rfl
  have hone : ∀ x, x < c.nsites → (occC c det x = .hole ↔ x = W) := by
    intro x hx
    constructor
    · intro h
      rw [occ_hole_iff, h1] at h
      rw [occ_hole_iff, h1] at hhole
      match det, h, hhole with
      | d :: l, h, hhole =>
        simp only [List.take_succ_cons, List.take_zero, List.mem_singleton] at h hhole
        rw [h, hhole]
    · rintro rfl; exact hhole
  have h0e : occC c det 0 ≠ .hole := fun h => by have := (hone 0 h0n).1 h; omega
  have hNe : occC c det (W * H) ≠ .hole := fun h => by have := (hone _ hNn).1 h; omega
  have hnear : Near (periPos W H 0) (periPos W H (W * H)) := by rw [p0, pN]; decide
  have hnearW : Near (periPos W H 0) (periPos W H W) := by rw [p0, pW]; decide
  have hnn : ¬ Near (periPos W H (W * H)) (periPos W H W) := by rw [pN, pW]; decide
  refine ⟨(g.bond_iff h0n hNn).2 hnear, ?_, ?_⟩
  · rw [staticClass_eq g hf hv h0n hNn (by omega) hnear h0e hNe]
    congr 1
    unfold clsN
    rw [if_pos]
    exact ⟨W, hWn, hhole, Or.inl hnearW, by rw [p0, pN, pW]; decide⟩
  · obtain ⟨hs, e0, hnd, hmem⟩ := getIndexesOf_zero E.toSetSem hf hv
    unfold flipClass
    simp only [Nat.zero_min, Nat.zero_max]
    refine bind_ok (nbl_spec E.toSetSem c.bond (.list []) h0n).1 (bind_ok (nbl_spec E.toSetSem c.bond (.list []) hNn).1
      (bind_ok e0 ?_))
    have m0 : ∀ x, x ∈ E.inter (nbl E.toSetSem c.bond (.list []) 0) hs ↔ x = W := by
      intro x
      rw [E.mem_inter, mem_nbl_nil h0n, hmem]
      constructor
      · rintro ⟨_, h⟩; exact (hone x h.1).1 h.2
      · rintro rfl; exact ⟨⟨hWn, (g.bond_iff h0n hWn).2 hnearW⟩, hWn, hhole⟩
    have m1 : ∀ x, x ∉ E.inter (nbl E.toSetSem c.bond (.list []) (W * H)) hs := by
      intro x
      rw [E.mem_inter, mem_nbl_nil hNn, hmem]
      rintro ⟨h, h'⟩
      have := (hone x h'.1).1 h'.2
      subst this
      exact hnn ((g.bond_iff hNn hWn).1 h.2)
    have hne : E.inter (nbl E.toSetSem c.bond (.list []) 0) hs ≠ [] := List.ne_nil_of_mem ((m0 W).2 rfl)
    rw [if_neg, if_pos (Or.inl hne)]
    · rfl
    · rintro ⟨_, h⟩
      rcases List.mem_append.1 h with h | h
      · obtain ⟨x, hx, h'⟩ := List.mem_map.1 h
        rw [(m0 x).1 hx] at h'
        unfold absDiff at h'
        omega
      · obtain ⟨x, hx, _⟩ := List.mem_map.1 h
        exact m1 x hx

/-- The case is not empty: 2 x 2 block, twelve sites, hole on site 2. -/
example : staticClass exEnv (periConf 1 1 2 1 5) [2, 0, 1, 3, 4, 5, 6, 7, 8, 9, 10, 11] (0, 4) = .ok .par := by decide
example : flipClass SetSem.sorted (periConf 1 1 2 1 5) [2, 0, 1, 3, 4, 5, 6, 7, 8, 9, 10, 11] (0, 4) = .ok .per := by decide

/-! ### C28 -/

/-- Content of the sites after both electrons have moved one site towards the hole `a`. -/
def ShiftedTo (c : Config) (det : List Nat) (a m b : Nat) (d : List Nat) : Prop :=
  Canonical c.nsites c.nholes c.nbeta d ∧
    occ c.nholes c.nbeta d a = occ c.nholes c.nbeta det m ∧ occ c.nholes c.nbeta d m = occ c.nholes c.nbeta det b ∧
    occ c.nholes c.nbeta d b = .hole ∧
    ∀ s < c.nsites, s ≠ a → s ≠ m → s ≠ b → occ c.nholes c.nbeta d s = occ c.nholes c.nbeta det s

/-- Content of the sites after the outer electron has moved to the hole. -/
def OuterTo (c : Config) (det : List Nat) (a b : Nat) (d : List Nat) : Prop :=
  Canonical c.nsites c.nholes c.nbeta d ∧
    occ c.nholes c.nbeta d a = occ c.nholes c.nbeta det b ∧ occ c.nholes c.nbeta d b = .hole ∧
    ∀ s < c.nsites, s ≠ a → s ≠ b → occ c.nholes c.nbeta d s = occ c.nholes c.nbeta det s

/-- A path hole - electron - electron of opposite spin. -/
def SingletPath (c : Config) (det : List Nat) (a m b : Nat) : Prop :=
  a < c.nsites ∧ m < c.nsites ∧ b < c.nsites ∧ occ c.nholes c.nbeta det a = .hole ∧
    occ c.nholes c.nbeta det m ≠ .hole ∧ occ c.nholes c.nbeta det b = (occ c.nholes c.nbeta det m).rev ∧
    c.bond.e a m = 1 ∧ c.bond.e m b = 1

/-- The pairs of images listed for a list of paths. -/
def SingletImages (c : Config) (det : List Nat) (paths : List (Nat × Nat × Nat)) (images : List (List Nat × List Nat)) :
    Prop :=
  List.Forall₂ (fun p d => ShiftedTo c det p.1 p.2.1 p.2.2 d.1 ∧ OuterTo c det p.1 p.2.2 d.2 ∧
    SameCounts c det d.1 ∧ SameCounts c det d.2) paths images

section
variable {c : Config} {det : List Nat}

theorem SDPath.ne {a m b : Nat} (h : SDPath c (occC c det) a m b) : a ≠ m ∧ a ≠ b ∧ m ≠ b := by
  obtain ⟨h1, h2, h3, h4, h5, h6, _⟩ := h
  have hbe : occC c det b ≠ .hole := by
    rw [h6]; intro h; apply h5
    generalize occC c det m = o at h
    cases o <;> simp_all [Occ.rev]
  refine ⟨fun h => h5 (h ▸ h4), fun h => hbe (h ▸ h4), ?_⟩
  intro h
  rw [← h] at h6
  generalize occC c det m = o at h6 h5
  cases o <;> simp [Occ.rev] at h6 h5

theorem singletImages_map (hv : ValidDet c.nsites det) (hn : c.nholes + c.nbeta ≤ c.nsites) {L : List (Nat × Nat × Nat)}
    (hL : ∀ p ∈ L, SDPath c (occC c det) p.1 p.2.1 p.2.2) :
    SingletImages c det L (L.map (fun p => (detOf c.nsites (shiftOcc (occC c det) p.1 p.2.1 p.2.2),
          detOf c.nsites (swapOcc (occC c det) p.1 p.2.2)))) := by
  unfold SingletImages
  rw [List.forall₂_map_right_iff, List.forall₂_same]
  rintro ⟨a, m, b⟩ hp
  have hP := hL _ hp
  obtain ⟨n1, n2, n3⟩ := hP.ne
  obtain ⟨h1, h2, h3, h4, h5, h6, _⟩ := hP
  simp only at *
  have c1 : ∀ o, cnt c.nsites (shiftOcc (occC c det) a m b) o = cnt c.nsites (occC c det) o :=
    cnt_shiftOcc h1 h2 h3 n1 n2 n3 _
  have c2 : ∀ o, cnt c.nsites (swapOcc (occC c det) a b) o = cnt c.nsites (occC c det) o := cnt_swapOcc h1 h3 _
  have q1 : ∀ s < c.nsites, occ c.nholes c.nbeta (detOf c.nsites (shiftOcc (occC c det) a m b)) s =
      shiftOcc (occC c det) a m b s := fun s hs =>
    occ_detOf ((c1 _).trans (cnt_occ_hole hv hn)) ((c1 _).trans (cnt_occ_down hv hn)) hs
  have q2 : ∀ s < c.nsites, occ c.nholes c.nbeta (detOf c.nsites (swapOcc (occC c det) a b)) s =
      swapOcc (occC c det) a b s := fun s hs =>
    occ_detOf ((c2 _).trans (cnt_occ_hole hv hn)) ((c2 _).trans (cnt_occ_down hv hn)) hs
  refine ⟨⟨detOf_canonical ((c1 _).trans (cnt_occ_hole hv hn)) ((c1 _).trans (cnt_occ_down hv hn)), ?_, ?_, ?_, ?_⟩,
    ⟨detOf_canonical ((c2 _).trans (cnt_occ_hole hv hn)) ((c2 _).trans (cnt_occ_down hv hn)), ?_, ?_, ?_⟩, ?_, ?_⟩
  · rw [q1 a h1]; simp [shiftOcc]
  · rw [q1 m h2]; simp [shiftOcc, n1.symm]
  · rw [q1 b h3]; simp [shiftOcc, n2.symm, n3.symm, h4]
  · intro s hs s1 s2 s3
    rw [q1 s hs]; simp [shiftOcc, s1, s2, s3]
  · rw [q2 a h1]; simp [swapOcc]
  · rw [q2 b h3]; simp [swapOcc, h4]
  · intro s hs s1 s2
    rw [q2 s hs]; simp [swapOcc, Equiv.swap_apply_of_ne_of_ne s1 s2]
  · intro o
    rw [cnt_congr q1]; exact c1 o
  · intro o
    rw [cnt_congr q2]; exact c2 o

theorem sd_core (E : Env) (hf : c.Full) (hn : c.nholes + c.nbeta ≤ c.nsites) (hv : ValidDet c.nsites det)
    (lin : Nat → Nat → Nat → Bool)
    (hlin : ∀ a < c.nsites, ∀ m < c.nsites, ∀ b < c.nsites, a ≠ b → c.bond.e a m = 1 → c.bond.e m b = 1 →
      isBondLinear E c b m a = .ok (lin a m b)) :
    ∃ P Q col ort, computeSD E c det = .ok (col, ort) ∧ P.Nodup ∧ Q.Nodup ∧
      (∀ a m b, (a, m, b) ∈ P ↔ SingletPath c det a m b ∧ lin a m b = true) ∧
      (∀ a m b, (a, m, b) ∈ Q ↔ SingletPath c det a m b ∧ lin a m b = false) ∧
      SingletImages c det P col ∧ SingletImages c det Q ort := by
  obtain ⟨L, hnd, hmem, he⟩ := computeSD_eq E hf hv lin hlin
  refine ⟨L.filter (fun p => lin p.1 p.2.1 p.2.2), L.filter (fun p => !lin p.1 p.2.1 p.2.2), _, _, he, hnd.filter _,
    hnd.filter _, ?_, ?_, ?_, ?_⟩
  · intro a m b
    rw [List.mem_filter, hmem]
    rfl
  · intro a m b
    rw [List.mem_filter, hmem]
    simp only [Bool.not_eq_true']
    rfl
  · exact singletImages_map hv hn (fun p hp => (hmem p).1 (List.mem_filter.1 hp).1)
  · exact singletImages_map hv hn (fun p hp => (hmem p).1 (List.mem_filter.1 hp).1)

end

/-- C28 on every symmetric loop-free bond matrix of type 'periodic': one pair of images per
path, split by the answer of `is_bond_linear`. -/
theorem C28_singlet (E : Env) (c : Config) (hper : c.ltype = .periodic)
    (h01 : ∀ i < c.nsites, ∀ j < c.nsites, c.bond.e i j = 0 ∨ c.bond.e i j = 1)
    (hsym : ∀ i < c.nsites, ∀ j < c.nsites, c.bond.e i j = c.bond.e j i)
    (hloop : ∀ i < c.nsites, c.bond.e i i = 0)
    (hf : c.Full) (hn : c.nholes + c.nbeta ≤ c.nsites) (det : List Nat) (hv : ValidDet c.nsites det) :
    ∃ P Q col ort, computeSD E c det = .ok (col, ort) ∧ P.Nodup ∧ Q.Nodup ∧
      (∀ a m b, (a, m, b) ∈ P ↔ SingletPath c det a m b ∧ isBondLinear E c b m a = .ok true) ∧
      (∀ a m b, (a, m, b) ∈ Q ↔ SingletPath c det a m b ∧ isBondLinear E c b m a = .ok false) ∧
      SingletImages c det P col ∧ SingletImages c det Q ort := by
  let lin : Nat → Nat → Nat → Bool := fun a m b =>
    match isBondLinear E c b m a with
    | .ok r => r
    | .error _ => false
  have hl : ∀ a < c.nsites, ∀ m < c.nsites, ∀ b < c.nsites, a ≠ b → c.bond.e a m = 1 → c.bond.e m b = 1 →
      isBondLinear E c b m a = .ok (lin a m b) := by
    intro a ha m hm b hb hab h1 h2
    have hbm : c.bond.e b m = 1 := by rw [hsym b hb m hm]; exact h2
    have hma : c.bond.e m a = 1 := by rw [hsym m hm a ha]; exact h1
    obtain ⟨r, hr⟩ := (C23_errors E c hper h01 hsym hloop b m a hb hm ha).2 (by
      rintro (h | h | h | h | h | h)
      · subst h; rw [hloop b hb] at h2; exact absurd h2 (by decide)
      · exact hab h.symm
      · subst h; rw [hloop m hm] at h1; exact absurd h1 (by decide)
      · exact h.1 hbm
      · exact h.2 hma
      · exact h.2 h1)
    simp only [lin, hr]
  obtain ⟨P, Q, col, ort, h1, h2, h3, h4, h5, h6, h7⟩ := sd_core E hf hn hv lin hl
  refine ⟨P, Q, col, ort, h1, h2, h3, ?_, ?_, h6, h7⟩
  · intro a m b
    rw [h4]
    refine and_congr_right (fun h => ?_)
    rw [hl a h.1 m h.2.1 b h.2.2.1 (SDPath.ne h).2.1 h.2.2.2.2.2.2.1 h.2.2.2.2.2.2.2]
    simp
  · intro a m b
    rw [h5]
    refine and_congr_right (fun h => ?_)
    rw [hl a h.1 m h.2.1 b h.2.2.1 (SDPath.ne h).2.1 h.2.2.2.2.2.2.1 h.2.2.2.2.2.2.2]
    simp

/-- C28 on lattices of the plane: the first list contains the straight paths. -/
theorem C28_singlet_plane (E : Env) (c : Config) (pos : Nat → Pt) (g : GeomLattice E c pos)
    (hf : c.Full) (hn : c.nholes + c.nbeta ≤ c.nsites) (det : List Nat) (hv : ValidDet c.nsites det) :
    ∃ P Q col ort, computeSD E c det = .ok (col, ort) ∧ P.Nodup ∧ Q.Nodup ∧
      (∀ a m b, (a, m, b) ∈ P ↔ SingletPath c det a m b ∧ Aligned (pos a) (pos m) (pos b)) ∧
      (∀ a m b, (a, m, b) ∈ Q ↔ SingletPath c det a m b ∧ ¬ Aligned (pos a) (pos m) (pos b)) ∧
      SingletImages c det P col ∧ SingletImages c det Q ort := by
  obtain ⟨P, Q, col, ort, h1, h2, h3, h4, h5, h6, h7⟩ := sd_core E hf hn hv
    (fun a m b => decide (Aligned (pos a) (pos m) (pos b))) (by
      intro a ha m hm b hb hab h1 h2
      rw [g.bond_iff ha hm] at h1
      rw [g.bond_iff hm hb] at h2
      exact g.linear a ha m hm b hb hab h1 h2 b m a (List.reverse_perm [a, m, b]))
  refine ⟨P, Q, col, ort, h1, h2, h3, ?_, ?_, h6, h7⟩
  · intro a m b; rw [h4, decide_eq_true_iff]
  · intro a m b; rw [h5, decide_eq_false_iff_not]

example : computeSD exEnv (rectConf 3 1 1 1 1) [0, 1, 2] = .ok ([([2, 0, 1], [2, 1, 0])], []) := by decide
example : computeSD exEnv (rectConf 2 2 1 1 1) [0, 1, 2, 3] = .ok ([], [([3, 0, 1, 2], [3, 1, 0, 2])]) := by decide

/-! ### C29 -/

/-- Unordered pairs of holes in relation `R`. -/
def holePairs (c : Config) (det : List Nat) (R : Nat → Nat → Prop) [∀ a b, Decidable (R a b)] :
    Finset (Fin c.nsites × Fin c.nsites) :=
  univ.filter (fun p => p.1 < p.2 ∧ occ c.nholes c.nbeta det p.1 = .hole ∧ occ c.nholes c.nbeta det p.2 = .hole ∧
    R p.1 p.2)

/-- C29 on lattices of the plane. -/
theorem C29_repulsion_plane {K : Type} [Field K] (E : Env) (c : Config) (pos : Nat → Pt) (g : GeomLattice E c pos)
    (I : Interactions K) (hf : c.Full) (det : List Nat) (hv : ValidDet c.nsites det) :
    computeRepulsion E c I det = .ok
      (I.VNN * ((holePairs c det (fun a b => Near (pos a) (pos b))).card : K) +
       I.VNNNper * ((holePairs c det (fun a b => Diagonal (pos a) (pos b))).card : K)) := by
  rw [computeRepulsion_eq I g hf hv]
  congr 1
  have hcard : ∀ (R : Nat → Nat → Prop) [∀ a b, Decidable (R a b)] (V : K),
      V * ((holePairs c det R).card : K) = ∑ a : Fin c.nsites, ∑ b : Fin c.nsites,
        if a < b ∧ occC c det a = .hole ∧ occC c det b = .hole then (if R a b then V else 0) else 0 := by
    intro R _ V
    rw [← Fintype.sum_prod_type (f := fun p : Fin c.nsites × Fin c.nsites =>
      if p.1 < p.2 ∧ occC c det p.1 = .hole ∧ occC c det p.2 = .hole then (if R p.1 p.2 then V else 0) else 0)]
    unfold holePairs
    rw [card_filter, Nat.cast_sum, mul_sum]
    refine sum_congr rfl (fun p _ => ?_)
    by_cases h1 : p.1 < p.2 ∧ occC c det p.1 = .hole ∧ occC c det p.2 = .hole
    · by_cases h2 : R p.1 p.2 <;> simp [h1, h2]
    · rw [if_neg h1, if_neg (fun h => h1 ⟨h.1, h.2.1, h.2.2.1⟩)]
      simp
  rw [hcard, hcard, ← sum_add_distrib]
  refine sum_congr rfl (fun a _ => ?_)
  rw [← sum_add_distrib]
  refine sum_congr rfl (fun b _ => ?_)
  split_ifs <;> simp

/-- C29 for rectangular lattices. -/
theorem C29_repulsion {K : Type} [Field K] (E : Env) (c : Config) (nbh nbv nb : Nat) (hc : RectConf c nbh nbv nb)
    (I : Interactions K) (hf : c.Full) (det : List Nat) (hv : ValidDet c.nsites det) :
    computeRepulsion E c I det = .ok
      (I.VNN * ((holePairs c det (fun a b => Near (gridPos (nbh * nb) a) (gridPos (nbh * nb) b))).card : K) +
       I.VNNNper * ((holePairs c det (fun a b => Diagonal (gridPos (nbh * nb) a) (gridPos (nbh * nb) b))).card : K)) :=
  C29_repulsion_plane E c _ (hc.geom E) I hf det hv

/-- Three holes on a tile: two bonds and one diagonal. -/
example : computeRepulsion exEnv (rectConf 2 2 1 3 1) exI [0, 1, 2, 3] = .ok (2 * 19 + 23) := by decide +kernel

end TJ
