/-
The border of `embedding_neel`: pattern, initial probabilities, update.
-/
import Verif.Lemmas.EmbedSym
import Verif.Lemmas.Observables
import Verif.Lemmas.Linear
import Verif.Props.Basis
import Mathlib.Tactic.Linarith

namespace TJ

open Finset

section
variable {K : Type} [Field K] [LinearOrder K] [IsStrictOrderedRing K]

/-! ### Probabilities -/

theorem spins_eq {c : Config} {dets : List (List Nat)} (hb : constructBasis c = .ok dets) (hn : c.nholes + c.nbeta ≤ c.nsites)
    (v : List K) (hv : v.length = dets.length) :
    ∃ P : Occ → List K, spinsProbabilities c dets v = .ok [(-1, P .down), (0, P .hole), (1, P .up)] ∧
      spinsProbabilities c dets v true = .ok [(-1, P .up), (0, P .hole), (1, P .down)] ∧ (∀ o, (P o).length = c.nsites) ∧
      ∀ o, ∀ s : Fin c.nsites, (P o).getD s 0 = born (amp c dets v) s o := by
  choose P P1 P2 P3 using fun o => probabilitySpin_spec hb hn v hv o
  have d1 := P1 .down
  have h1 := P1 .hole
  have u1 := P1 .up
  have d2 : probabilitySpin c dets v 1 true = .ok (P .down) := (probabilitySpin_reverse v .up).trans d1
  have h2 : probabilitySpin c dets v 0 true = .ok (P .hole) := (probabilitySpin_reverse v .hole).trans h1
  have u2 : probabilitySpin c dets v (-1) true = .ok (P .up) := (probabilitySpin_reverse v .down).trans u1
  simp only [Occ.twice] at d1 h1 u1
  refine ⟨P, ?_, ?_, P2, P3⟩
  · unfold spinsProbabilities
    simp [List.mapM_cons, d1, h1, u1]
    rfl
  · unfold spinsProbabilities
    simp [List.mapM_cons, d2, h2, u2]
    rfl

omit [LinearOrder K] [IsStrictOrderedRing K] in
theorem unitVect_ok {n k : Nat} (hk : k < n) : unitVect (K := K) n k = .ok ((List.replicate n (0 : K)).set k 1) := by
  unfold unitVect pySet
  rw [if_pos (by simpa using hk)]

omit [LinearOrder K] [IsStrictOrderedRing K] in
theorem unit_getD {n k j : Nat} (hk : k < n) : ((List.replicate n (0 : K)).set k 1).getD j 0 = if j = k then 1 else 0 := by
  rw [List.getD_eq_getElem?_getD, List.getElem?_set]
  by_cases h : k = j
  · subst h; simp [hk]
  · rw [if_neg h, if_neg (fun h' => h h'.symm), List.getElem?_replicate]
    split_ifs <;> rfl

omit [LinearOrder K] [IsStrictOrderedRing K] in
theorem amp_unit {c : Config} {dets : List (List Nat)} {k : Nat} (hk : k < dets.length) (σ : Conf c.nsites) :
    amp c dets ((List.replicate dets.length (0 : K)).set k 1) σ = if conf c dets[k] = σ then 1 else 0 := by
  unfold amp
  rw [sum_eq_single_of_mem k (mem_range.2 hk)]
  · rw [unit_getD hk, if_pos rfl]
    simp [List.getD_eq_getElem?_getD, hk]
  · intro j hj hne
    rw [unit_getD hk, if_neg hne, ite_self]

omit [LinearOrder K] [IsStrictOrderedRing K] in
theorem born_unit {c : Config} {dets : List (List Nat)} {k : Nat} (hk : k < dets.length) (s : Fin c.nsites) (o : Occ) :
    born (amp c dets ((List.replicate dets.length (0 : K)).set k 1)) s o = if occ c.nholes c.nbeta dets[k] s = o then 1 else 0 := by
  unfold born
  simp only [amp_unit hk]
  have e1 : (∑ σ : Conf c.nsites, (if conf c dets[k] = σ then (1 : K) else 0) * (if conf c dets[k] = σ then 1 else 0)) = 1 := by
    rw [sum_eq_single (conf c dets[k])]
    · simp
    · intro b _ hb
      rw [if_neg (fun h => hb h.symm)]; simp
    · intro h; exact absurd (mem_univ _) h
  rw [e1, div_one, sum_eq_single (conf c dets[k])]
  · rw [if_pos rfl, mul_one]; rfl
  · intro b _ hb
    have : conf c dets[k] ≠ b := fun h => hb h.symm
    simp [this]
  · intro h; exact absurd (mem_univ _) h

/-- The probabilities of a basis vector are the occupations of its determinant. -/
theorem spins_unit {c : Config} {dets : List (List Nat)} (hb : constructBasis c = .ok dets) (hn : c.nholes + c.nbeta ≤ c.nsites)
    {k : Nat} (hk : k < dets.length) :
    ∃ P : Occ → List K, spinsProbabilities c dets ((List.replicate dets.length (0 : K)).set k 1) =
        .ok [(-1, P .down), (0, P .hole), (1, P .up)] ∧ (∀ o, (P o).length = c.nsites) ∧
      ∀ o, ∀ s < c.nsites, (P o).getD s 0 = if occ c.nholes c.nbeta dets[k] s = o then 1 else 0 := by
  obtain ⟨P, h1, _, h2, h3⟩ := spins_eq hb hn ((List.replicate dets.length (0 : K)).set k 1) (by simp)
  exact ⟨P, h1, h2, fun o s hs => by rw [h3 o ⟨s, hs⟩, born_unit hk]⟩

/-! ### The pattern -/

theorem oddSite_near {p q : Pt} (h : Near p q) : oddSite p ↔ ¬ oddSite q := by
  unfold oddSite
  rw [near_iff] at h
  omega

theorem nRest_eq (nbh nbv nb : Nat) : nRest nbh nbv nb = 2 * (nbh * nb + nbv * nb) := by unfold nRest; ring

theorem mem_betaNeel (nbh nbv nb r : Nat) : r ∈ betaNeel nbh nbv nb ↔
    r < nRest nbh nbv nb ∧ oddSite (periPos (nbh * nb) (nbv * nb) ((nbh * nb) * (nbv * nb) + r)) := by
  unfold betaNeel
  rw [List.mem_filter, List.mem_range]
  refine and_congr_right fun hr => ?_
  rw [nRest_eq] at hr
  have e2 : (nbh + nbv) * nb = nbh * nb + nbv * nb := by ring
  have e3 : (2 * nbh + nbv) * nb = 2 * (nbh * nb) + nbv * nb := by ring
  rw [e2, e3, decide_eq_true_eq]
  generalize nbh * nb = W at *
  generalize nbv * nb = H at *
  clear e2 e3
  have hp : periPos W H (W * H + r) = if r < W then ((r : Int), (-1 : Int)) else if r < W + H then ((W : Int), ((r - W : Nat) : Int))
      else if r < 2 * W + H then ((W : Int) - 1 - (r - (W + H) : Nat), (H : Int)) else (-1, (H : Int) - 1 - (r - (2 * W + H) : Nat)) := by
    unfold periPos
    rw [if_neg (by omega)]
    simp only
    rw [show W * H + r - W * H = r by omega]
  rw [hp]
  unfold oddSite b2n
  by_cases k1 : r < W
  · rw [if_pos k1, if_neg (show ¬ W ≤ r by omega), if_neg (show ¬ W + H ≤ r by omega), if_neg (show ¬ 2 * W + H ≤ r by omega)]
    simp only
    omega
  · rw [if_neg k1, if_pos (show W ≤ r by omega)]
    by_cases k2 : r < W + H
    · rw [if_pos k2, if_neg (show ¬ W + H ≤ r by omega), if_neg (show ¬ 2 * W + H ≤ r by omega)]
      simp only
      omega
    · rw [if_neg k2, if_pos (show W + H ≤ r by omega)]
      by_cases k3 : r < 2 * W + H
      · rw [if_pos k3, if_neg (show ¬ 2 * W + H ≤ r by omega)]
        simp only
        omega
      · rw [if_neg k3, if_pos (show 2 * W + H ≤ r by omega)]
        simp only
        omega

theorem nodup_betaNeel (nbh nbv nb : Nat) : (betaNeel nbh nbv nb).Nodup := List.nodup_range.filter _

theorem valid_detNeel (S : SetSem) (nbh nbv nb : Nat) : ValidDet (nRest nbh nbv nb) (detNeel S nbh nbv nb) := by
  unfold ValidDet detNeel
  refine (List.perm_ext_iff_of_nodup ?_ List.nodup_range).2 ?_
  · rw [List.nodup_append]
    refine ⟨nodup_betaNeel _ _ _, S.nodup_diff _ _, ?_⟩
    intro a ha b hb hab
    subst hab
    exact ((S.mem_diff _ _ _).1 hb).2 ha
  · intro a
    rw [List.mem_append, S.mem_diff, List.mem_range]
    constructor
    · rintro (h | h)
      · exact ((mem_betaNeel _ _ _ _).1 h).1
      · exact h.1
    · intro h
      by_cases hb : a ∈ betaNeel nbh nbv nb
      · exact .inl hb
      · exact .inr ⟨h, hb⟩

theorem occ_detNeel (S : SetSem) (nbh nbv nb r : Nat) (hr : r < nRest nbh nbv nb) :
    occ 0 (betaNeel nbh nbv nb).length (detNeel S nbh nbv nb) r =
      if oddSite (periPos (nbh * nb) (nbv * nb) ((nbh * nb) * (nbv * nb) + r)) then .down else .up := by
  unfold occ detNeel
  rw [List.take_zero, List.drop_zero, List.take_left, if_neg (by simp)]
  by_cases h : oddSite (periPos (nbh * nb) (nbv * nb) ((nbh * nb) * (nbv * nb) + r))
  · rw [if_pos h, if_pos ((mem_betaNeel _ _ _ _).2 ⟨hr, h⟩)]
  · rw [if_neg h, if_neg (fun h' => h ((mem_betaNeel _ _ _ _).1 h').2)]

theorem configRest_ok (nbh nbv nb : Nat) (h1 : 1 ≤ nbh) (h2 : 1 ≤ nbv) (h3 : 1 ≤ nb) :
    ∃ cR, configRest nbh nbv nb = .ok cR ∧ buildBondMatrixNeelOuterLattice nbh nbv nb = .ok cR.bond ∧
      cR.nsites = nRest nbh nbv nb ∧ cR.nholes = 0 ∧ cR.nbeta = (betaNeel nbh nbv nb).length := by
  have hW : 1 ≤ nbh * nb := Nat.mul_pos h1 h3
  have hH : 1 ≤ nbv * nb := Nat.mul_pos h2 h3
  obtain ⟨R, r1, r2, r3, r4⟩ := buildOuter_eq nbh nbv nb _ _ rfl rfl hW hH
  have hi : Config.init R 0 (betaNeel nbh nbv nb).length (.list []) .periodic nbh nbv nb =
      .ok ⟨R, 0, (betaNeel nbh nbv nb).length, (List.range R.rows, List.range R.rows), .periodic, nbh, nbv, nb⟩ := by
    unfold Config.init
    rw [if_neg (by omega)]
  exact ⟨_, bind_ok r1 hi, r1, by rw [nRest_eq]; exact r2, rfl, rfl⟩

theorem length_betaNeel_le (nbh nbv nb : Nat) : (betaNeel nbh nbv nb).length ≤ nRest nbh nbv nb := by
  unfold betaNeel
  exact (List.length_filter_le _ _).trans (by simp)

theorem initialProb_ok (S : SetSem) (nbh nbv nb : Nat) (h1 : 1 ≤ nbh) (h2 : 1 ≤ nbv) (h3 : 1 ≤ nb) :
    ∃ P : Occ → List K, initialProb S nbh nbv nb = .ok [(-1, P .down), (0, P .hole), (1, P .up)] ∧
      (∀ o, (P o).length = nRest nbh nbv nb) ∧
      ∀ o, ∀ r < nRest nbh nbv nb, (P o).getD r 0 =
        if (if oddSite (periPos (nbh * nb) (nbv * nb) ((nbh * nb) * (nbv * nb) + r)) then Occ.down else .up) = o then 1 else 0 := by
  obtain ⟨cR, e1, e2, e3, e4, e5⟩ := configRest_ok nbh nbv nb h1 h2 h3
  have hn : cR.nholes + cR.nbeta ≤ cR.nsites := by
    rw [e3, e4, e5]
    have := length_betaNeel_le nbh nbv nb
    omega
  have hv : ValidDet cR.nsites (detNeel S nbh nbv nb) := by rw [e3]; exact valid_detNeel S nbh nbv nb
  have hidx := getElem?_index hv hn
  obtain ⟨hk, hg⟩ := List.getElem?_eq_some_iff.1 hidx
  have hlen : cR.nbConf = (basisList cR.nsites cR.nholes cR.nbeta).length := by
    exact (C02_dimension cR _ (constructBasis_eq cR)).symm
  obtain ⟨P, p1, p2, p3⟩ := spins_unit (K := K) (constructBasis_eq cR) hn hk
  refine ⟨P, ?_, fun o => by rw [p2, e3], fun o r hr => ?_⟩
  · unfold initialProb
    refine bind_ok e1 (bind_ok (constructBasis_eq cR) (bind_ok (unitVect_ok (by rw [hlen]; exact hk)) ?_))
    rw [hlen]; exact p1
  · rw [p3 o r (by rw [e3]; exact hr), hg]
    have := occ_detNeel S nbh nbv nb r hr
    rw [← this]
    have h8 := (C08_reorder cR hn _ (constructBasis_eq cR) _ hv).1 r (by rw [e3]; exact hr)
    rw [h8, e4, e5]

/-! ### The update of the border -/

omit [LinearOrder K] [IsStrictOrderedRing K] in
theorem assignProb_ok {A B C : List K} {m s : Nat} (hA : A.length = m) (hB : B.length = m) (hC : C.length = m) (hs : s < m) (x y z : K) :
    assignProb [(1, A), (-1, B), (0, C)] s x y z = .ok [(1, A.set s y), (-1, B.set s x), (0, C.set s z)] := by
  have e : ∀ (L : List K) (w : K), L.length = m → pySet L s w = .ok (L.set s w) := by
    intro L w hL
    unfold pySet
    rw [if_pos (by omega)]
  unfold assignProb
  simp [List.mapM_cons, e A y hA, e B x hB, e C z hC]
  rfl

omit [LinearOrder K] [IsStrictOrderedRing K] in
theorem assign_loop (n m : Nat) (x y z : K) : ∀ (f : List Nat) (A B C : List K), A.length = m → B.length = m → C.length = m →
    (∀ s ∈ f, s - n < m) →
    ∃ A' B' C', f.foldlM (fun (pR : List (Int × List K)) s => assignProb pR (s - n) x y z) [(1, A), (-1, B), (0, C)] =
        .ok [(1, A'), (-1, B'), (0, C')] ∧ A'.length = m ∧ B'.length = m ∧ C'.length = m ∧
      ∀ r < m, A'.getD r 0 = (if ∃ s ∈ f, s - n = r then y else A.getD r 0) ∧
        B'.getD r 0 = (if ∃ s ∈ f, s - n = r then x else B.getD r 0) ∧
        C'.getD r 0 = (if ∃ s ∈ f, s - n = r then z else C.getD r 0)
  | [], A, B, C, hA, hB, hC, _ => ⟨A, B, C, rfl, hA, hB, hC, fun r _ => by simp⟩
  | s :: f, A, B, C, hA, hB, hC, hf => by
    have hs := hf s (by simp)
    obtain ⟨A', B', C', h1, h2, h3, h4, h5⟩ := assign_loop n m x y z f (A.set (s - n) y) (B.set (s - n) x) (C.set (s - n) z)
      (by simpa using hA) (by simpa using hB) (by simpa using hC) (fun t ht => hf t (List.mem_cons_of_mem _ ht))
    refine ⟨A', B', C', ?_, h2, h3, h4, ?_⟩
    · rw [List.foldlM_cons]
      exact bind_ok (assignProb_ok hA hB hC hs x y z) h1
    · have key : ∀ (L : List K) (w : K), L.length = m → ∀ r < m, (L.set (s - n) w).getD r 0 = if s - n = r then w else L.getD r 0 := by
        intro L w hL r hr
        rw [List.getD_eq_getElem?_getD, List.getElem?_set]
        by_cases h : s - n = r
        · rw [if_pos h, if_pos h, if_pos (by omega)]; rfl
        · rw [if_neg h, if_neg h, List.getD_eq_getElem?_getD]
      intro r hr
      obtain ⟨a, b, c⟩ := h5 r hr
      rw [key A y hA r hr] at a
      rw [key B x hB r hr] at b
      rw [key C z hC r hr] at c
      have hex : (∃ t ∈ s :: f, t - n = r) ↔ (s - n = r ∨ ∃ t ∈ f, t - n = r) := by simp
      rw [a, b, c]
      simp only [hex]
      by_cases g1 : ∃ t ∈ f, t - n = r
      · simp [g1]
      · by_cases g2 : s - n = r <;> simp [g1, g2]

omit [LinearOrder K] [IsStrictOrderedRing K] in
theorem probAt_three (D H U : List K) (s : Nat) (x : K) :
    (D[s]? = some x → probAt [(-1, D), (0, H), (1, U)] (-1) s = .ok x) ∧
    (H[s]? = some x → probAt [(-1, D), (0, H), (1, U)] 0 s = .ok x) ∧
    (U[s]? = some x → probAt [(-1, D), (0, H), (1, U)] 1 s = .ok x) := by
  refine ⟨fun h => ?_, fun h => ?_, fun h => ?_⟩ <;>
  · simp [probAt, List.lookup, pyGet, h]

omit [LinearOrder K] [IsStrictOrderedRing K] in
theorem getElem?_getD {l : List K} {i : Nat} (h : i < l.length) : l[i]? = some (l.getD i 0) := by
  rw [List.getD_eq_getElem?_getD, List.getElem?_eq_getElem h]
  rfl

/-- The block and its border. -/
structure NeelGeom (c : Config) (emb : NdMat) : Prop where
  hh : 1 ≤ c.nbh
  hv : 1 ≤ c.nbv
  hb : 1 ≤ c.nblocs
  rows : c.nsites = (c.nbh * c.nblocs) * (c.nbv * c.nblocs)
  bond : ∀ i < c.nsites, ∀ j < c.nsites, (c.bond.e i j = 1 ↔ Near (gridPos (c.nbh * c.nblocs) i) (gridPos (c.nbh * c.nblocs) j))
  erows : emb.rows = c.nsites + nRest c.nbh c.nbv c.nblocs
  ebond : ∀ i < emb.rows, ∀ j < emb.rows,
    (emb.e i j = 1 ↔ Near (periPos (c.nbh * c.nblocs) (c.nbv * c.nblocs) i) (periPos (c.nbh * c.nblocs) (c.nbv * c.nblocs) j))

theorem foreign_spec {S : SetSem} {c : Config} {emb : NdMat} (g : NeelGeom c emb) {a : Nat} (ha : a < c.nsites) :
    ∃ f, foreignNeel S c emb a = .ok f ∧ f.Nodup ∧ ∀ s, s ∈ f ↔ (c.nsites ≤ s ∧ s < emb.rows ∧ emb.e a s = 1) := by
  have her := g.erows
  obtain ⟨l, h1, h2, h3⟩ := getNeighbors_spec S emb (.list (List.range' c.nsites (nRest c.nbh c.nbv c.nblocs))) a (by omega)
  refine ⟨l, h1, h2, fun s => ?_⟩
  rw [h3]
  have hpos : 1 ≤ nRest c.nbh c.nbv c.nblocs := by
    unfold nRest
    exact Nat.mul_pos (Nat.mul_pos (by decide) (by have := g.hh; omega)) g.hb
  have hall : allowed emb.rows (.list (List.range' c.nsites (nRest c.nbh c.nbv c.nblocs))) s ↔ (c.nsites ≤ s ∧ s < emb.rows) := by
    obtain ⟨m, hm⟩ : ∃ m, nRest c.nbh c.nbv c.nblocs = m + 1 := ⟨_, (Nat.sub_add_cancel hpos).symm⟩
    have : s ∈ List.range' c.nsites (nRest c.nbh c.nbv c.nblocs) ↔ (c.nsites ≤ s ∧ s < emb.rows) := by
      rw [List.mem_range'_1, her]
    rw [hm] at this ⊢
    rw [List.range'_succ] at this ⊢
    exact this
  rw [hall]
  constructor
  · rintro ⟨h, h', h''⟩; exact ⟨h'.1, h, h''⟩
  · rintro ⟨h, h', h''⟩; exact ⟨h', ⟨h, h'⟩, h''⟩

/-- The update of the border, from a list of block sites. -/
theorem update_loop {S : SetSem} {c : Config} {emb : NdMat} (g : NeelGeom c emb) (P : Occ → List K) (hP : ∀ o, (P o).length = c.nsites) :
    ∀ (fr : List Nat), (∀ a ∈ fr, a < c.nsites) → ∀ (A B C : List K), A.length = nRest c.nbh c.nbv c.nblocs →
      B.length = nRest c.nbh c.nbv c.nblocs → C.length = nRest c.nbh c.nbv c.nblocs →
      ∃ A' B' C', fr.foldlM (fun (pR : List (Int × List K)) siteA => do
          let alpha ← probAt [(-1, P .down), (0, P .hole), (1, P .up)] 1 siteA
          let beta ← probAt [(-1, P .down), (0, P .hole), (1, P .up)] (-1) siteA
          let hole ← probAt [(-1, P .down), (0, P .hole), (1, P .up)] 0 siteA
          let foreign ← foreignNeel S c emb siteA
          foreign.foldlM (fun (pR : List (Int × List K)) siteR => assignProb pR (siteR - c.nsites) alpha beta hole) pR)
          [(1, A), (-1, B), (0, C)] = .ok [(1, A'), (-1, B'), (0, C')] ∧
        A'.length = nRest c.nbh c.nbv c.nblocs ∧ B'.length = nRest c.nbh c.nbv c.nblocs ∧ C'.length = nRest c.nbh c.nbv c.nblocs ∧
        ∀ r < nRest c.nbh c.nbv c.nblocs, ∀ b < c.nsites, emb.e b (c.nsites + r) = 1 →
          (∀ b' < c.nsites, emb.e b' (c.nsites + r) = 1 → b' = b) →
          A'.getD r 0 = (if b ∈ fr then (P .down).getD b 0 else A.getD r 0) ∧
          B'.getD r 0 = (if b ∈ fr then (P .up).getD b 0 else B.getD r 0) ∧
          C'.getD r 0 = (if b ∈ fr then (P .hole).getD b 0 else C.getD r 0)
  | [], _, A, B, C, hA, hB, hC => ⟨A, B, C, rfl, hA, hB, hC, fun r _ b _ _ _ => by simp⟩
  | a :: fr, hfr, A, B, C, hA, hB, hC => by
    have ha := hfr a (by simp)
    have her := g.erows
    obtain ⟨f, f1, _, f3⟩ := foreign_spec (S := S) g ha
    obtain ⟨A1, B1, C1, s1, s2, s3, s4, s5⟩ := assign_loop c.nsites (nRest c.nbh c.nbv c.nblocs) ((P .up).getD a 0) ((P .down).getD a 0)
      ((P .hole).getD a 0) f A B C hA hB hC (fun s hs => by have := (f3 s).1 hs; omega)
    obtain ⟨A', B', C', h1, h2, h3, h4, h5⟩ := update_loop (S := S) g P hP fr (fun x hx => hfr x (List.mem_cons_of_mem _ hx)) A1 B1 C1 s2 s3 s4
    refine ⟨A', B', C', ?_, h2, h3, h4, ?_⟩
    · rw [List.foldlM_cons]
      refine bind_ok (bind_ok ((probAt_three _ _ _ _ _).2.2 (getElem?_getD (by rw [hP]; exact ha)))
        (bind_ok ((probAt_three _ _ _ _ _).1 (getElem?_getD (by rw [hP]; exact ha)))
          (bind_ok ((probAt_three _ _ _ _ _).2.1 (getElem?_getD (by rw [hP]; exact ha))) (bind_ok f1 s1)))) h1
    · intro r hr b hb hnb huniq
      obtain ⟨x, y, z⟩ := h5 r hr b hb hnb huniq
      obtain ⟨x', y', z'⟩ := s5 r hr
      have hex : (∃ s ∈ f, s - c.nsites = r) ↔ a = b := by
        constructor
        · rintro ⟨s, hs, rfl⟩
          have := (f3 s).1 hs
          refine huniq a ha ?_
          rw [show c.nsites + (s - c.nsites) = s by omega]
          exact this.2.2
        · rintro rfl
          exact ⟨c.nsites + r, (f3 _).2 ⟨by omega, by omega, hnb⟩, by omega⟩
      rw [x, y, z, x', y', z']
      simp only [hex, List.mem_cons]
      by_cases g1 : b ∈ fr
      · simp [g1]
      · by_cases g2 : a = b
        · subst g2; simp [g1]
        · have g3 : ¬ b = a := fun h => g2 h.symm
          simp [g1, g2, g3]

theorem filterM_ok {α : Type} {f : α → Py Bool} {p : α → Bool} {l : List α} (h : ∀ x ∈ l, f x = .ok (p x)) :
    l.filterM f = .ok (l.filter p) := by
  have aux : ∀ (l acc : List α), (∀ x ∈ l, f x = .ok (p x)) → l.filterAuxM f acc = .ok ((l.filter p).reverse ++ acc) := by
    intro l
    induction l with
    | nil => intro acc _; rfl
    | cons a l ih =>
      intro acc hl
      unfold List.filterAuxM
      rw [hl a (by simp)]
      refine (ih _ (fun x hx => hl x (List.mem_cons_of_mem _ hx))).trans ?_
      cases hp : p a <;> simp [hp]
  unfold List.filterM
  rw [aux l [] h]
  show Except.ok _ = Except.ok _
  simp

/-- The frontier contains exactly the block sites with a neighbour on the border. -/
theorem frontier_spec {S : SetSem} {c : Config} {emb : NdMat} (g : NeelGeom c emb) :
    ∃ fr, frontierNeel S c emb = .ok fr ∧ fr.Nodup ∧
      ∀ a, a ∈ fr ↔ (a < c.nsites ∧ ∃ r < nRest c.nbh c.nbv c.nblocs, emb.e a (c.nsites + r) = 1) := by
  have her := g.erows
  have hperi : ∀ i < c.nsites, periPos (c.nbh * c.nblocs) (c.nbv * c.nblocs) i = gridPos (c.nbh * c.nblocs) i := by
    intro i hi
    unfold periPos
    rw [if_pos (by rw [← g.rows]; exact hi)]
  have hone : ∀ a < c.nsites, ∃ b : Bool, (do
      let x ← getNeighbors S a c.bond (.list [])
      let y ← getNeighbors S a emb (.list [])
      return decide (x.length < y.length) : Py Bool) = .ok b ∧
        (b = true ↔ ∃ r < nRest c.nbh c.nbv c.nblocs, emb.e a (c.nsites + r) = 1) := by
    intro a ha
    obtain ⟨x, x1, x2, x3⟩ := getNeighbors_spec S c.bond (.list []) a ha
    obtain ⟨y, y1, y2, y3⟩ := getNeighbors_spec S emb (.list []) a (by omega)
    refine ⟨_, bind_ok x1 (bind_ok y1 rfl), ?_⟩
    have hsub : ∀ s, s ∈ x ↔ s ∈ y ∧ s < c.nsites := by
      intro s
      rw [x3, y3]
      have hr : c.bond.rows = c.nsites := rfl
      rw [hr]
      simp only [allowed]
      constructor
      · rintro ⟨h1, _, h2⟩
        refine ⟨⟨by omega, by omega, ?_⟩, h1⟩
        rw [g.ebond a (by omega) s (by omega), hperi a ha, hperi s h1]
        exact (g.bond a ha s h1).1 h2
      · rintro ⟨⟨h1, _, h2⟩, h3⟩
        refine ⟨h3, h3, ?_⟩
        rw [g.ebond a (by omega) s (by omega), hperi a ha, hperi s h3] at h2
        exact (g.bond a ha s h3).2 h2
    rw [decide_eq_true_eq]
    have hperm : x.Perm (y.filter (fun s => s < c.nsites)) := by
      refine (List.perm_ext_iff_of_nodup x2 (y2.filter _)).2 fun s => ?_
      rw [hsub, List.mem_filter, decide_eq_true_eq]
    rw [hperm.length_eq]
    constructor
    · intro hlt
      by_contra hcon
      push Not at hcon
      have : y.filter (fun s => s < c.nsites) = y := by
        rw [List.filter_eq_self]
        intro s hs
        rw [decide_eq_true_eq]
        by_contra hge
        have := (y3 s).1 hs
        exact hcon (s - c.nsites) (by omega) (by rw [show c.nsites + (s - c.nsites) = s by omega]; exact this.2.2)
      rw [this] at hlt
      exact lt_irrefl _ hlt
    · rintro ⟨r, hr, he⟩
      apply List.length_filter_lt_length_iff_exists.2
      exact ⟨c.nsites + r, (y3 _).2 ⟨by omega, by show _ < _; omega, he⟩, by simp⟩
  classical
  refine ⟨(List.range c.nsites).filter (fun a => decide (∃ r < nRest c.nbh c.nbv c.nblocs, emb.e a (c.nsites + r) = 1)), ?_,
    List.nodup_range.filter _, fun a => by rw [List.mem_filter, List.mem_range, decide_eq_true_eq]⟩
  unfold frontierNeel
  refine filterM_ok fun a ha => ?_
  obtain ⟨b, b1, b2⟩ := hone a (List.mem_range.1 ha)
  rw [b1]
  congr 1
  rw [Bool.eq_iff_iff, b2, decide_eq_true_eq]

theorem isLaw_three (D H U : List K) (m : Nat) (hD : D.length = m) (hH : H.length = m) (hU : U.length = m) :
    IsLaw [(-1, D), (0, H), (1, U)] m (fun o r => match o with | .down => D.getD r 0 | .hole => H.getD r 0 | .up => U.getD r 0) := by
  intro o
  cases o
  · exact ⟨H, rfl, hH, fun _ _ => rfl⟩
  · exact ⟨D, rfl, hD, fun _ _ => rfl⟩
  · exact ⟨U, rfl, hU, fun _ _ => rfl⟩

theorem neelGeom {c : Config} (hc : RectConf c c.nbh c.nbv c.nblocs) :
    ∃ emb, buildBondMatrixNeelEmbedding c.nbh c.nbv c.nblocs = .ok emb ∧ NeelGeom c emb := by
  obtain ⟨m, m1, m2, m3, m4⟩ := neel_eq c.nbh c.nbv c.nblocs _ _ rfl rfl (Nat.mul_pos hc.hh hc.hb) (Nat.mul_pos hc.hv hc.hb)
  obtain ⟨s1, s2⟩ := hc.spec
  refine ⟨m, m1, hc.hh, hc.hv, hc.hb, s1, ?_, by rw [s1, nRest_eq]; exact m2, ?_⟩
  · intro i hi j hj
    rw [s2 i hi j hj]
    unfold nnInd
    split_ifs with h <;> simp [h]
  · intro i hi j hj
    rw [m4 i (by omega) j (by omega)]
    unfold nnInd
    split_ifs with h <;> simp [h]

omit [LinearOrder K] [IsStrictOrderedRing K] [Field K] in
theorem init_ok (bond : NdMat) (h b : Nat) (r : RestrArg) (t : LatticeType) (x y z : Nat) (hn : bond.rows ≠ 0) :
    ∃ c, Config.init bond h b r t x y z = .ok c ∧ c.bond = bond ∧ c.nholes = h ∧ c.nbeta = b ∧ c.ltype = t ∧ c.nbh = x ∧ c.nbv = y ∧
      c.nblocs = z ∧ c.restr = (match r with
      | .list [] => (List.range bond.rows, List.range bond.rows)
      | .list l => (l, l)
      | .pair a b => (a, b)) := by
  unfold Config.init
  rw [if_neg hn]
  exact ⟨_, rfl, rfl, rfl, rfl, rfl, rfl, rfl, rfl, rfl⟩

theorem neelSetup_ok (S : SetSem) {c : Config} (hc : RectConf c c.nbh c.nbv c.nblocs) :
    ∃ su, neelSetup S c = .ok su ∧ buildBondMatrixNeelEmbedding c.nbh c.nbv c.nblocs = .ok su.emb ∧ NeelGeom c su.emb ∧
      frontierNeel S c su.emb = .ok su.frontier ∧ su.cE.bond = su.emb ∧ su.cE.ltype = .peripheral ∧ su.cE.nbh = c.nbh ∧
      su.cE.nbv = c.nbv ∧ su.cE.nblocs = c.nblocs := by
  obtain ⟨emb, e1, g⟩ := neelGeom hc
  obtain ⟨fr, f1, _⟩ := frontier_spec (S := S) g
  have her := g.erows
  obtain ⟨nb, n1, _⟩ := mapM_ok_exists (f := fun site => getNeighbors S site emb (.list [])) (P := fun _ _ => True) (l := List.range c.nsites)
    (fun x hx => by
      obtain ⟨l, h, _⟩ := getNeighbors_spec S emb (.list []) x (by have := List.mem_range.1 hx; omega)
      exact ⟨l, h, trivial⟩)
  have hn : c.nsites ≠ 0 := by
    rw [g.rows]
    exact Nat.pos_iff_ne_zero.1 (Nat.mul_pos (Nat.mul_pos g.hh g.hb) (Nat.mul_pos g.hv g.hb))
  have hi : ∃ cE, configNeel S c emb = .ok cE ∧ cE.bond = emb ∧ cE.ltype = .peripheral ∧ cE.nbh = c.nbh ∧ cE.nbv = c.nbv ∧
      cE.nblocs = c.nblocs := by
    obtain ⟨cE, i1, i2, _, _, i3, i4, i5, i6, _⟩ := init_ok emb (c.nholes + 0) (c.nbeta + (betaNeel c.nbh c.nbv c.nblocs).length)
      (.list (S.ofList (List.range c.nsites ++ nb.flatten))) .peripheral c.nbh c.nbv c.nblocs (by omega)
    exact ⟨cE, bind_ok n1 i1, i2, i3, i4, i5, i6⟩
  obtain ⟨cE, c1, c2, c3⟩ := hi
  exact ⟨⟨emb, fr, cE⟩, bind_ok e1 (bind_ok f1 (bind_ok c1 rfl)), e1, g, f1, c2, c3⟩

end

end TJ
