/-
C142: which Ritz vectors `modified_davidson_algorithm_opt` keeps after an iteration that accepts some of them.
-/
import Verif.Props.SectorKept
import Verif.Props.ExactConditions
import Verif.Props.DavidsonStored

namespace TJ

open Finset Matrix

section
variable {K : Type} [Field K] [LinearOrder K] {d : Nat}

/-- The number of residues within the tolerance. -/
def acceptedCount (L : LinAlg K) (tol : K) (rs : List (Fin d → K)) : Nat :=
  ((Finset.range rs.length).filter (fun k => L.norm (rs.getD k 0) ≤ tol)).card

/-- The corrections computed from residues and Ritz values, with zero columns before position `nc`. -/
def CorrectionsOf (A : Matrix (Fin d) (Fin d) K) (nc : Nat) (vals : List K) (rs temp : List (Fin d → K)) : Prop :=
  temp.length = rs.length ∧ ∀ k < rs.length, ∀ i, temp.getD k 0 i = if nc ≤ k then 1 / (A i i - vals.getD k 0) * rs.getD k 0 i else 0

theorem getElem_getD {α : Type} (l : List α) (x : α) {k : Nat} (h : k < l.length) : l.getD k x = l[k] := by
  rw [List.getD_eq_getElem?_getD, List.getElem?_eq_getElem h]; rfl

/-- The Ritz list after the deflation loop: the accepted columns hold the first Ritz vector. -/
theorem deflate_ritz {nbVal nbFound : Nat} (hf : nbFound < nbVal) {vals : List K} :
    ∀ (l : List (Nat × Bool)) (ev : List K) (es rz : List (Fin d → K)) st,
      l.foldlM (deflateTurn nbVal nbFound vals) (ev, es, rz) = .ok st →
      st.2.2.length = rz.length ∧ ∀ k < rz.length, st.2.2.getD k 0 = if k ∈ marked l then rz.getD 0 0 else rz.getD k 0
  | [], ev, es, rz, st, h => by
    obtain rfl := Except.ok.inj h
    exact ⟨rfl, fun k _ => by simp [marked]⟩
  | (c, b) :: l, ev, es, rz, st, h => by
    rw [List.foldlM_cons] at h
    obtain ⟨⟨ev1, es1, rz1⟩, h1, h2⟩ := bind_ok_inv h
    cases b with
    | false =>
      have : (ev, es, rz) = (ev1, es1, rz1) := by
        have : deflateTurn nbVal nbFound vals (ev, es, rz) (c, false) = .ok (ev, es, rz) := by simp [deflateTurn]; rfl
        exact Except.ok.inj (this.symm.trans h1)
      simp only [Prod.mk.injEq] at this
      obtain ⟨rfl, rfl, rfl⟩ := this
      have hm : marked ((c, false) :: l) = marked l := by simp [marked]
      rw [hm]
      exact deflate_ritz hf l _ _ _ _ h2
    | true =>
      have hm : marked ((c, true) :: l) = c :: marked l := by simp [marked]
      unfold deflateTurn at h1
      rw [if_pos ⟨rfl, hf⟩] at h1
      obtain ⟨lam, _, h1⟩ := bind_ok_inv h1
      obtain ⟨u, _, h1⟩ := bind_ok_inv h1
      obtain ⟨es2, _, h1⟩ := bind_ok_inv h1
      obtain ⟨u0, g0, h1⟩ := bind_ok_inv h1
      obtain ⟨r1, g1, h1⟩ := bind_ok_inv h1
      obtain ⟨u1, g2, h1⟩ := bind_ok_inv h1
      obtain ⟨r2, g3, h1⟩ := bind_ok_inv h1
      have h1 := Except.ok.inj h1
      simp only [Prod.mk.injEq] at h1
      obtain ⟨_, _, rfl⟩ := h1
      dsimp only at g0 g1
      have h0 : 0 < rz.length := by
        by_contra hc
        unfold pyGet at g0
        rw [List.getElem?_eq_none (by omega)] at g0
        cases g0
      have hc : c < rz.length := by
        by_contra hc
        unfold pySet at g1
        rw [if_neg hc] at g1
        cases g1
      rw [pyGet_get h0] at g0
      obtain rfl := Except.ok.inj g0
      unfold pySet at g1
      rw [if_pos hc] at g1
      obtain rfl := Except.ok.inj g1
      rw [pyGet_get (by simpa using hc)] at g2
      have g2 := Except.ok.inj g2
      rw [List.getElem_set_self] at g2
      subst g2
      unfold pySet at g3
      rw [if_pos (by simpa using h0)] at g3
      obtain rfl := Except.ok.inj g3
      obtain ⟨i1, i2⟩ := deflate_ritz hf l _ _ _ _ h2
      have hlen : ((rz.set c rz[0]).set 0 rz[0]).length = rz.length := by simp
      have hat : ∀ k < rz.length, ((rz.set c rz[0]).set 0 rz[0]).getD k 0 = if k = c then rz.getD 0 0 else rz.getD k 0 := by
        intro k hk
        rw [getElem_getD _ _ (by simpa using hk), getElem_getD _ _ h0, getElem_getD _ _ hk, List.getElem_set, List.getElem_set]
        by_cases e0 : 0 = k
        · subst e0; simp
        · rw [if_neg e0]
          by_cases e1 : c = k
          · rw [if_pos e1, if_pos e1.symm]
          · rw [if_neg e1, if_neg (Ne.symm e1)]
      refine ⟨i1.trans hlen, fun k hk => ?_⟩
      have hz : (if 0 = c then rz.getD 0 0 else rz.getD 0 0) = rz.getD 0 0 := ite_self _
      rw [i2 k (by rw [hlen]; exact hk), hat k hk, hat 0 h0, hz, hm]
      by_cases e1 : k ∈ marked l
      · rw [if_pos e1, if_pos (by simp [e1])]
      · rw [if_neg e1]
        by_cases e2 : k = c
        · rw [if_pos e2, if_pos (by simp [e2])]
        · rw [if_neg e2, if_neg (by simp [e1, e2])]

theorem marked_iff {n : Nat} {c : List Bool} (hc : c.length = n) {x : Nat} : x ∈ marked ((List.range n).zip c) ↔ c[x]? = some true := by
  constructor
  · exact fun h => (mem_marked h).1
  · intro h
    have hx : x < c.length := by
      by_contra hn
      rw [List.getElem?_eq_none (by omega)] at h
      cases h
    unfold marked
    refine List.mem_map.2 ⟨(x, true), List.mem_filter.2 ⟨?_, rfl⟩, rfl⟩
    refine List.mem_iff_getElem.2 ⟨x, by simp; omega, ?_⟩
    rw [List.getElem?_eq_getElem hx] at h
    simp [Option.some.inj h]

theorem marked_nodup {n : Nat} {c : List Bool} (hc : c.length = n) : (marked ((List.range n).zip c)).Nodup := by
  have h : (((List.range n).zip c).map Prod.fst).Nodup := by
    rw [List.map_fst_zip (by simp [hc])]; exact List.nodup_range
  unfold marked
  exact h.sublist (List.Sublist.map _ List.filter_sublist)

variable [IsStrictOrderedRing K]

/-- One iteration of the deflating Davidson. -/
theorem optStep_next {L : LinAlg K} (hL : L.ExactSqrt) {A : Matrix (Fin d) (Fin d) K} {nbVal nu0 : Nat} {tol droptol eta : K}
    {dimMax : Nat} {s : OptState K d} (ho : Ortho s.krylov) (hlen : s.eigvects.length = nbVal) (hf : s.nbFound < nbVal) (h0 : 0 ≤ droptol) :
    ∃ (vals : List K) (us rs rz temp R : List (Fin d → K)), ritz L A s.krylov (min s.krylov.length (nu0 - s.nbFound)) = .ok (vals, us, rs) ∧
      rz.length = us.length ∧ (∀ k < us.length, rz.getD k 0 = if L.norm (rs.getD k 0) ≤ tol then us.getD 0 0 else us.getD k 0) ∧
      CorrectionsOf A (acceptedCount L tol rs) vals rs temp ∧ getMeaningfulCorrections L s.krylov temp droptol eta us.length = .ok R ∧
      ∃ s' fin, optStep L A nbVal nu0 tol droptol eta dimMax s = .ok (s', fin) ∧ s'.nbFound = s.nbFound + acceptedCount L tol rs ∧
        s'.eigvects.length = nbVal ∧ s'.eigvals.length = s.eigvals.length + acceptedCount L tol rs ∧ s.eigvals <+: s'.eigvals ∧
        (fin = true ↔ nbVal ≤ s'.nbFound) ∧
        s'.krylov = if fin = true then s.krylov
          else if (dimMax : Int) - R.length < d ∨ acceptedCount L tol rs ≠ 0 ∨ R.length = 0
            then L.qr d (rz.drop (acceptedCount L tol rs) ++ R) else L.qr d (s.krylov ++ R) := by
  set nu := min s.krylov.length (nu0 - s.nbFound) with hnu
  obtain ⟨idx, _, _, _, hr⟩ := ritz_spec L A s.krylov nu (by omega)
  generalize idx.map (L.eigh s.krylov.length (rayleigh A s.krylov)).1 = vals at hr
  generalize idx.map (fun i => combine s.krylov ((L.eigh s.krylov.length (rayleigh A s.krylov)).2 i)) = us at hr
  generalize idx.map (fun i => (L.eigh s.krylov.length (rayleigh A s.krylov)).1 i • combine s.krylov ((L.eigh s.krylov.length (rayleigh A s.krylov)).2 i) -
          A *ᵥ combine s.krylov ((L.eigh s.krylov.length (rayleigh A s.krylov)).2 i)) = rs at hr
  obtain ⟨_, r2, r3, r4, _⟩ := ritz_ok hr
  set conv := rs.map (fun r => decide (L.norm r ≤ tol)) with hconv
  have hcl : conv.length = nu := by simp [hconv, r4]
  set l := (List.range nu).zip conv with hl
  have hml := marked_length (List.range nu) conv (by simp [hcl])
  rw [← hl] at hml
  have hmem : ∀ k < nu, k ∈ marked l ↔ L.norm (rs.getD k 0) ≤ tol := by
    intro k hk
    rw [hl, marked_iff hcl, hconv, List.getElem?_map, List.getElem?_eq_getElem (by omega), getElem_getD _ _ (by omega)]
    simp
  have hnc : (marked l).length = acceptedCount L tol rs := by
    unfold acceptedCount
    rw [← List.toFinset_card_of_nodup (marked_nodup hcl)]
    congr 1
    ext k
    rw [List.mem_toFinset, Finset.mem_filter, Finset.mem_range]
    constructor
    · intro hk
      have hk' := (mem_marked hk).2
      exact ⟨by omega, (hmem k hk').1 hk⟩
    · rintro ⟨h1, h2⟩
      exact (hmem k (by omega)).2 h2
  set nc := acceptedCount L tol rs with hncdef
  have hfold : ∃ rz', l.foldlM (deflateTurn nbVal s.nbFound vals) (s.eigvals, s.eigvects, us) =
        .ok (s.eigvals ++ (marked l).map (fun c => vals.getD c 0),
          (match (marked l).getLast? with | none => s.eigvects | some c => s.eigvects.set s.nbFound (us.getD c 0)), rz') := by
    rcases Nat.eq_zero_or_pos nu with e0 | e0
    · have : l = [] := by rw [hl, e0]; rfl
      rw [this]
      exact ⟨us, by simp [marked]; rfl⟩
    · have hmap : l.map Prod.fst = List.range nu := by
        rw [hl]; exact List.map_fst_zip (by simp [hcl])
      obtain ⟨rz', g1, _⟩ := deflate_loop (vals := vals) (us := us) hf l s.eigvals s.eigvects us (by rw [hmap]; exact List.nodup_range)
        (by
          intro p hp
          have : p.1 ∈ List.range nu := by rw [← hmap]; exact List.mem_map_of_mem hp
          have := List.mem_range.1 this
          omega) (by omega) rfl (fun _ _ => rfl) (by omega)
      exact ⟨rz', g1⟩
  obtain ⟨rz, hfold⟩ := hfold
  obtain ⟨z1, z2⟩ := deflate_ritz hf _ _ _ _ _ hfold
  dsimp only at z1 z2
  set temp := (List.range nu).map (fun ind => if nc ≤ ind then precondition A (vals.getD ind 0) (rs.getD ind 0) else 0) with htemp
  have htl : temp.length = nu := by simp [htemp]
  obtain ⟨new, n1, _⟩ := C49_corrections_partial L hL s.krylov temp ho droptol eta h0 nu (by omega)
  refine ⟨vals, us, rs, rz, temp, _, hr, z1, ?_, ⟨by omega, ?_⟩, by rw [r3]; exact n1, ?_⟩
  · intro k hk
    rw [z2 k hk]
    simp only [hmem k (by omega)]
  · intro k hk i
    have e : temp.getD k 0 = if nc ≤ k then precondition A (vals.getD k 0) (rs.getD k 0) else 0 := by
      rw [getElem_getD temp _ (by omega)]
      simp only [htemp, List.getElem_map, List.getElem_range]
    rw [e]
    split_ifs <;> rfl
  · have hes : (match (marked l).getLast? with | none => s.eigvects | some c => s.eigvects.set s.nbFound (us.getD c 0)).length = nbVal := by
      cases (marked l).getLast? <;> simp [hlen]
    have hmapM : (List.range nu).mapM (fun ind =>
      (if nc ≤ ind then do
        let lam ← pyGet vals ind
        let res ← pyGet rs ind
        return precondition A lam res
      else return 0 : Py (Fin d → K))) = .ok temp := by
      refine mapM_ok ?_
      intro x hx
      have hx := List.mem_range.1 hx
      by_cases hc : nc ≤ x
      · rw [if_pos hc, if_pos hc, pyGet_get (by omega), pyGet_get (by omega), getElem_getD _ _ (by omega : x < vals.length),
          getElem_getD _ _ (by omega : x < rs.length)]
        rfl
      · rw [if_neg hc, if_neg hc]; rfl
    by_cases hfin : nbVal ≤ s.nbFound + nc
    · refine ⟨⟨s.nbFound + nc, s.eigvals ++ (marked l).map (fun c => vals.getD c 0),
        (match (marked l).getLast? with | none => s.eigvects | some c => s.eigvects.set s.nbFound (us.getD c 0)), s.krylov, s.accepted ++ [nc]⟩, true, ?_, rfl, hes, ?_, List.prefix_append _ _, by simpa using hfin, by simp⟩
      · unfold optStep
        rw [← hnu]
        refine bind_ok hr ?_
        dsimp only
        rw [← hconv, ← hl]
        refine bind_ok hfold ?_
        rw [← hml, hnc, if_pos hfin]
        rfl
      · show (s.eigvals ++ (marked l).map (fun c => vals.getD c 0)).length = _
        rw [List.length_append, List.length_map, hnc]
    · refine ⟨⟨s.nbFound + nc, s.eigvals ++ (marked l).map (fun c => vals.getD c 0),
        (match (marked l).getLast? with | none => s.eigvects | some c => s.eigvects.set s.nbFound (us.getD c 0)),
        if (dimMax : Int) - (if new = [] then s.krylov else new).length < d ∨ nc ≠ 0 ∨ (if new = [] then s.krylov else new).length = 0
            then L.qr d (rz.drop nc ++ (if new = [] then s.krylov else new)) else L.qr d (s.krylov ++ (if new = [] then s.krylov else new)),
        s.accepted ++ [nc]⟩, false, ?_, rfl, hes, ?_, List.prefix_append _ _, by simpa using hfin, (if_neg (by simp)).symm⟩
      · unfold optStep
        rw [← hnu]
        refine bind_ok hr ?_
        dsimp only
        rw [← hconv, ← hl]
        refine bind_ok hfold ?_
        rw [← hml, hnc, if_neg hfin]
        refine bind_ok hmapM (bind_ok n1 ?_)
        rfl
      · show (s.eigvals ++ (marked l).map (fun c => vals.getD c 0)).length = _
        rw [List.length_append, List.length_map, hnc]

/-- C142, part: an iteration that does not end the search keeps, in the span of its next search space, the first Ritz vector and all Ritz
vectors behind the first `nc` that have not converged, `nc` being the number of converged ones. In particular, if the lowest `nc` states are
the converged ones, no unconverged Ritz vector is lost. Missing: the other ones, see `C142_kept_iff` and `C142_lost`. -/
theorem C142_kept_partial (L : LinAlg K) (hL : L.ExactSqrt) (he : L.ExactEigh) (hq : L.ExactQr) (A : Matrix (Fin d) (Fin d) K) (hA : A.IsSymm)
    (nbVal nu0 : Nat) (tol droptol eta : K) (h0 : 0 ≤ droptol) (dimMax : Nat) (s s' : OptState K d) (ho : Ortho s.krylov)
    (hlen : s.eigvects.length = nbVal) (hf : s.nbFound < nbVal) (h : optStep L A nbVal nu0 tol droptol eta dimMax s = .ok (s', false))
    (vals : List K) (us rs : List (Fin d → K)) (hr : ritz L A s.krylov (min s.krylov.length (nu0 - s.nbFound)) = .ok (vals, us, rs))
    (j : Nat) (hj : j < us.length) (hu : tol < L.norm (rs.getD j 0)) (hpos : j = 0 ∨ acceptedCount L tol rs ≤ j) :
    InSpan s'.krylov (us.getD j 0) := by
  obtain ⟨vals', us', rs', rz, temp, R, g0, g1, g2, g3, g4, s1, fin, k1, k2, k3, k4, k5, k6, k7⟩ :=
    optStep_next (A := A) (nu0 := nu0) (tol := tol) (eta := eta) (dimMax := dimMax) hL ho hlen hf h0
  rw [hr] at g0
  have g0 := Except.ok.inj g0
  simp only [Prod.mk.injEq] at g0
  obtain ⟨rfl, rfl, rfl⟩ := g0
  rw [h] at k1
  have k1 := Except.ok.inj k1
  simp only [Prod.mk.injEq] at k1
  obtain ⟨rfl, rfl⟩ := k1
  obtain ⟨_, r2, r3, r4, _⟩ := ritz_ok hr
  rw [if_neg (by simp)] at k7
  have hin : InSpan s.krylov (us.getD j 0) := by
    rw [getElem_getD _ _ hj]
    exact (ritz_galerkin he hA ho hr j (by omega) hj).1
  have hqr : ∀ V : List (Fin d → K), InSpan V (us.getD j 0) → InSpan (L.qr d V) (us.getD j 0) :=
    fun V hV => hV.mono fun x hx => (hq d V).2.2 x hx
  rw [k7]
  by_cases hc : (dimMax : Int) - R.length < d ∨ acceptedCount L tol rs ≠ 0 ∨ R.length = 0
  · rw [if_pos hc]
    refine hqr _ (inSpan_append ?_)
    have hat : ∀ k, acceptedCount L tol rs ≤ k → k < us.length → InSpan (rz.drop (acceptedCount L tol rs)) (rz.getD k 0) := by
      intro k hk1 hk2
      refine inSpan_get (List.mem_iff_getElem.2 ⟨k - acceptedCount L tol rs, by rw [List.length_drop]; omega, ?_⟩)
      rw [List.getElem_drop, getElem_getD _ _ (by omega)]
      congr 1
      omega
    have hun : ¬ L.norm (rs.getD j 0) ≤ tol := not_le.2 hu
    by_cases hn : acceptedCount L tol rs ≤ j
    · have := hat j hn hj
      rwa [g2 j hj, if_neg hun] at this
    · obtain rfl : j = 0 := by omega
      -- one of the accepted positions is not among the first ones
      have : ∃ k < us.length, acceptedCount L tol rs ≤ k ∧ L.norm (rs.getD k 0) ≤ tol := by
        by_contra hcon
        push Not at hcon
        have hsub : (Finset.range rs.length).filter (fun k => L.norm (rs.getD k 0) ≤ tol) ⊆ (Finset.range (acceptedCount L tol rs)).erase 0 := by
          intro k hk
          obtain ⟨h1, h2⟩ := Finset.mem_filter.1 hk
          have h1 := Finset.mem_range.1 h1
          refine Finset.mem_erase.2 ⟨?_, Finset.mem_range.2 ?_⟩
          · rintro rfl; exact hun h2
          · by_contra hlt
            exact absurd h2 (not_le.2 (hcon k (by omega) (by omega)))
        have h3 := Finset.card_le_card hsub
        rw [Finset.card_erase_of_mem (Finset.mem_range.2 (by omega)), Finset.card_range] at h3
        have h4 : acceptedCount L tol rs ≤ acceptedCount L tol rs - 1 := h3
        omega
      obtain ⟨k, h1, h2, h3⟩ := this
      have := hat k h2 h1
      rwa [g2 k h1, if_pos h3] at this
  · rw [if_neg hc]
    exact hqr _ (inSpan_append hin)

/-- C142, exact condition. Suppose that at most one of the converged Ritz vectors stands behind the first `nc` positions. Then an unconverged
Ritz vector is still in the span of the next search space if and only if it is the first one, or stands behind the first `nc` positions, or
every correction is, up to the drop tolerance, in the present search space (in which case the whole search space is kept). -/
theorem C142_kept_iff (L : LinAlg K) (hL : L.ExactSqrt) (he : L.ExactEigh) (hq : L.ExactQr) (A : Matrix (Fin d) (Fin d) K) (hA : A.IsSymm)
    (nbVal nu0 : Nat) (tol droptol eta : K) (h0 : 0 ≤ droptol) (dimMax : Nat) (s s' : OptState K d) (ho : Ortho s.krylov)
    (hlen : s.eigvects.length = nbVal) (hf : s.nbFound < nbVal) (h : optStep L A nbVal nu0 tol droptol eta dimMax s = .ok (s', false))
    (vals : List K) (us rs : List (Fin d → K)) (hr : ritz L A s.krylov (min s.krylov.length (nu0 - s.nbFound)) = .ok (vals, us, rs))
    (h2 : ∀ a < us.length, ∀ b < us.length, acceptedCount L tol rs ≤ a → acceptedCount L tol rs ≤ b → L.norm (rs.getD a 0) ≤ tol →
      L.norm (rs.getD b 0) ≤ tol → a = b) (temp : List (Fin d → K)) (ht : CorrectionsOf A (acceptedCount L tol rs) vals rs temp)
    (j : Nat) (hj : j < us.length) (hu : tol < L.norm (rs.getD j 0)) :
    InSpan s'.krylov (us.getD j 0) ↔ j = 0 ∨ acceptedCount L tol rs ≤ j ∨
      ∀ k < us.length, ∃ e, InSpan s.krylov (temp.getD k 0 - e) ∧ L.norm e ≤ droptol := by
  obtain ⟨vals', us', rs', rz, temp', R, g0, g1, g2, g3, g4, s1, fin, k1, k2, k3, k4, k5, k6, k7⟩ :=
    optStep_next (A := A) (nu0 := nu0) (tol := tol) (eta := eta) (dimMax := dimMax) hL ho hlen hf h0
  rw [hr] at g0
  have g0 := Except.ok.inj g0
  simp only [Prod.mk.injEq] at g0
  obtain ⟨rfl, rfl, rfl⟩ := g0
  rw [h] at k1
  have k1 := Except.ok.inj k1
  simp only [Prod.mk.injEq] at k1
  obtain ⟨rfl, rfl⟩ := k1
  obtain ⟨r1, r2, r3, r4, _⟩ := ritz_ok hr
  obtain ⟨o1, _, _⟩ := ritz_exact he hA ho hr
  rw [if_neg (by simp)] at k7
  obtain rfl : temp = temp' := by
    refine List.ext_getElem (by rw [ht.1, g3.1]) fun k hk1 hk2 => ?_
    have hk : k < rs.length := by rw [← ht.1]; exact hk1
    ext i
    have := (ht.2 k hk i).trans (g3.2 k hk i).symm
    rwa [getElem_getD _ _ hk1, getElem_getD _ _ hk2] at this
  have hin : ∀ k < us.length, InSpan s.krylov (us.getD k 0) := by
    intro k hk
    rw [getElem_getD _ _ hk]
    exact (ritz_galerkin he hA ho hr k (by omega) hk).1
  have huu : ∀ a < us.length, ∀ b < us.length, us.getD a 0 ⬝ᵥ us.getD b 0 = if a = b then 1 else 0 := by
    intro a ha b hb
    rw [getElem_getD _ _ ha, getElem_getD _ _ hb]
    have := o1 ⟨a, ha⟩ ⟨b, hb⟩
    simpa using this
  have hkne : s.krylov ≠ [] := by
    intro e
    have := congrArg List.length e
    simp only [List.length_nil] at this
    omega
  obtain ⟨R', c1, c2⟩ := C49_right_iff L hL s.krylov temp ho hkne droptol eta h0 us.length (by rw [ht.1]; omega)
  rw [g4] at c1
  obtain rfl := Except.ok.inj c1
  constructor
  · intro hs
    by_contra hcon
    push Not at hcon
    obtain ⟨n1, n2, k, n3, n4⟩ := hcon
    have hR : Ortho (s.krylov ++ R) := c2.2 ⟨k, n3, n4⟩
    obtain ⟨R1, R2⟩ := (ortho_iff _).1 hR
    have hperp : ∀ v, InSpan s.krylov v → ∀ w ∈ R, v ⬝ᵥ w = 0 := by
      rintro _ ⟨y, rfl⟩ w hw
      rw [sum_dotProduct]
      refine Finset.sum_eq_zero fun i _ => ?_
      rw [smul_dotProduct, (List.pairwise_append.1 R2).2.2 _ (List.get_mem _ i) w hw, smul_zero]
    set nc := acceptedCount L tol rs with hnc
    have hdrop : ∀ a (ha : a < (rz.drop nc).length), (rz.drop nc)[a] =
        if L.norm (rs.getD (nc + a) 0) ≤ tol then us.getD 0 0 else us.getD (nc + a) 0 := by
      intro a ha
      rw [List.length_drop] at ha
      rw [List.getElem_drop, ← g2 (nc + a) (by omega), getElem_getD _ _ (by omega)]
    have hV : Ortho (rz.drop nc ++ R) := by
      refine (ortho_iff _).2 ⟨?_, List.pairwise_append.2 ⟨?_, (List.pairwise_append.1 R2).2.1, ?_⟩⟩
      · intro v hv
        rcases List.mem_append.1 hv with hv | hv
        · obtain ⟨a, ha, rfl⟩ := List.getElem_of_mem hv
          rw [hdrop a ha]
          rw [List.length_drop] at ha
          split_ifs
          · rw [huu 0 (by omega) 0 (by omega), if_pos rfl]
          · rw [huu _ (by omega) _ (by omega), if_pos rfl]
        · exact R1 v (List.mem_append_right _ hv)
      · rw [List.pairwise_iff_getElem]
        intro a b ha hb hab
        rw [hdrop a ha, hdrop b hb]
        rw [List.length_drop] at ha hb
        split_ifs with e1 e2 e2
        · have := h2 (nc + a) (by omega) (nc + b) (by omega) (by omega) (by omega) e1 e2
          omega
        · rw [huu _ (by omega) _ (by omega), if_neg (by omega)]
        · rw [huu _ (by omega) _ (by omega), if_neg (by omega)]
        · rw [huu _ (by omega) _ (by omega), if_neg (by omega)]
      · intro v hv w hw
        obtain ⟨a, ha, rfl⟩ := List.getElem_of_mem hv
        refine hperp _ ?_ w hw
        rw [hdrop a ha]
        rw [List.length_drop] at ha
        split_ifs
        · exact hin 0 (by omega)
        · exact hin _ (by omega)
    rw [k7, if_pos (Or.inr (Or.inl (by omega)))] at hs
    let S : Submodule K (Fin d → K) :=
      { carrier := {v | us.getD j 0 ⬝ᵥ v = 0}
        add_mem' := fun {x y} hx hy => by
          have hx : us.getD j 0 ⬝ᵥ x = 0 := hx
          have hy : us.getD j 0 ⬝ᵥ y = 0 := hy
          show us.getD j 0 ⬝ᵥ (x + y) = 0
          rw [dotProduct_add, hx, hy, add_zero]
        zero_mem' := dotProduct_zero _
        smul_mem' := fun a x hx => by
          have hx : us.getD j 0 ⬝ᵥ x = 0 := hx
          show us.getD j 0 ⬝ᵥ (a • x) = 0
          rw [dotProduct_smul, hx, smul_zero] }
    have hS : ∀ v ∈ rz.drop nc ++ R, v ∈ S := by
      intro v hv
      show us.getD j 0 ⬝ᵥ v = 0
      rcases List.mem_append.1 hv with hv | hv
      · obtain ⟨a, ha, rfl⟩ := List.getElem_of_mem hv
        rw [hdrop a ha]
        rw [List.length_drop] at ha
        split_ifs
        · rw [huu _ hj _ (by omega), if_neg n1]
        · rw [huu _ hj _ (by omega), if_neg (by omega)]
      · exact hperp _ (hin j hj) v hv
    have hall := qr_stays hq (ortho_independent hV) hS
    obtain ⟨y, hy⟩ := hs
    have h1 : us.getD j 0 ⬝ᵥ us.getD j 0 = 0 := by
      have : us.getD j 0 ∈ S := by
        rw [hy]
        exact Submodule.sum_mem _ fun i _ => Submodule.smul_mem _ _ (hall _ (List.get_mem _ i))
      exact this
    rw [huu j hj j hj, if_pos rfl] at h1
    exact one_ne_zero h1
  · rintro (hz | hz | hz)
    · exact C142_kept_partial L hL he hq A hA nbVal nu0 tol droptol eta h0 dimMax s s' ho hlen hf h vals us rs hr j hj hu (Or.inl hz)
    · exact C142_kept_partial L hL he hq A hA nbVal nu0 tol droptol eta h0 dimMax s s' ho hlen hf h vals us rs hr j hj hu (Or.inr hz)
    · have hno : ¬ Ortho (s.krylov ++ R) := by
        intro hc
        obtain ⟨k, hk, hk2⟩ := c2.1 hc
        obtain ⟨e, e1, e2⟩ := hz k hk
        exact absurd (hk2 e e1) (not_lt.2 e2)
      obtain ⟨new, m1, m2, _⟩ := C49_corrections_partial L hL s.krylov temp ho droptol eta h0 us.length (by rw [ht.1]; omega)
      rw [g4] at m1
      have m1 := Except.ok.inj m1
      have hnew : new = [] := by
        by_contra hc
        rw [if_neg hc] at m1
        exact hno (m1 ▸ m2)
      rw [if_pos hnew] at m1
      subst m1
      rw [k7]
      have hqr : ∀ V : List (Fin d → K), InSpan V (us.getD j 0) → InSpan (L.qr d V) (us.getD j 0) :=
        fun V hV => hV.mono fun x hx => (hq d V).2.2 x hx
      split_ifs
      · exact hqr _ ((hin j hj).mono fun x hx => inSpan_get (List.mem_append_right _ hx))
      · exact hqr _ ((hin j hj).mono fun x hx => inSpan_get (List.mem_append_right _ hx))

/-- In the span of basis vectors that the matrix does not connect, with increasing diagonal elements, the Ritz vectors are these basis
vectors, up to the sign. -/
theorem ritz_units_sorted {L : LinAlg K} (he : L.ExactEigh) {A : Matrix (Fin d) (Fin d) K} (hA : A.IsSymm) {ks : List (Fin d)}
    (h0 : ∀ k ∈ ks, ∀ l ∈ ks, k ≠ l → A k l = 0) (hinc : ks.Pairwise (fun k l => A k k < A l l)) {V : List (Fin d → K)} (hV : Ortho V)
    (hin : ∀ v ∈ V, InSpan (unitVectors ks) v) (hback : ∀ v ∈ (unitVectors ks : List (Fin d → K)), InSpan V v)
    {vals : List K} {us rs : List (Fin d → K)} (h : ritz L A V ks.length = .ok (vals, us, rs)) :
    ∀ k (hk : k < ks.length), vals.getD k 0 = A ks[k] ks[k] ∧ ∃ a : K, a * a = 1 ∧ us.getD k 0 = a • Pi.single ks[k] 1 := by
  obtain ⟨r1, r2, r3, r4, _⟩ := ritz_ok h
  obtain ⟨o1, _, o3⟩ := ritz_exact he hA hV h
  have hu := ritz_units he hA h0 hV hin hback h
  have hex : ∀ k : Fin ks.length, ∃ i : Fin ks.length, A (ks.get i) (ks.get i) = vals[(k : Nat)]'(by omega) := by
    intro k
    obtain ⟨_, _, l, hl, e⟩ := hu k (by omega) (by omega)
    obtain ⟨i, hi, rfl⟩ := List.getElem_of_mem hl
    exact ⟨⟨i, hi⟩, e⟩
  choose p hp using hex
  have hlt : ∀ i j : Fin ks.length, i < j → A (ks.get i) (ks.get i) < A (ks.get j) (ks.get j) := fun i j hij =>
    (List.pairwise_iff_getElem.1 hinc) i j i.2 j.2 hij
  have hsingle : ∀ k : Fin ks.length, ∃ a : K, us[(k : Nat)]'(by omega) = a • Pi.single (ks.get (p k)) 1 := by
    intro k
    obtain ⟨g1, g2, _⟩ := hu k (by omega) (by omega)
    refine ⟨(us[(k : Nat)]'(by omega)) (ks.get (p k)), ?_⟩
    ext m
    rw [Pi.smul_apply, Pi.single_apply, smul_eq_mul]
    by_cases e : m = (ks.get (p k))
    · rw [if_pos e, mul_one, e]
    · rw [if_neg e, mul_zero]
      by_cases hm : m ∈ ks
      · have g := g2 m hm
        rw [← hp k] at g
        have hne : A m m ≠ A (ks.get (p k)) (ks.get (p k)) := by
          obtain ⟨i, hi, rfl⟩ := List.getElem_of_mem hm
          rcases lt_trichotomy (⟨i, hi⟩ : Fin ks.length) (p k) with hc | hc | hc
          · exact ne_of_lt (hlt _ _ hc)
          · exact absurd (congrArg ks.get hc) e
          · exact ne_of_gt (hlt _ _ hc)
        rcases mul_eq_mul_right_iff.1 g with hc | hc
        · exact absurd hc hne
        · exact hc
      · exact g1 m hm
  choose a ha using hsingle
  have hdot : ∀ k l : Fin ks.length, us[(k : Nat)]'(by omega) ⬝ᵥ us[(l : Nat)]'(by omega) = if k = l then 1 else 0 := by
    intro k l
    have := o1 ⟨k, by omega⟩ ⟨l, by omega⟩
    simpa [Fin.ext_iff] using this
  have haa : ∀ k, a k * a k = 1 := by
    intro k
    have := hdot k k
    rw [ha, if_pos rfl, smul_dotProduct, dotProduct_smul, single_dotProduct, Pi.single_eq_same] at this
    simpa using this
  have hinj : ∀ k l, p k = p l → k = l := by
    intro k l e
    by_contra hne
    have := hdot k l
    rw [ha, ha, if_neg hne, e, smul_dotProduct, dotProduct_smul, single_dotProduct, Pi.single_eq_same] at this
    have h1 := haa k
    have h2 := haa l
    simp only [smul_eq_mul, mul_one, mul_eq_zero] at this
    rcases this with h3 | h3
    · rw [h3] at h1; simp at h1
    · rw [h3] at h2; simp at h2
  have hmono : StrictMono p := by
    intro k l hkl
    have hle : vals[(k : Nat)]'(by omega) ≤ vals[(l : Nat)]'(by omega) := (List.pairwise_iff_getElem.1 o3) k l (by omega) (by omega) hkl
    rw [← hp, ← hp] at hle
    rcases lt_trichotomy (p k) (p l) with hc | hc | hc
    · exact hc
    · exact absurd (hinj _ _ hc) (ne_of_lt hkl)
    · exact absurd hle (not_le.2 (hlt _ _ hc))
  have hid : ∀ k, p k = k := fun k => le_antisymm hmono.apply_le hmono.le_apply
  intro k hk
  have e1 := hp ⟨k, hk⟩
  have e2 := ha ⟨k, hk⟩
  rw [hid] at e1 e2
  rw [getElem_getD _ _ (by omega), getElem_getD _ _ (by omega)]
  exact ⟨e1.symm, a ⟨k, hk⟩, haa _, e2⟩

/-- A matrix in whose first three basis states the second one has not converged. -/
def looseMat : Matrix (Fin 5) (Fin 5) K :=
  !![0, 0, 0, 0, 0; 0, 1, 0, 1, 0; 0, 0, 2, 0, 1 / 2000; 0, 1, 0, 10, 0; 0, 0, 1 / 2000, 0, 20]

/-- C142 fails. The search space is the one of the first three basis states and the second Ritz vector, the second basis state, has not
converged; the iteration accepts the first and the third, and the second one is not in the span of the next search space. This
holds for all exact libraries. -/
theorem C142_lost (L : LinAlg K) (hL : L.ExactSqrt) (he : L.ExactEigh) (hq : L.ExactQr) (eta : K) (dimMax : Nat) (V : List (Fin 5 → K))
    (hV : V = L.qr 5 (unitVectors [0, 1, 2])) :
    ∃ s', optStep L looseMat 3 3 (1 / 1000) (1 / 1000000) eta dimMax ⟨0, [], List.replicate 3 0, V, []⟩ = .ok (s', false) ∧
      s'.nbFound = 2 ∧ InSpan V (Pi.single 1 1) ∧ ¬ InSpan s'.krylov (Pi.single 1 1) ∧
      ∀ lam : K, 1 ≤ L.norm (lam • Pi.single 1 1 - (looseMat : Matrix (Fin 5) (Fin 5) K) *ᵥ Pi.single 1 1) := by
  have hA : (looseMat : Matrix (Fin 5) (Fin 5) K).IsSymm := by
    ext i j; fin_cases i <;> fin_cases j <;> simp [looseMat]
  set ks : List (Fin 5) := [0, 1, 2] with hks
  obtain ⟨q1, q2, q3⟩ := hq 5 (unitVectors ks)
  rw [← hV] at q1 q2 q3
  have hul : (unitVectors ks : List (Fin 5 → K)).length = 3 := unitVectors_length ks
  have hVl : V.length = 3 := by rw [q1, hul]; rfl
  have hin := span_back (unitVectors_ortho (K := K) (by decide : ks.Nodup)) q2 (by omega) q3
  obtain ⟨vals, us, rs, rz, temp, R, g0, g1, g2, g3, g4, s', fin, k1, k2, k3, k4, k5, k6, k7⟩ :=
    optStep_next (L := L) (A := looseMat) (nbVal := 3) (nu0 := 3) (tol := 1 / 1000) (droptol := 1 / 1000000) (eta := eta) (dimMax := dimMax)
      (s := ⟨0, [], List.replicate 3 0, V, []⟩) hL q2 (by simp) (Nat.zero_lt_succ 2) (by norm_num)
  dsimp only at g0 g4 k1 k2 k3 k4 k5 k6 k7
  have g0' := g0
  rw [hVl] at g0
  have hr : ritz L looseMat V ks.length = .ok (vals, us, rs) := g0
  obtain ⟨r1, r2, r3, r4, r5⟩ := ritz_ok hr
  have hks3 : ks.length = 3 := rfl
  have hsort := ritz_units_sorted he hA (ks := ks) (by
    intro k hk l hl hkl
    rw [hks] at hk hl
    simp only [List.mem_cons, List.not_mem_nil, or_false] at hk hl
    rcases hk with rfl | rfl | rfl <;> rcases hl with rfl | rfl | rfl <;> first | exact absurd rfl hkl | simp [looseMat])
    (by simp [hks, looseMat]) q2 hin q3 hr
  have hres : ∀ k (hk : k < 3), rs.getD k 0 = vals.getD k 0 • us.getD k 0 - looseMat *ᵥ us.getD k 0 := by
    intro k hk
    have := r5 k (by omega) (by omega) (by omega)
    rwa [getElem_getD _ _ (by omega), getElem_getD _ _ (by omega), getElem_getD _ _ (by omega)]
  obtain ⟨v0, a0, b0, u0⟩ := hsort 0 (by omega)
  obtain ⟨v1, a1, b1, u1⟩ := hsort 1 (by omega)
  obtain ⟨v2, a2, b2, u2⟩ := hsort 2 (by omega)
  have e0 : rs.getD 0 0 = 0 := by
    rw [hres 0 (by omega), v0, u0]
    ext i; fin_cases i <;> simp [hks, looseMat, mulVec_smul]
  have e1 : rs.getD 1 0 = (-a1) • Pi.single 3 1 := by
    rw [hres 1 (by omega), v1, u1]
    ext i; fin_cases i <;> simp [hks, looseMat, mulVec_smul]
  have e2 : rs.getD 2 0 = (-a2 / 2000) • Pi.single 4 1 := by
    rw [hres 2 (by omega), v2, u2]
    ext i; fin_cases i <;> simp [hks, looseMat, mulVec_smul] <;> ring
  have n0 : L.norm (rs.getD 0 0) ≤ 1 / 1000 := by
    rw [e0]; exact norm_zero_le hL (by norm_num)
  have n1 : (1 / 1000 : K) < L.norm (rs.getD 1 0) := by
    rw [← not_le, norm_le_iff hL, e1]
    rintro ⟨_, hc⟩
    rw [smul_dotProduct, dotProduct_smul, single_dotProduct, Pi.single_eq_same] at hc
    simp only [smul_eq_mul, mul_one, neg_mul_neg, b1] at hc
    norm_num at hc
  have n2 : L.norm (rs.getD 2 0) ≤ 1 / 1000 := by
    rw [norm_le_iff hL, e2]
    refine ⟨by norm_num, ?_⟩
    rw [smul_dotProduct, dotProduct_smul, single_dotProduct, Pi.single_eq_same]
    have : -a2 / 2000 * (-a2 / 2000) = a2 * a2 / 4000000 := by ring
    simp only [smul_eq_mul, mul_one, this, b2]
    norm_num
  have hcount : acceptedCount L (1 / 1000) rs = 2 := by
    unfold acceptedCount
    have : (Finset.range rs.length).filter (fun k => L.norm (rs.getD k 0) ≤ 1 / 1000) = {0, 2} := by
      ext k
      rw [Finset.mem_filter, Finset.mem_range, r4, hks3, Finset.mem_insert, Finset.mem_singleton]
      constructor
      · rintro ⟨hk, hk2⟩
        interval_cases k
        · exact Or.inl rfl
        · exact absurd hk2 (not_le.2 n1)
        · exact Or.inr rfl
      · rintro (rfl | rfl)
        · exact ⟨by omega, n0⟩
        · exact ⟨by omega, n2⟩
    rw [this]
    rfl
  rw [hcount] at k2 g3
  have hfin : fin = false := by
    cases fin with
    | false => rfl
    | true => have := k6.1 rfl; omega
  subst hfin
  have hiff := C142_kept_iff L hL he hq looseMat hA 3 3 (1 / 1000) (1 / 1000000) eta (by norm_num) dimMax
    ⟨0, [], List.replicate 3 0, V, []⟩ s' q2 (by simp) (Nat.zero_lt_succ 2) k1 vals us rs g0' (by
      rw [hcount, r3, hks3]
      intro a ha b hb h1 h2 _ _
      omega) temp (by rw [hcount]; exact g3) 1 (by omega) n1
  rw [hcount] at hiff
  have hne : ¬ ∀ k < us.length, ∃ e, InSpan V (temp.getD k 0 - e) ∧ L.norm e ≤ 1 / 1000000 := by
    intro hall
    obtain ⟨e, h1, h2⟩ := hall 2 (by omega)
    have h3 := unitVectors_support (h1.mono hin) (by decide : (4 : Fin 5) ∉ ks)
    have h4 := g3.2 2 (by omega) 4
    rw [if_pos (le_refl _), v2, e2] at h4
    have h5 : e 4 = temp.getD 2 0 4 := (sub_eq_zero.1 h3).symm
    rw [h4] at h5
    have h6 : e 4 = -a2 / 36000 := by
      rw [h5]; simp [hks, looseMat]; ring
    have h7 : e 4 * e 4 ≤ e ⬝ᵥ e := by
      rw [dotProduct]
      exact Finset.single_le_sum (f := fun i => e i * e i) (fun i _ => mul_self_nonneg _) (Finset.mem_univ 4)
    have h8 := ((norm_le_iff hL _ _).1 h2).2
    have h9 : e 4 * e 4 = a2 * a2 / 1296000000 := by rw [h6]; ring
    rw [b2] at h9
    rw [h9] at h7
    have := h7.trans h8
    norm_num at this
  have hus : us.getD 1 0 = a1 • Pi.single 1 1 := u1
  have ha1 : a1 ≠ 0 := by rintro rfl; simp at b1
  refine ⟨s', k1, by rw [k2], q3 _ (by simp [unitVectors, hks]), ?_, ?_⟩
  · intro hc
    have : InSpan s'.krylov (us.getD 1 0) := by rw [hus]; exact inSpan_smul hc _
    rcases hiff.1 this with hc | hc | hc
    · omega
    · omega
    · exact hne hc
  · intro lam
    by_contra hc
    push Not at hc
    obtain ⟨h1, h2⟩ := (norm_le_iff hL _ _).1 (le_refl (L.norm (lam • Pi.single 1 1 - (looseMat : Matrix (Fin 5) (Fin 5) K) *ᵥ Pi.single 1 1)))
    set x : Fin 5 → K := lam • Pi.single 1 1 - (looseMat : Matrix (Fin 5) (Fin 5) K) *ᵥ Pi.single 1 1 with hx
    have h3 : x 3 = -1 := by simp [hx, looseMat]
    have h7 : x 3 * x 3 ≤ x ⬝ᵥ x := by
      rw [dotProduct]
      exact Finset.single_le_sum (f := fun i => x i * x i) (fun i _ => mul_self_nonneg _) (Finset.mem_univ 3)
    rw [h3] at h7
    nlinarith

/-- All iterations return, and the values found are kept. -/
theorem optLoop_returns {L : LinAlg K} (hL : L.ExactSqrt) (hq : L.ExactQr) {A : Matrix (Fin d) (Fin d) K} {nbVal nu0 : Nat} {tol droptol eta : K}
    (h0 : 0 ≤ droptol) {dimMax : Nat} : ∀ stp (s : OptState K d), Ortho s.krylov → s.eigvects.length = nbVal → s.nbFound < nbVal →
      ∃ s', optLoop L A nbVal nu0 tol droptol eta dimMax stp s = .ok s' ∧ s.eigvals.length ≤ s'.eigvals.length
  | 0, s, _, _, _ => ⟨s, rfl, le_refl _⟩
  | stp + 1, s, ho, hlen, hf => by
    obtain ⟨vals, us, rs, rz, temp, R, g0, g1, g2, g3, g4, s1, fin, k1, k2, k3, k4, k5, k6, k7⟩ :=
      optStep_next (A := A) (nu0 := nu0) (tol := tol) (eta := eta) (dimMax := dimMax) hL ho hlen hf h0
    unfold optLoop
    cases fin with
    | true => exact ⟨s1, bind_ok k1 rfl, k5.length_le⟩
    | false =>
      have hf1 : s1.nbFound < nbVal := by
        by_contra hc
        exact absurd (k6.2 (by omega)) (by simp)
      obtain ⟨s', i1, i2⟩ := optLoop_returns hL hq h0 stp s1 (optStep_krylov hq ho k1) k3 hf1
      exact ⟨s', bind_ok k1 i1, k5.length_le.trans i2⟩

/-- A step with the whole space as search space accepts all its Ritz vectors. -/
theorem optStep_full {L : LinAlg K} (hL : L.ExactSqrt) (he : L.ExactEigh) (hq : L.ExactQr) {A : Matrix (Fin d) (Fin d) K} (hA : A.IsSymm)
    {nbVal nu0 : Nat} {tol droptol eta : K} (ht : 0 ≤ tol) (h0 : 0 ≤ droptol) {dimMax : Nat} {s : OptState K d} (ho : Ortho s.krylov)
    (hd : s.krylov.length = d) (hlen : s.eigvects.length = nbVal) (hf : s.nbFound < nbVal) :
    ∃ s' fin, optStep L A nbVal nu0 tol droptol eta dimMax s = .ok (s', fin) ∧ (fin = true ↔ nbVal ≤ s'.nbFound) ∧
      s'.eigvects.length = nbVal ∧ s'.nbFound = s.nbFound + min d (nu0 - s.nbFound) ∧
      s'.eigvals.length = s.eigvals.length + min d (nu0 - s.nbFound) ∧ (d ≤ nu0 - s.nbFound → s'.krylov.length = d) := by
  obtain ⟨vals, us, rs, rz, temp, R, g0, g1, g2, g3, g4, s1, fin, k1, k2, k3, k4, k5, k6, k7⟩ :=
    optStep_next (A := A) (nu0 := nu0) (tol := tol) (eta := eta) (dimMax := dimMax) hL ho hlen hf h0
  obtain ⟨r1, r2, r3, r4, _⟩ := ritz_ok g0
  have hz := full_space he hA ho hd g0
  rw [hd] at r2 r3 r4
  have hc : acceptedCount L tol rs = min d (nu0 - s.nbFound) := by
    unfold acceptedCount
    rw [Finset.filter_true_of_mem, Finset.card_range, r4]
    intro k hk
    rw [getElem_getD _ _ (Finset.mem_range.1 hk), hz _ (List.getElem_mem _)]
    exact norm_zero_le hL ht
  rw [hc] at k2 k4 k7 g3
  refine ⟨s1, fin, k1, k6, k3, k2, k4, fun hle => ?_⟩
  cases fin with
  | true => rw [k7, if_pos rfl]; exact hd
  | false =>
    rw [if_neg (by simp), min_eq_left hle] at k7
    rw [min_eq_left hle] at g3 r3 r4
    have hR : R = s.krylov := by
      by_cases hk : s.krylov = []
      · obtain ⟨new, m1, m2, m3, m4⟩ := C49_corrections_partial L hL s.krylov temp ho droptol eta h0 us.length (by rw [g3.1]; omega)
        rw [g4] at m1
        have hnil : new = [] := List.length_eq_zero_iff.1 (by
          have := congrArg List.length hk
          simp only [List.length_nil] at this
          omega)
        rw [if_pos hnil] at m1
        exact Except.ok.inj m1
      · have hn := (C49_none_survives L hL s.krylov temp ho droptol eta h0 us.length (by rw [g3.1]; omega) hk (by
          intro k hk
          have : temp.getD k 0 = 0 := by
            ext i
            rw [g3.2 k (by omega) i, if_neg (by omega)]
            rfl
          rw [this]
          exact inSpan_zero _)).1
        rw [g4] at hn
        exact Except.ok.inj hn
    have hdrop : rz.drop d = [] := List.drop_eq_nil_of_le (by omega)
    rw [hdrop, hR] at k7
    have hpos : s.krylov.length ≤ (s.krylov ++ s.krylov).length := by simp
    rw [k7]
    split_ifs
    · rw [(hq d _).1, List.nil_append, hd]; omega
    · rw [(hq d _).1, List.length_append, hd]; omega

/-- C142 fails for more values than there are states: the function returns (for `stp ≥ 2` iterations) more values than the
dimension of the matrix, so that some of them are found twice. -/
theorem C142_repeats (L : LinAlg K) (hL : L.ExactSqrt) (he : L.ExactEigh) (hq : L.ExactQr) (hrand : ∀ d m, (L.rand d m).length = m)
    (A : Matrix (Fin d) (Fin d) K) (hA : A.IsSymm) (hd : 1 ≤ d) (nbVal initBlockSize stp : Nat) (hnb : d < nbVal) (hs : 2 ≤ stp)
    (tol droptol eta : K) (ht : 0 ≤ tol) (h0 : 0 ≤ droptol) (dimMax : Nat) :
    ∃ s, modifiedDavidsonOpt L A nbVal initBlockSize stp tol droptol eta dimMax = .ok s ∧ d < s.eigvals.length := by
  unfold modifiedDavidsonOpt
  dsimp only
  generalize (if dimMax = 0 then d else dimMax) = dm
  generalize hnu : max initBlockSize nbVal = nu0
  have hnu' : d < nu0 := by omega
  obtain ⟨n, rfl⟩ : ∃ n, stp = n + 2 := ⟨stp - 2, by omega⟩
  have hVl : (L.qr d (L.rand d nu0)).length = d := by rw [(hq d _).1, hrand]; omega
  obtain ⟨s1, f1, a1, a2, a3, a4, a5, a6⟩ := optStep_full (L := L) (A := A) (nbVal := nbVal) (nu0 := nu0) (tol := tol) (droptol := droptol) (eta := eta)
    (dimMax := dm) (s := ⟨0, [], List.replicate nbVal 0, L.qr d (L.rand d nu0), []⟩) hL he hq hA ht h0 (hq d _).2.1 hVl (by simp) (by simp; omega)
  dsimp only at a4 a5 a6
  rw [Nat.zero_add, Nat.sub_zero, min_eq_left (by omega)] at a4
  rw [Nat.sub_zero, min_eq_left (by omega), List.length_nil, Nat.zero_add] at a5
  have a6 := a6 (by omega)
  have hf1 : f1 = false := by
    cases f1 with
    | false => rfl
    | true => have := a2.1 rfl; omega
  subst hf1
  have o1 := optStep_krylov hq (s := ⟨0, [], List.replicate nbVal 0, L.qr d (L.rand d nu0), []⟩) (hq d _).2.1 a1
  obtain ⟨s2, f2, b1, b2, b3, b4, b5, b6⟩ := optStep_full (L := L) (A := A) (nbVal := nbVal) (nu0 := nu0) (tol := tol) (droptol := droptol) (eta := eta)
    (dimMax := dm) (s := s1) hL he hq hA ht h0 o1 a6 a3 (by omega)
  have hlt : d < s2.eigvals.length := by rw [b5, a5, a4]; omega
  have o2 := optStep_krylov hq o1 b1
  show ∃ s, optLoop L A nbVal nu0 tol droptol eta dm (n + 1 + 1) _ = .ok s ∧ _
  unfold optLoop
  cases f2 with
  | true => exact ⟨s2, bind_ok a1 (by show optLoop L A nbVal nu0 tol droptol eta dm (n + 1) s1 = _; unfold optLoop; exact bind_ok b1 rfl), hlt⟩
  | false =>
    have hf2 : s2.nbFound < nbVal := by
      by_contra hc
      exact absurd (b2.2 (by omega)) (by simp)
    obtain ⟨s', i1, i2⟩ := optLoop_returns (A := A) (nu0 := nu0) (tol := tol) (droptol := droptol) (eta := eta) (dimMax := dm) hL hq h0 n s2 o2 b3 hf2
    exact ⟨s', bind_ok a1 (by show optLoop L A nbVal nu0 tol droptol eta dm (n + 1) s1 = _; unfold optLoop; exact bind_ok b1 i1), by omega⟩

/-- C142: with an exact library `modified_davidson_algorithm_opt` always returns. -/
theorem C142_returns (L : LinAlg K) (hL : L.ExactSqrt) (hq : L.ExactQr) (A : Matrix (Fin d) (Fin d) K) (nbVal initBlockSize stp : Nat)
    (hnb : 1 ≤ nbVal) (tol droptol eta : K) (h0 : 0 ≤ droptol) (dimMax : Nat) :
    ∃ s, modifiedDavidsonOpt L A nbVal initBlockSize stp tol droptol eta dimMax = .ok s := by
  obtain ⟨s, h, _⟩ := optLoop_returns (A := A) (nbVal := nbVal) (nu0 := max initBlockSize nbVal) (tol := tol) (eta := eta)
    (dimMax := if dimMax = 0 then d else dimMax) hL hq h0 stp
    ⟨0, [], List.replicate nbVal 0, L.qr d (L.rand d (max initBlockSize nbVal)), []⟩ (hq d _).2.1 (by simp) hnb
  exact ⟨s, h⟩

end

/-- The second basis state of the matrix of order 5 is lost. -/
example : ∃ s', optStep realLib (looseMat : Matrix (Fin 5) (Fin 5) ℝ) 3 3 (1 / 1000) (1 / 1000000) (1 / 10) 5
    ⟨0, [], List.replicate 3 0, realLib.qr 5 (unitVectors [0, 1, 2]), []⟩ = .ok (s', false) ∧ ¬ InSpan s'.krylov (Pi.single 1 1) := by
  obtain ⟨s', h1, _, _, h2, _⟩ := C142_lost realLib realLib_sqrt realLib_eigh realLib_qr (1 / 10 : ℝ) 5 _ rfl
  exact ⟨s', h1, h2⟩

/-- Three values of a matrix of order 2. -/
example : ∃ s, modifiedDavidsonOpt realLib (!![1, 0; 0, 2] : Matrix (Fin 2) (Fin 2) ℝ) 3 3 100 (1 / 1000) (1 / 1000000) (1 / 10) 0 = .ok s ∧
    2 < s.eigvals.length :=
  C142_repeats realLib realLib_sqrt realLib_eigh realLib_qr realLib_rand (!![1, 0; 0, 2] : Matrix (Fin 2) (Fin 2) ℝ)
    (by ext i j; fin_cases i <;> fin_cases j <;> rfl) (by omega) 3 3 100 (by omega) (by omega) (1 / 1000) (1 / 1000000) (1 / 10)
    (by norm_num) (by norm_num) 0

/-- With the search space of the first two basis states the lowest one converges first, and the second one is kept. -/
example : ∃ s', optStep realLib (looseMat : Matrix (Fin 5) (Fin 5) ℝ) 2 2 (1 / 1000) (1 / 1000000) (1 / 10) 5
    ⟨0, [], List.replicate 2 0, realLib.qr 5 (unitVectors [0, 1]), []⟩ = .ok (s', false) ∧ s'.nbFound = 1 ∧
      InSpan s'.krylov (Pi.single 1 1) := by
  have hA : (looseMat : Matrix (Fin 5) (Fin 5) ℝ).IsSymm := by
    ext i j; fin_cases i <;> fin_cases j <;> simp [looseMat]
  set ks : List (Fin 5) := [0, 1] with hks
  obtain ⟨q1, q2, q3⟩ := realLib_qr 5 (unitVectors ks)
  set V := realLib.qr 5 (unitVectors ks)
  have hul : (unitVectors ks : List (Fin 5 → ℝ)).length = 2 := unitVectors_length ks
  have hVl : V.length = 2 := by rw [q1, hul]; rfl
  have hin := span_back (unitVectors_ortho (K := ℝ) (by decide : ks.Nodup)) q2 (by omega) q3
  obtain ⟨vals, us, rs, rz, temp, R, g0, g1, g2, g3, g4, s', fin, k1, k2, k3, k4, k5, k6, k7⟩ :=
    optStep_next (L := realLib) (A := looseMat) (nbVal := 2) (nu0 := 2) (tol := 1 / 1000) (droptol := 1 / 1000000) (eta := 1 / 10) (dimMax := 5)
      (s := ⟨0, [], List.replicate 2 0, V, []⟩) realLib_sqrt q2 (by simp) (Nat.zero_lt_succ 1) (by norm_num)
  dsimp only at g0 g4 k1 k2 k3 k4 k5 k6 k7
  have g0' := g0
  rw [hVl] at g0
  have hr : ritz realLib looseMat V ks.length = .ok (vals, us, rs) := g0
  obtain ⟨r1, r2, r3, r4, r5⟩ := ritz_ok hr
  have hks2 : ks.length = 2 := rfl
  have hsort := ritz_units_sorted realLib_eigh hA (ks := ks) (by
    intro k hk l hl hkl
    rw [hks] at hk hl
    simp only [List.mem_cons, List.not_mem_nil, or_false] at hk hl
    rcases hk with rfl | rfl <;> rcases hl with rfl | rfl <;> first | exact absurd rfl hkl | simp [looseMat])
    (by simp [hks, looseMat]) q2 hin q3 hr
  have hres : ∀ k (hk : k < 2), rs.getD k 0 = vals.getD k 0 • us.getD k 0 - looseMat *ᵥ us.getD k 0 := by
    intro k hk
    have := r5 k (by omega) (by omega) (by omega)
    rwa [getElem_getD _ _ (by omega), getElem_getD _ _ (by omega), getElem_getD _ _ (by omega)]
  obtain ⟨v0, a0, b0, u0⟩ := hsort 0 (by omega)
  obtain ⟨v1, a1, b1, u1⟩ := hsort 1 (by omega)
  have e0 : rs.getD 0 0 = 0 := by
    rw [hres 0 (by omega), v0, u0]
    ext i; fin_cases i <;> simp [hks, looseMat, mulVec_smul]
  have e1 : rs.getD 1 0 = (-a1) • Pi.single 3 1 := by
    rw [hres 1 (by omega), v1, u1]
    ext i; fin_cases i <;> simp [hks, looseMat, mulVec_smul]
  have n0 : realLib.norm (rs.getD 0 0) ≤ 1 / 1000 := by
    rw [e0]; exact norm_zero_le realLib_sqrt (by norm_num)
  have n1 : (1 / 1000 : ℝ) < realLib.norm (rs.getD 1 0) := by
    rw [← not_le, norm_le_iff realLib_sqrt, e1]
    rintro ⟨_, hc⟩
    rw [smul_dotProduct, dotProduct_smul, single_dotProduct, Pi.single_eq_same] at hc
    simp only [smul_eq_mul, mul_one, neg_mul_neg, b1] at hc
    norm_num at hc
  have hcount : acceptedCount realLib (1 / 1000) rs = 1 := by
    unfold acceptedCount
    have : (Finset.range rs.length).filter (fun k => realLib.norm (rs.getD k 0) ≤ 1 / 1000) = {0} := by
      ext k
      rw [Finset.mem_filter, Finset.mem_range, r4, hks2, Finset.mem_singleton]
      constructor
      · rintro ⟨hk, hk2⟩
        interval_cases k
        · rfl
        · exact absurd hk2 (not_le.2 n1)
      · rintro rfl
        exact ⟨by omega, n0⟩
    rw [this]
    rfl
  rw [hcount] at k2
  have hfin : fin = false := by
    cases fin with
    | false => rfl
    | true => have := k6.1 rfl; omega
  subst hfin
  have hkept := C142_kept_partial realLib realLib_sqrt realLib_eigh realLib_qr looseMat hA 2 2 (1 / 1000) (1 / 1000000) (1 / 10) (by norm_num) 5
    ⟨0, [], List.replicate 2 0, V, []⟩ s' q2 (by simp) (Nat.zero_lt_succ 1) k1 vals us rs g0' 1 (by omega) n1 (Or.inr (by rw [hcount]))
  refine ⟨s', k1, by rw [k2], ?_⟩
  have hus : us.getD 1 0 = a1 • Pi.single 1 1 := u1
  have : (Pi.single 1 1 : Fin 5 → ℝ) = a1 • us.getD 1 0 := by rw [hus, smul_smul, b1, one_smul]
  rw [this]
  exact inSpan_smul hkept _

end TJ
