/-
Helper lemmas: what `compute_S2` does when the sets list hole sites in another order.
-/
import Verif.Lemmas.SpinPos
import Verif.Lemmas.Target
import Verif.Lemmas.EmbedSym
import Verif.Lemmas.Sector

namespace TJ

open Finset

/-! ### Ranks of lists that are not sorted -/

/-- Of all orders of a set of sites, the increasing one has the smallest rank, and only this one. -/
theorem rank_unsorted (n : Nat) : ∀ (xs ys : List Nat) (a : Nat), xs.Pairwise (· < ·) → (∀ x ∈ xs, a ≤ x ∧ x < n) → ys.Perm xs → ys ≠ xs →
    rankFrom n a xs < rankFrom n a ys := by
  intro xs
  induction xs with
  | nil => intro ys a _ _ h1 h2; exact absurd h1.eq_nil h2
  | cons x xs ih =>
    intro ys a hs hb hp hne
    obtain ⟨hx, hs'⟩ := List.pairwise_cons.1 hs
    cases ys with
    | nil => exact absurd hp.symm.eq_nil (by simp)
    | cons y ys =>
      have hlen : ys.length = xs.length := by simpa using hp.length_eq
      rw [rankFrom, rankFrom, hlen]
      by_cases e : y = x
      · subst e
        have := ih ys (y + 1) hs' (fun z hz => ⟨hx z hz, (hb z (List.mem_cons_of_mem _ hz)).2⟩) hp.cons_inv (fun e => hne (by rw [e]))
        omega
      · have hy : y ∈ xs := (List.mem_cons.1 (hp.mem_iff.1 List.mem_cons_self)).resolve_left e
        have hxy := hx y hy
        obtain ⟨hax, hxn⟩ := hb x List.mem_cons_self
        have hsub : xs.Sublist (List.range' (x + 1) (n - (x + 1))) := by
          have h2 : (List.range' (x + 1) (n - (x + 1))).filter (fun z => z ∈ xs) = xs := by
            apply sorted_perm_eq _ (List.Pairwise.filter _ List.pairwise_lt_range') hs'
            refine (List.perm_ext_iff_of_nodup (List.Nodup.filter _ List.nodup_range') (hs'.imp (fun h => Nat.ne_of_lt h))).2 fun z => ?_
            simp only [List.mem_filter, List.mem_range'_1, decide_eq_true_eq]
            constructor
            · exact fun h => h.2
            · intro h
              have := hx z h
              have := (hb z (List.mem_cons_of_mem _ h)).2
              exact ⟨by omega, h⟩
          rw [← h2]
          exact List.filter_sublist
        have h3 := rankFrom_lt _ _ _ hsub
        rw [show x + 1 + (n - (x + 1)) = n by omega] at h3
        have h4 : List.range' a (y - a) = List.range' a (x - a) ++ (x :: List.range' (x + 1) (y - x - 1)) := by
          have e1 : List.range' a (y - a) = List.range' a (x - a) ++ List.range' x (y - x) := by
            have := List.range'_append_1 (s := a) (m := x - a) (n := y - x)
            rw [show a + (x - a) = x by omega, show x - a + (y - x) = y - a by omega] at this
            exact this.symm
          rw [e1, show y - x = (y - x - 1) + 1 by omega, List.range'_succ]
          simp
        rw [h4, List.map_append, List.sum_append, List.map_cons, List.sum_cons, show n - 1 - x = n - (x + 1) by omega]
        omega

section
variable {c : Config} {dets : List (List Nat)}

/-- Determinants with the holes `hs` are numbered in one block. -/
theorem hash_lt {d : List Nat} (hd : d ∈ basisList c.nsites c.nholes c.nbeta) :
    computeHashTable c d < (rankFrom c.nsites 0 (holesOf c d) + 1) * (c.nsites - c.nholes).choose c.nbeta := by
  obtain ⟨hs, bs, h1, h2, b1, b2, rfl⟩ := parts_of_mem_basisList hd
  have e1 : holesOf c (hs ++ bs ++ (freeOf c.nsites hs).filter (fun y => y ∉ bs)) = hs := by
    rw [holesOf, List.append_assoc]; exact List.take_left' h2
  rw [hash_parts h1 h2 b1 b2, e1]
  have r2 := getElem?_rank_free h1 b1
  rw [b2, h2] at r2
  have hlt : rankFrom (c.nsites - c.nholes) 0 (bs.map (proj hs)) < (c.nsites - c.nholes).choose c.nbeta := by
    by_contra hc
    rw [List.getElem?_eq_none (by rw [length_combinations, length_freeOf h1, h2]; omega)] at r2
    simp at r2
  rw [Nat.add_mul, Nat.one_mul]
  omega

theorem le_hash {d : List Nat} (hn : c.nholes ≤ c.nsites) (hlt : ∀ x ∈ holesOf c d, x < c.nsites) :
    rankFrom c.nsites 0 (holesOf c d) * (c.nsites - c.nholes).choose c.nbeta ≤ computeHashTable c d := by
  have d1 : getDistanceHash c.nsites [] (holesOf c d) = rankFrom c.nsites 0 (holesOf c d) := by
    have := getDistanceHash_eq c.nsites [] (holesOf c d) (holesOf c d) (by
      rw [proj_zip List.Pairwise.nil (by simp), show proj [] = id by funext y; simp [proj, countLe], List.map_id])
      (by simp) (fun y hy => by simpa using hlt y hy)
    simpa using this
  unfold computeHashTable
  dsimp only
  rw [d1, show (c.nsites : Int) - c.nholes = ((c.nsites - c.nholes : Nat) : Int) by omega, pyComb_nat]
  exact Nat.le_add_right _ _

theorem holesOf_canonical {det : List Nat} (hc : Canonical c.nsites c.nholes c.nbeta det) :
    holesOf c det = sitesOf c.nsites (occC c det) .hole :=
  (sorted_perm_eq (sitesOf_occ_hole hc.1 c.nholes c.nbeta) (sitesOf_sorted _ _ _) hc.2.1).symm

/-- An exchange on a determinant whose holes are listed in another order gives a number after the block of the determinant. -/
theorem hash_displaced (S : SetSem) (hf : c.Full) {det d e : List Nat} (hn : c.nholes + c.nbeta ≤ c.nsites)
    (hc : Canonical c.nsites c.nholes c.nbeta det) (ho : ¬ (S.inter (holesOf c det) c.restr.1).Pairwise (· < ·)) {p m : Nat}
    (hd : sPlusSMinusDet S c det p m = .ok (some d)) (he : e ∈ basisList c.nsites c.nholes c.nbeta) (hh : holesOf c e = holesOf c det) :
    computeHashTable c e < computeHashTable c d := by
  obtain ⟨ho1, g1, g2⟩ := getIndexesOf_full S hf hc.1 .hole false
  have g1' : getIndexesOf S c det 0 = .ok ho1 := g1
  have hl : ho1 = S.inter (holesOf c det) c.restr.1 := by
    simp [getIndexesOf] at g1'
    exact g1'.symm
  rw [← holesOf_canonical hc] at g2
  have hlen : ho1.length = c.nholes := by
    rw [g2.length_eq]
    unfold holesOf
    rw [List.length_take, hc.1.length]
    omega
  have hdt : ∃ r, d = ho1 ++ r := by
    unfold sPlusSMinusDet at hd
    obtain ⟨al, _, hd⟩ := bind_eq_ok.1 hd
    obtain ⟨be, _, hd⟩ := bind_eq_ok.1 hd
    split_ifs at hd
    · obtain ⟨al', _, hd⟩ := bind_eq_ok.1 hd
      obtain ⟨be', _, hd⟩ := bind_eq_ok.1 hd
      obtain ⟨h', h1, hd⟩ := bind_eq_ok.1 hd
      rw [g1'] at h1
      obtain rfl := Except.ok.inj h1
      have := Option.some.inj (Except.ok.inj hd)
      exact ⟨_, this.symm.trans (List.append_assoc _ _ _)⟩
    · cases hd
    · cases hd
  obtain ⟨r, rfl⟩ := hdt
  have e1 : holesOf c (ho1 ++ r) = ho1 := by rw [holesOf]; exact List.take_left' hlen
  have hlt : ∀ x ∈ holesOf c det, x < c.nsites := fun x hx => hc.1.mem.1 (List.mem_of_mem_take hx)
  have h1 := hash_lt he
  have h2 := le_hash (c := c) (d := ho1 ++ r) (by omega) (fun x hx => by
    rw [e1] at hx
    exact hlt x (g2.mem_iff.1 hx))
  rw [hh] at h1
  rw [e1] at h2
  have h3 := rank_unsorted c.nsites (holesOf c det) ho1 0 hc.2.1 (fun x hx => ⟨Nat.zero_le _, hlt x hx⟩) g2 (fun e => ho (by
    rw [← hl, e]; exact hc.2.1))
  exact lt_of_lt_of_le h1 (le_trans (Nat.mul_le_mul_right _ h3) h2)

/-! ### The vector returned -/

section
variable {K : Type} [Field K]

theorem unit_getD_ne {n i j : Nat} (h : j ≠ i) : ((List.replicate n (0 : K)).set i 1).getD j 0 = 0 := by
  rw [List.getD_eq_getElem?_getD, List.getElem?_set_ne (Ne.symm h)]
  cases h : (List.replicate n (0 : K))[j]? with
  | none => rfl
  | some z => exact List.eq_of_mem_replicate (List.mem_of_getElem? h)

theorem unit_getD_self {n i : Nat} (h : i < n) : ((List.replicate n (0 : K)).set i 1).getD i 0 = 1 := by
  rw [List.getD_eq_getElem?_getD, List.getElem?_set_self (by simpa using h)]
  rfl

theorem vadd_getD_zero {u w : List K} {k : Nat} (h1 : u.getD k 0 = 0) (h2 : w.getD k 0 = 0) : (vadd u w).getD k 0 = 0 := by
  unfold vadd
  rw [List.getD_eq_getElem?_getD] at h1 h2 ⊢
  rw [List.getElem?_zipWith]
  cases hu : u[k]? <;> cases hw : w[k]? <;> simp_all

/-- Only one coefficient is not zero and its exchanges do not go to `k`: nothing goes to `k`. -/
theorem sPlusSMinus_misses (S : SetSem) (hb : constructBasis c = .ok dets) (v : List K) {i k : Nat} (hi : i < dets.length)
    (hv : ∀ j, j ≠ i → v.getD j 0 = 0) {p m : Nat}
    (hmiss : ∀ d, sPlusSMinusDet S c dets[i] p m = .ok (some d) → computeHashTable c d ≠ k) {w : List K}
    (hw : sPlusSMinus S c v p m = .ok w) : w.getD k 0 = 0 := by
  unfold sPlusSMinus at hw
  refine foldlM_inv (P := fun w : List K => w.getD k 0 = 0) ?_ _ ?_ hw
  · intro w ind w' h0 hs
    unfold sPlusSMinusStep at hs
    obtain ⟨det, hd, hs⟩ := bind_eq_ok.1 hs
    obtain ⟨r, hr, hs⟩ := bind_eq_ok.1 hs
    have hadd : ∀ d, r = some d → ∀ {w' : List K}, (do let x ← pyGet v ind; pyAddAt w (computeHashTable c d) x) = Except.ok w' →
        w'.getD k 0 = 0 := by
      intro d hrd w' hs
      obtain ⟨x, hx, hs⟩ := bind_eq_ok.1 hs
      unfold pyAddAt at hs
      cases hy : w[computeHashTable c d]? with
      | none => rw [hy] at hs; cases hs
      | some y =>
        rw [hy] at hs
        obtain rfl := Except.ok.inj hs
        rw [List.getD_eq_getElem?_getD] at h0 ⊢
        by_cases hk : computeHashTable c d = k
        · have hix : ind ≠ i := by
            rintro rfl
            have e1 := C05_unrank c dets hb ind hi
            rw [hd] at e1
            obtain rfl := Except.ok.inj e1
            exact hmiss d (hr.trans (by rw [hrd])) hk
          have hx0 : x = 0 := by
            have := hv ind hix
            unfold pyGet at hx
            rw [List.getD_eq_getElem?_getD] at this
            cases hvi : v[ind]? with
            | none => rw [hvi] at hx; cases hx
            | some z =>
              rw [hvi] at hx this
              obtain rfl := Except.ok.inj hx
              simpa using this
          rw [hk] at hy ⊢
          rw [hy] at h0
          rw [List.getElem?_set_self (List.getElem?_eq_some_iff.1 hy).1, hx0, add_zero]
          exact h0
        · rw [List.getElem?_set_ne hk]
          exact h0
    split at hs
    · cases hs; exact h0
    · cases hs; exact h0
    · exact hadd _ rfl hs
  · rw [List.getD_eq_getElem?_getD]
    cases h : (List.replicate v.length (0 : K))[k]? with
    | none => rfl
    | some z => exact List.eq_of_mem_replicate (List.mem_of_getElem? h)

/-- The same for `compute_S2`. -/
theorem computeS2_misses (S : SetSem) (hb : constructBasis c = .ok dets) (v : List K) {i k : Nat} (hi : i < dets.length)
    (hv : ∀ j, j ≠ i → v.getD j 0 = 0) (hki : k ≠ i)
    (hmiss : ∀ p m d, sPlusSMinusDet S c dets[i] p m = .ok (some d) → computeHashTable c d ≠ k) {w : List K}
    (hw : computeS2 S c v = .ok w) : w.getD k 0 = 0 := by
  unfold computeS2 at hw
  refine foldlM_inv (P := fun w : List K => w.getD k 0 = 0) ?_ _ ?_ hw
  · intro w q w' h0 hs
    obtain ⟨x, hx, hs⟩ := bind_eq_ok.1 hs
    obtain ⟨y, hy, hs⟩ := bind_eq_ok.1 hs
    obtain rfl := Except.ok.inj hs
    exact vadd_getD_zero h0 (vadd_getD_zero (sPlusSMinus_misses S hb v hi hv (hmiss _ _) hx) (sPlusSMinus_misses S hb v hi hv (hmiss _ _) hy))
  · have := hv k hki
    rw [List.getD_eq_getElem?_getD] at this ⊢
    rw [List.getElem?_map]
    cases h : v[k]? with
    | none => rfl
    | some z =>
      rw [h] at this
      simp only [Option.getD_some] at this
      simp [this]

end

/-- An occupation with given holes, a down spin and an up spin. -/
theorem exists_holes {l : List Nat} (hl : l.Pairwise (· < ·)) (h1 : l.length = c.nholes) (h2 : ∀ x ∈ l, x < c.nsites)
    (hn : c.nholes + c.nbeta < c.nsites) (hbeta : 1 ≤ c.nbeta) :
    ∃ d ∈ basisList c.nsites c.nholes c.nbeta, holesOf c d = l ∧
      ∃ p m : Fin c.nsites, occC c d p = .down ∧ occC c d m = .up := by
  have hsub : l.Sublist (List.range c.nsites) := sublist_range_iff.2 ⟨hl, h2⟩
  have hfree := length_freeOf hsub
  have hmem : l ++ (freeOf c.nsites l).take c.nbeta ++ (freeOf c.nsites l).filter (fun y => y ∉ (freeOf c.nsites l).take c.nbeta) ∈
      basisList c.nsites c.nholes c.nbeta := by
    unfold basisList basisBlock
    refine List.mem_flatMap.2 ⟨l, mem_combinations.2 ⟨hsub, h1⟩, List.mem_map.2 ⟨_, mem_combinations.2 ⟨List.take_sublist _ _, ?_⟩, rfl⟩⟩
    rw [List.length_take, hfree]
    omega
  refine ⟨_, hmem, ?_, ?_⟩
  · rw [holesOf, List.append_assoc]; exact List.take_left' h1
  · generalize l ++ (freeOf c.nsites l).take c.nbeta ++ (freeOf c.nsites l).filter (fun y => y ∉ (freeOf c.nsites l).take c.nbeta) = d at hmem
    have hc := (canonical_of_mem_basisList hmem).1
    have d0 := count_conf_down (by omega) hc
    have u0 := count_conf_up (by omega) hc
    obtain ⟨p, hp⟩ := card_pos.1 (show 0 < (conf c d).count .down by omega)
    obtain ⟨m, hm⟩ := card_pos.1 (show 0 < (conf c d).count .up by unfold Config.nalpha at u0; omega)
    exact ⟨p, m, (mem_filter.1 hp).2, (mem_filter.1 hm).2⟩

/-- When some holes are not listed increasingly, there are two determinants that differ by an exchange and the first never goes to the
second. -/
theorem exists_missed (S : SetSem) (hf : c.Full) (hn : c.nholes + c.nbeta < c.nsites) (hbeta : 1 ≤ c.nbeta)
    (hb : constructBasis c = .ok dets) (ho : ¬ HolesInOrder S c) :
    ∃ i, ∃ hi : i < dets.length, ∃ k, ∃ hk : k < dets.length, k ≠ i ∧ ∃ p m : Fin c.nsites,
      conf c dets[i] = exch (conf c dets[k]) p m ∧ conf c dets[k] p = .up ∧ conf c dets[k] m = .down ∧
      ∀ p m d, sPlusSMinusDet S c dets[i] p m = .ok (some d) → computeHashTable c d ≠ k := by
  unfold HolesInOrder at ho
  push Not at ho
  obtain ⟨l, l1, l2, l3, l4⟩ := ho
  obtain ⟨d, hd, hl, p, m, hp, hm⟩ := exists_holes l1 l2 l3 hn hbeta
  have hcd := canonical_of_mem_basisList hd
  have hdets : dets = basisList c.nsites c.nholes c.nbeta := by
    have hb' := hb
    rw [constructBasis_eq] at hb'
    exact (Except.ok.inj hb').symm
  obtain ⟨i, hi, hid⟩ := List.getElem_of_mem (hdets ▸ hd : d ∈ dets)
  obtain ⟨k, hk, hkc⟩ := exists_conf hb (by omega) (σ := exch (conf c d) p m)
    (by rw [count_exch, count_conf_hole (by omega) hcd.1]) (by rw [count_exch, count_conf_down (by omega) hcd.1])
  have hck := canonical_getElem hb k hk
  have hkp : conf c dets[k] p = .up := by rw [hkc, exch_left]; exact hm
  have hkm : conf c dets[k] m = .down := by rw [hkc, exch_right]; exact hp
  have hmem : dets[k] ∈ basisList c.nsites c.nholes c.nbeta := hdets ▸ List.getElem_mem hk
  have hhash : computeHashTable c dets[k] = k := by
    have h1 := getElem?_hash hmem
    rw [← hdets] at h1
    have h2 := (List.getElem?_eq_some_iff.1 h1).2
    have h3 := (List.getElem?_eq_some_iff.1 h1).1
    have hnd : dets.Nodup := by rw [hdets]; exact nodup_basisList _ _ _
    exact (List.Nodup.getElem_inj_iff hnd).1 h2
  have hholes : holesOf c dets[k] = holesOf c d := by
    rw [holesOf_canonical hck, holesOf_canonical hcd]
    unfold sitesOf
    apply List.filter_congr
    intro s hs
    have hs := List.mem_range.1 hs
    have e : occC c dets[k] s = exch (conf c d) p m ⟨s, hs⟩ := congrFun hkc ⟨s, hs⟩
    have hne : (exch (conf c d) p m ⟨s, hs⟩ = .hole) ↔ (conf c d ⟨s, hs⟩ = .hole) := by
      by_cases q1 : (⟨s, hs⟩ : Fin c.nsites) = p
      · rw [q1, exch_left, show conf c d p = .down from hp, show conf c d m = .up from hm]; simp
      by_cases q2 : (⟨s, hs⟩ : Fin c.nsites) = m
      · rw [q2, exch_right, show conf c d p = .down from hp, show conf c d m = .up from hm]; simp
      · unfold exch
        simp [Equiv.swap_apply_of_ne_of_ne q1 q2]
    rw [decide_eq_decide, e, hne]
    exact Iff.rfl
  refine ⟨i, hi, k, hk, ?_, p, m, ?_, hkp, hkm, ?_⟩
  · rintro rfl
    rw [hid] at hkp
    exact absurd (hkp.symm.trans hp) (by simp)
  · rw [hkc, exch_exch, hid]
  · intro p' m' d' hd'
    rw [hid] at hd'
    have := hash_displaced S hf (by omega) hcd (by rw [hl]; exact l4) hd' hmem hholes
    omega

end

end TJ
