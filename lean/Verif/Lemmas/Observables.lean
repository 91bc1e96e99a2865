/-
Lemmas about probabilities, displays and dominant determinants.
-/
import Verif.Model.Observables
import Verif.Spec.Observables
import Verif.Lemmas.SpinPos

namespace TJ

open Finset

section
variable {K : Type} [Field K] [LinearOrder K] [IsStrictOrderedRing K] {c : Config} {dets : List (List Nat)}

omit [LinearOrder K] [IsStrictOrderedRing K] in
theorem foldl_zipIdx_sum (F : List Nat → Nat → K) (l : List (List Nat)) (m : Nat) (x : K) :
    (l.zipIdx m).foldl (fun p d => p + F d.1 d.2) x = x + ∑ k ∈ range l.length, F (l.getD k []) (m + k) := by
  induction l generalizing m x with
  | nil => simp
  | cons a l ih =>
    rw [List.zipIdx_cons, List.foldl_cons, ih, List.length_cons, sum_range_succ']
    simp only [List.getD_cons_succ, List.getD_cons_zero, add_zero]
    have : ∀ k, F (l.getD k []) (m + 1 + k) = F (l.getD k []) (m + (k + 1)) := by
      intro k; rw [Nat.add_assoc, Nat.add_comm 1 k]
    simp only [this]
    ring

theorem probabilitySpin_spec (hb : constructBasis c = .ok dets) (hn : c.nholes + c.nbeta ≤ c.nsites) (v : List K)
    (hv : v.length = dets.length) (o : Occ) :
    ∃ P, probabilitySpin c dets v o.twice = .ok P ∧ P.length = c.nsites ∧
      ∀ s : Fin c.nsites, P.getD s 0 = born (amp c dets v) s o := by
  have hin : o.twice ∈ ([-1, 0, 1] : List Int) := by cases o <;> decide
  have hone : ∀ site < c.nsites, (dets.zipIdx.foldlM (fun (p : K) (d : List Nat × Nat) => do
        let x ← pyGet v d.2
        let s ← getSpinSite c d.1 site
        return p + |x| ^ 2 * (if s.twice = o.twice then 1 else 0)) 0 : Py K) =
      .ok (∑ k ∈ range dets.length, if occC c (dets.getD k []) site = o then v.getD k 0 * v.getD k 0 else 0) := by
    intro site hs
    have := foldlM_ok_of (f := fun (p : K) (d : List Nat × Nat) => (do
        let x ← pyGet v d.2
        let s ← getSpinSite c d.1 site
        return p + |x| ^ 2 * (if s.twice = o.twice then 1 else 0) : Py K))
      (g := fun p d => p + (if occC c d.1 site = o then v.getD d.2 0 * v.getD d.2 0 else 0))
      (fun _ => True) dets.zipIdx 0 trivial (by
        intro p d _ hd
        obtain ⟨det, k⟩ := d
        have hd' := List.mem_zipIdx_iff_getElem?.1 hd
        obtain ⟨hk, e⟩ := List.getElem?_eq_some_iff.1 hd'
        simp only at hk e
        have hval := (canonical_getElem hb k hk).1
        refine ⟨?_, trivial⟩
        have hkv : k < v.length := by omega
        have h1 : pyGet v k = .ok (v.getD k 0) := by
          unfold pyGet
          rw [List.getD_eq_getElem?_getD, List.getElem?_eq_getElem hkv]
          rfl
        have h2 : getSpinSite c det site = .ok (occC c det site) := getSpinSite_eq (by rw [← e]; exact hval.mem.2 hs)
        refine bind_ok h1 (bind_ok h2 ?_)
        show Except.ok _ = Except.ok _
        congr 2
        have hinj : (occC c det site).twice = o.twice ↔ occC c det site = o := by
          generalize occC c det site = q
          cases q <;> cases o <;> simp [Occ.twice]
        simp only [hinj]
        rw [mul_ite, mul_one, mul_zero, sq_abs, sq])
    rw [this]
    have h2 := foldl_zipIdx_sum (fun d k => if occC c d site = o then v.getD k 0 * v.getD k 0 else 0) dets 0 0
    rw [h2]
    simp only [zero_add]
  refine ⟨(List.range c.nsites).map (fun site =>
    (∑ k ∈ range dets.length, if occC c (dets.getD k []) site = o then v.getD k 0 * v.getD k 0 else 0) / vdot v v), ?_, by simp, ?_⟩
  · unfold probabilitySpin
    rw [if_neg (not_not.2 hin)]
    apply mapM_ok
    intro site hs
    exact bind_ok (hone site (List.mem_range.1 hs)) rfl
  · intro s
    rw [List.getD_eq_getElem?_getD, List.getElem?_map, List.getElem?_range s.2]
    show _ / _ = _
    unfold born
    rw [vdot_amp hb hn v v hv hv]
    congr 1
    rw [sum_amp hb hn _ (fun σ h => by rw [amp_outside hb hn v h, mul_zero, ite_self])]
    refine sum_congr rfl fun k hk => ?_
    have hk := mem_range.1 hk
    have e1 : conf c (dets.getD k []) s = occC c (dets.getD k []) s := rfl
    rw [e1]
    rw [getD_dets hk, amp_conf hb v hk]

theorem probabilitySpin_reverse (v : List K) (o : Occ) :
    probabilitySpin c dets v o.twice true = probabilitySpin c dets v o.rev.twice := by
  cases o <;> rfl

theorem born_sum (φ : Conf c.nsites → K) (s : Fin c.nsites) (h : (∑ σ, φ σ * φ σ) ≠ 0) :
    born φ s .hole + born φ s .down + born φ s .up = 1 := by
  unfold born
  rw [← add_div, ← add_div, ← sum_add_distrib, ← sum_add_distrib]
  rw [div_eq_one_iff_eq h]
  refine sum_congr rfl fun σ _ => ?_
  cases σ s <;> simp

theorem born_nonneg {n : Nat} (φ : Conf n → K) (s : Fin n) (o : Occ) : 0 ≤ born φ s o := by
  unfold born
  refine div_nonneg (sum_nonneg fun σ _ => ?_) (sum_nonneg fun σ _ => mul_self_nonneg _)
  split_ifs
  · exact mul_self_nonneg _
  · exact le_refl _

theorem born_le_one {n : Nat} (φ : Conf n → K) (s : Fin n) (o : Occ) : born φ s o ≤ 1 := by
  unfold born
  refine div_le_one_of_le₀ (sum_le_sum fun σ _ => ?_) (sum_nonneg fun σ _ => mul_self_nonneg _)
  split_ifs
  · exact le_refl _
  · exact mul_self_nonneg _

/-- Summed over the sites, the probability of a species is its number. -/
theorem born_sites {n : Nat} (φ : Conf n → K) (o : Occ) (m : Nat) (hm : ∀ σ, φ σ ≠ 0 → σ.count o = m)
    (h : (∑ σ, φ σ * φ σ) ≠ 0) : (∑ s, born φ s o) = m := by
  unfold born
  rw [← sum_div, sum_comm, div_eq_iff h, mul_sum]
  refine sum_congr rfl fun σ _ => ?_
  by_cases h0 : φ σ = 0
  · simp [h0]
  · rw [← hm σ h0, Conf.count, ← sum_filter, sum_const, nsmul_eq_mul]

end

/-! ### Dominant determinants -/

section
variable {K : Type} [Field K] [LinearOrder K]

theorem sortedDesc_perm (l : List K) : (sortedDesc l).Perm l := List.perm_insertionSort _ _

theorem sortedDesc_sorted (l : List K) : (sortedDesc l).Pairwise (fun x y => y ≤ x) := by
  have : Std.Total (fun x y : K => y ≤ x) := ⟨fun a b => le_total b a⟩
  have : IsTrans K (fun x y => y ≤ x) := ⟨fun a b c h1 h2 => le_trans h2 h1⟩
  exact List.pairwise_insertionSort (fun x y : K => y ≤ x) l

/-- Positions whose moduli are a prefix of the decreasingly sorted moduli. -/
theorem topPositions_of (v : List K) (s : List K) (hs : s.Perm (v.map (fun x => |x|))) (hd : s.Pairwise (fun x y => y ≤ x)) (k : Nat)
    (idx : List Nat) (hnd : idx.Nodup) (hlt : ∀ i ∈ idx, i < v.length)
    (he : idx.map (fun i => |v.getD i 0|) = s.take k) : TopPositions v k idx := by
  have hlen : s.length = v.length := by rw [hs.length_eq, List.length_map]
  have hl : idx.length = min k v.length := by
    have := congrArg List.length he
    rw [List.length_map, List.length_take, hlen] at this
    exact this
  refine ⟨hnd, hl, hlt, ?_, ?_⟩
  · have : (idx.map (fun i => |v.getD i 0|)).Pairwise (fun x y => y ≤ x) := by
      rw [he]; exact hd.sublist (List.take_sublist _ _)
    rwa [List.pairwise_map] at this
  · intro j hj hji i hi
    have hall : (List.range v.length).map (fun i => |v.getD i 0|) = v.map (fun x => |x|) := by
      apply List.ext_getElem (by simp)
      intro n h1 h2
      simp only [List.length_map, List.length_range] at h1
      simp [List.getD_eq_getElem?_getD, h1]
    have hperm : (idx ++ (List.range v.length).filter (fun i => i ∉ idx)).Perm (List.range v.length) := by
      refine (List.perm_ext_iff_of_nodup ?_ List.nodup_range).2 ?_
      · refine List.Nodup.append hnd (List.nodup_range.filter _) ?_
        intro x h1 h2
        have := (List.mem_filter.1 h2).2
        simp only [decide_eq_true_eq] at this
        exact this h1
      · intro x
        simp only [List.mem_append, List.mem_filter, List.mem_range, decide_eq_true_eq]
        constructor
        · rintro (h | h)
          · exact hlt x h
          · exact h.1
        · intro h
          by_cases g : x ∈ idx
          · exact Or.inl g
          · exact Or.inr ⟨h, g⟩
    have hp2 := (hperm.map (fun i => |v.getD i 0|)).trans (hall ▸ hs.symm)
    rw [List.map_append, he] at hp2
    nth_rewrite 2 [← List.take_append_drop k s] at hp2
    have hp3 := (List.perm_append_left_iff _).1 hp2
    have hm : |v.getD j 0| ∈ s.drop k := by
      rw [← hp3.mem_iff]
      exact List.mem_map.2 ⟨j, by simp [hj, hji], rfl⟩
    have hm2 : |v.getD i 0| ∈ s.take k := by
      rw [← he]
      exact List.mem_map.2 ⟨i, hi, rfl⟩
    rw [← List.take_append_drop k s, List.pairwise_append] at hd
    exact hd.2.2 _ hm2 _ hm

/-- The search of a position with given modulus among those not yet used. -/
theorem searchIndex_ok (a : List K) (y : K) (mem : List Nat) (j : Nat) (hj : j < a.length) (h1 : a[j] = y) (h2 : j ∉ mem) :
    ∀ fuel i, i ≤ j → j < i + fuel → ∃ r, searchIndex a y mem fuel i = .ok r ∧ r < a.length ∧ a[r]? = some y ∧ r ∉ mem
  | 0, i, hi, hf => absurd hf (by omega)
  | fuel + 1, i, hi, hf => by
    have hia : i < a.length := by omega
    unfold searchIndex
    rw [List.getElem?_eq_getElem hia]
    dsimp only
    split_ifs with h
    · have hne : i ≠ j := by
        rintro rfl
        rcases h with h | h
        · exact h h1
        · exact h2 h
      exact searchIndex_ok a y mem j hj h1 h2 fuel (i + 1) (by omega) (by omega)
    · push_neg at h
      exact ⟨i, rfl, hia, by rw [List.getElem?_eq_getElem hia, h.1], h.2⟩

/-- There is an unused position as long as the moduli used are a strict prefix. -/
theorem exists_unused (a : List K) (mem : List Nat) (hnd : mem.Nodup) (hlt : ∀ i ∈ mem, i < a.length) (y : K) (rest : List K)
    (h : (mem.map (fun i => a.getD i 0) ++ y :: rest).Perm a) : ∃ j, ∃ hj : j < a.length, a[j] = y ∧ j ∉ mem := by
  by_contra hcon
  push_neg at hcon
  have hall : (List.range a.length).map (fun i => a.getD i 0) = a := by
    apply List.ext_getElem (by simp)
    intro n h1 h2
    simp [List.getD_eq_getElem?_getD, h2]
  have hc : a.count y = (mem.map (fun i => a.getD i 0)).count y + (y :: rest).count y := by
    rw [← h.count_eq, List.count_append]
  have h1 : a.count y = ((List.range a.length).filter (fun i => a.getD i 0 = y)).length := by
    conv_lhs => rw [← hall]
    rw [List.count, List.countP_map, List.countP_eq_length_filter]
    rfl
  have h2 : (mem.map (fun i => a.getD i 0)).count y = (mem.filter (fun i => a.getD i 0 = y)).length := by
    rw [List.count, List.countP_map, List.countP_eq_length_filter]
    rfl
  have h3 : ((List.range a.length).filter (fun i => a.getD i 0 = y)).length ≤ (mem.filter (fun i => a.getD i 0 = y)).length := by
    apply List.Subperm.length_le
    refine (List.nodup_range.filter _).subperm ?_
    intro i hi
    simp only [List.mem_filter, List.mem_range, decide_eq_true_eq] at hi ⊢
    refine ⟨hcon i hi.1 ?_, hi.2⟩
    have := hi.2
    simpa [List.getD_eq_getElem?_getD, hi.1] using this
  have h4 : 0 < (y :: rest).count y := by simp
  omega

theorem mostDominant_loop (dets : List (List Nat)) (v : List K) (hv : v.length = dets.length) :
    ∀ (ys rest : List K) (mem : List Nat) (out : List ((Nat × K) × List Nat)),
      mem.Nodup → (∀ i ∈ mem, i < v.length) → out = mem.map (fun i => ((i, v.getD i 0), dets.getD i [])) →
      (mem.map (fun i => |v.getD i 0|) ++ ys ++ rest).Perm (v.map (fun x => |x|)) →
      ∃ idx : List Nat, (ys.foldlM (fun (st : List Nat × List ((Nat × K) × List Nat)) y => (do
          let i ← searchIndex (v.map (fun x => |x|)) y st.1 ((v.map (fun x => |x|)).length + 1) 0
          let x ← pyGet v i
          let d ← pyGet dets i
          return (st.1 ++ [i], st.2 ++ [((i, x), d)]) : Py _)) (mem, out)) =
        .ok (idx, idx.map (fun i => ((i, v.getD i 0), dets.getD i []))) ∧
        idx.Nodup ∧ (∀ i ∈ idx, i < v.length) ∧ idx.map (fun i => |v.getD i 0|) = mem.map (fun i => |v.getD i 0|) ++ ys
  | [], rest, mem, out, hnd, hlt, ho, hp => ⟨mem, by rw [ho]; rfl, hnd, hlt, by simp⟩
  | y :: ys, rest, mem, out, hnd, hlt, ho, hp => by
    have hget : ∀ i, i < v.length → (v.map (fun x => |x|)).getD i 0 = |v.getD i 0| := by
      intro i hi
      simp [List.getD_eq_getElem?_getD, hi]
    have hmap : mem.map (fun i => (v.map (fun x => |x|)).getD i 0) = mem.map (fun i => |v.getD i 0|) :=
      List.map_congr_left (fun i hi => hget i (hlt i hi))
    obtain ⟨j, hj, j1, j2⟩ := exists_unused (v.map (fun x => |x|)) mem hnd (by simpa using hlt) y (ys ++ rest)
      (by rw [hmap]; simpa using hp)
    obtain ⟨r, r1, r2, r3, r4⟩ := searchIndex_ok (v.map (fun x => |x|)) y mem j hj j1 j2 ((v.map (fun x => |x|)).length + 1) 0
      (Nat.zero_le _) (by omega)
    have hr : r < v.length := by simpa using r2
    have hrd : r < dets.length := by omega
    have hy : |v.getD r 0| = y := by
      rw [← hget r hr, List.getD_eq_getElem?_getD, r3]; rfl
    have g1 : pyGet v r = .ok (v.getD r 0) := by
      unfold pyGet
      rw [List.getD_eq_getElem?_getD, List.getElem?_eq_getElem hr]; rfl
    have g2 : pyGet dets r = .ok (dets.getD r []) := by
      unfold pyGet
      rw [List.getD_eq_getElem?_getD, List.getElem?_eq_getElem hrd]; rfl
    obtain ⟨idx, i1, i2, i3, i4⟩ := mostDominant_loop dets v hv ys rest (mem ++ [r]) (out ++ [((r, v.getD r 0), dets.getD r [])])
      (by rw [List.nodup_append]; simp [hnd]; intro a ha e; exact r4 (e ▸ ha))
      (by intro i hi; rcases List.mem_append.1 hi with h | h
          · exact hlt i h
          · rw [List.mem_singleton.1 h]; exact hr)
      (by rw [ho]; simp)
      (by rw [List.map_append, List.map_singleton, hy]; simpa using hp)
    refine ⟨idx, ?_, i2, i3, by rw [i4, List.map_append, List.map_singleton, hy]; simp⟩
    rw [List.foldlM_cons]
    refine bind_ok (bind_ok r1 (bind_ok g1 (bind_ok g2 rfl))) i1

theorem mostDominant_spec (dets : List (List Nat)) (v : List K) (hv : v.length = dets.length) (k : Nat) :
    ∃ idx, mostDominant dets v k = .ok (idx.map (fun i => ((i, v.getD i 0), dets.getD i []))) ∧ TopPositions v k idx := by
  have hp : ((v.map (fun x => |x|)).insertionSort (· ≤ ·)).reverse.Perm (v.map (fun x => |x|)) :=
    (List.reverse_perm _).trans (List.perm_insertionSort _ _)
  obtain ⟨idx, h1, h2, h3, h4⟩ := mostDominant_loop dets v hv
    (((v.map (fun x => |x|)).insertionSort (· ≤ ·)).reverse.take k) (((v.map (fun x => |x|)).insertionSort (· ≤ ·)).reverse.drop k) [] []
    List.nodup_nil (by simp) rfl (by simpa [List.take_append_drop] using hp)
  refine ⟨idx, bind_ok h1 rfl, topPositions_of v _ hp ?_ k idx h2 h3 (by simpa using h4)⟩
  rw [List.pairwise_reverse]
  exact List.pairwise_insertionSort (· ≤ ·) _

theorem pyIndex_ok {α : Type} [DecidableEq α] {l : List α} {x : α} (h : x ∈ l) : pyIndex l x = .ok (l.idxOf x) := if_pos h

/-- The pairs returned by `get_dominant_determinants`. -/
theorem dominant_spec {c : Config} {dets : List (List Nat)} (hb : constructBasis c = .ok dets)
    (v : List K) (hv : v.length = dets.length) (k : Nat) :
    ∃ idx : List Nat, dominantDeterminants c v k = .ok (idx.map (fun i => v.getD i 0), idx.map (fun i => dets.getD i [])) ∧
      (∀ i ∈ idx, i < v.length) ∧ idx.map (fun i => |v.getD i 0|) = (sortedDesc (v.map (fun x => |x|))).take k ∧
      idx = ((sortedDesc (v.map (fun x => |x|))).take k).map (fun y => (v.map (fun x => |x|)).idxOf y) := by
  have hk : (sortedDesc (v.map (fun x => |x|))).take (min k v.length) = (sortedDesc (v.map (fun x => |x|))).take k := by
    rcases le_total k v.length with h | h
    · rw [min_eq_left h]
    · have : (sortedDesc (v.map (fun x => |x|))).length = v.length := by rw [(sortedDesc_perm _).length_eq, List.length_map]
      rw [min_eq_right h, List.take_of_length_le (by omega), List.take_of_length_le (by omega)]
  have hmem : ∀ y ∈ (sortedDesc (v.map (fun x => |x|))).take k, y ∈ v.map (fun x => |x|) := fun y hy =>
    (sortedDesc_perm _).mem_iff.1 (List.mem_of_mem_take hy)
  have hidx : ∀ y ∈ v.map (fun x => |x|), (v.map (fun x => |x|)).idxOf y < v.length ∧
      |v.getD ((v.map (fun x => |x|)).idxOf y) 0| = y := by
    intro y hy
    have h1 := List.idxOf_lt_length_of_mem hy
    have h2 : (v.map (fun x => |x|)).idxOf y < v.length := by simpa using h1
    refine ⟨h2, ?_⟩
    have h3 := List.getElem_idxOf h1
    rw [List.getElem_map] at h3
    rw [List.getD_eq_getElem?_getD, List.getElem?_eq_getElem h2]
    exact h3
  refine ⟨((sortedDesc (v.map (fun x => |x|))).take k).map (fun y => (v.map (fun x => |x|)).idxOf y), ?_, ?_, ?_, rfl⟩
  · unfold dominantDeterminants
    dsimp only
    rw [hk]
    refine bind_ok (mapM_ok (g := fun y => (v.getD ((v.map (fun x => |x|)).idxOf y) 0, dets.getD ((v.map (fun x => |x|)).idxOf y) [])) ?_) ?_
    · intro y hy
      obtain ⟨g1, g2⟩ := hidx y (hmem y hy)
      have g3 : (v.map (fun x => |x|)).idxOf y < dets.length := by omega
      refine bind_ok (pyIndex_ok (hmem y hy)) (bind_ok (a := v.getD ((v.map (fun x => |x|)).idxOf y) 0) ?_
        (bind_ok (a := dets.getD ((v.map (fun x => |x|)).idxOf y) []) ?_ rfl))
      · unfold pyGet
        rw [List.getD_eq_getElem?_getD, List.getElem?_eq_getElem g1]; rfl
      · rw [getD_dets g3]
        exact C05_unrank c dets hb _ g3
    · simp only [List.map_map]; rfl
  · intro i hi
    obtain ⟨y, hy, rfl⟩ := List.mem_map.1 hi
    exact (hidx y (hmem y hy)).1
  · rw [List.map_map]
    conv_rhs => rw [← List.map_id ((sortedDesc (v.map (fun x => |x|))).take k)]
    exact List.map_congr_left (fun y hy => (hidx y (hmem y hy)).2)

end

end TJ
