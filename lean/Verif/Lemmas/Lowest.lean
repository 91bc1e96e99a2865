/-
`get_lowests_eig` selects the lowest values.
-/
import Verif.Spec.Davidson
import Verif.Lemmas.Lattice
import Verif.Lemmas.Basis

namespace TJ

section
variable {K : Type} [Field K] [LinearOrder K]

/-- Positions whose values are a prefix of the sorted values. -/
theorem lowPositions_of (v : List K) (s : List K) (hs : s.Perm v) (hd : s.Pairwise (· ≤ ·)) (k : Nat)
    (idx : List Nat) (hnd : idx.Nodup) (hlt : ∀ i ∈ idx, i < v.length)
    (he : idx.map (fun i => v.getD i 0) = s.take k) : LowPositions v k idx := by
  have hlen : s.length = v.length := hs.length_eq
  have hl : idx.length = min k v.length := by
    have := congrArg List.length he
    rw [List.length_map, List.length_take, hlen] at this
    exact this
  refine ⟨hnd, hl, hlt, ?_, ?_⟩
  · have : (idx.map (fun i => v.getD i 0)).Pairwise (· ≤ ·) := by
      rw [he]; exact hd.sublist (List.take_sublist _ _)
    rwa [List.pairwise_map] at this
  · intro j hj hji i hi
    have hall : (List.range v.length).map (fun i => v.getD i 0) = v := by
      apply List.ext_getElem (by simp)
      intro n h1 h2
      simp only [List.length_map, List.length_range] at h1
      simp [List.getD_eq_getElem?_getD, h1]
    have hperm : (idx ++ (List.range v.length).filter (fun i => i ∉ idx)).Perm (List.range v.length) := by
      refine (List.perm_ext_iff_of_nodup ?_ List.nodup_range).2 ?_
      · refine List.Nodup.append hnd (List.nodup_range.filter _) ?_
        intro x h1 h2
        have := (List.mem_filter.1 h2).2
        simp only [decide_eq_true_eq] at this
        exact this h1
      · intro x
        simp only [List.mem_append, List.mem_filter, List.mem_range, decide_eq_true_eq]
        constructor
        · rintro (h | h)
          · exact hlt x h
          · exact h.1
        · intro h
          by_cases g : x ∈ idx
          · exact Or.inl g
          · exact Or.inr ⟨h, g⟩
    have hp2 := hperm.map (fun i => v.getD i 0)
    rw [hall] at hp2
    replace hp2 := hp2.trans hs.symm
    rw [List.map_append, he] at hp2
    nth_rewrite 2 [← List.take_append_drop k s] at hp2
    have hp3 := (List.perm_append_left_iff _).1 hp2
    have hm : v.getD j 0 ∈ s.drop k := by
      rw [← hp3.mem_iff]
      exact List.mem_map.2 ⟨j, by simp [hj, hji], rfl⟩
    have hm2 : v.getD i 0 ∈ s.take k := by
      rw [← he]
      exact List.mem_map.2 ⟨i, hi, rfl⟩
    rw [← List.take_append_drop k s, List.pairwise_append] at hd
    exact hd.2.2 _ hm2 _ hm

/-- Positions of a value. -/
def positions (v : List K) (x : K) : List Nat := (List.range v.length).filter (fun i => decide (v[i]? = some x))

theorem mem_positions {v : List K} {x : K} {i : Nat} : i ∈ positions v x ↔ v[i]? = some x := by
  unfold positions
  rw [List.mem_filter, List.mem_range, decide_eq_true_eq, and_iff_right_iff_imp]
  intro h
  exact (List.getElem?_eq_some_iff.1 h).1

theorem positions_map (v : List K) (x : K) : (positions v x).map (fun i => v.getD i 0) = List.replicate (v.count x) x := by
  rw [List.eq_replicate_iff]
  constructor
  · rw [List.length_map]
    have : v = (List.range v.length).map (fun i => v.getD i 0) := by
      apply List.ext_getElem (by simp)
      intro n h1 h2
      simp [List.getD_eq_getElem?_getD, h1]
    conv_rhs => rw [this, List.count_eq_countP, List.countP_map, List.countP_eq_length_filter]
    unfold positions
    congr 1
    apply List.filter_congr
    intro i hi
    have hi := List.mem_range.1 hi
    simp only [List.getD_eq_getElem?_getD, Function.comp_apply, List.getElem?_eq_getElem hi, Option.getD_some, Option.some.injEq, beq_eq_decide]
  · intro y hy
    obtain ⟨i, hi, rfl⟩ := List.mem_map.1 hy
    rw [List.getD_eq_getElem?_getD, mem_positions.1 hi]
    rfl

/-- The loop of `get_lowests_eig`. -/
theorem lowest_loop (v : List K) (nb : Nat) : ∀ (vs : List K) (X : List Nat),
    vs.foldl (fun (acc : List Nat) val =>
      acc ++ pySliceTo (positions v val) (min ((positions v val).length : Int) ((nb : Int) - acc.length))) (X.take nb) =
      (X ++ vs.flatMap (positions v)).take nb
  | [], X => by simp
  | x :: vs, X => by
    rw [List.foldl_cons]
    have : X.take nb ++ pySliceTo (positions v x) (min ((positions v x).length : Int) ((nb : Int) - (X.take nb).length)) =
        (X ++ positions v x).take nb := by
      rw [List.take_append]
      congr 1
      unfold pySliceTo
      rw [List.length_take, if_pos (by omega)]
      rcases Nat.le_total nb X.length with h | h
      · have : (min ((positions v x).length : Int) ((nb : Int) - ↑(min nb X.length))).toNat = 0 := by omega
        rw [this, Nat.sub_eq_zero_of_le h]
      · rcases Nat.le_total (positions v x).length (nb - X.length) with g | g
        · have : (min ((positions v x).length : Int) ((nb : Int) - ↑(min nb X.length))).toNat = (positions v x).length := by omega
          rw [this, List.take_length, List.take_of_length_le g]
        · have : (min ((positions v x).length : Int) ((nb : Int) - ↑(min nb X.length))).toNat = nb - X.length := by omega
          rw [this]
    rw [this, lowest_loop v nb vs, List.flatMap_cons, List.append_assoc]

theorem insertionSort_sorted (l : List K) : (l.insertionSort (· ≤ ·)).Pairwise (· ≤ ·) := List.pairwise_insertionSort _ l

theorem count_flatMap_replicate (v : List K) (y : K) : ∀ vs : List K, vs.Nodup →
    (vs.flatMap (fun x => List.replicate (v.count x) x)).count y = if y ∈ vs then v.count y else 0
  | [], _ => by simp
  | x :: vs, h => by
    rw [List.flatMap_cons, List.count_append, count_flatMap_replicate v y vs (List.nodup_cons.1 h).2, List.count_replicate]
    have hx := (List.nodup_cons.1 h).1
    by_cases e : x = y
    · subst e
      simp [hx]
    · have : ¬ y = x := fun h => e h.symm
      simp [e, this]

theorem sorted_flatMap_replicate (f : K → Nat) : ∀ vs : List K, vs.Pairwise (· ≤ ·) →
    (vs.flatMap (fun x => List.replicate (f x) x)).Pairwise (· ≤ ·)
  | [], _ => by simp
  | x :: vs, h => by
    rw [List.flatMap_cons, List.pairwise_append]
    refine ⟨List.pairwise_replicate.2 (Or.inr (le_refl _)), sorted_flatMap_replicate f vs (List.pairwise_cons.1 h).2, ?_⟩
    intro a ha b hb
    obtain ⟨y, hy, hb⟩ := List.mem_flatMap.1 hb
    rw [List.eq_of_mem_replicate ha, List.eq_of_mem_replicate hb]
    exact (List.pairwise_cons.1 h).1 y hy

/-- The values at the chosen positions are the lowest ones. -/
theorem lowest_values (v : List K) (nb : Nat) :
    (((((v.insertionSort (· ≤ ·)).take nb).dedup.insertionSort (· ≤ ·)).flatMap (positions v)).take nb).map (fun i => v.getD i 0) =
      (v.insertionSort (· ≤ ·)).take nb := by
  set S := v.insertionSort (· ≤ ·) with hS
  set s := S.take nb with hs
  set vs := s.dedup.insertionSort (· ≤ ·) with hvs
  have hvn : vs.Nodup := (List.perm_insertionSort _ _).nodup_iff.2 (List.nodup_dedup _)
  have hvm : ∀ x, x ∈ vs ↔ x ∈ s := by intro x; rw [hvs, List.mem_insertionSort, List.mem_dedup]
  have hSs : S.Pairwise (· ≤ ·) := insertionSort_sorted v
  have hSp : S.Perm v := List.perm_insertionSort _ _
  rw [List.map_take, List.map_flatMap]
  simp only [positions_map]
  set G := vs.flatMap (fun x => List.replicate (v.count x) x) with hG
  have hGs : G.Pairwise (· ≤ ·) := sorted_flatMap_replicate _ vs (insertionSort_sorted _)
  have hGp : G.Perm (S.filter (fun x => decide (x ∈ s))) := by
    rw [List.perm_iff_count]
    intro y
    rw [hG, count_flatMap_replicate v y vs hvn]
    by_cases h : y ∈ s
    · rw [if_pos ((hvm y).2 h), List.count_filter (by simpa using h), hSp.count_eq]
    · rw [if_neg (fun g => h ((hvm y).1 g))]
      symm
      rw [List.count_eq_zero]
      simp [h]
  have hGe : G = S.filter (fun x => decide (x ∈ s)) :=
    hGp.eq_of_pairwise (fun a b _ _ h1 h2 => le_antisymm h1 h2) hGs (hSs.sublist List.filter_sublist)
  have hsplit : G ++ S.filter (fun x => ! decide (x ∈ s)) = S := by
    refine List.Perm.eq_of_pairwise (le := (· ≤ ·)) (fun a b _ _ h1 h2 => le_antisymm h1 h2) ?_ hSs ?_
    · rw [List.pairwise_append]
      refine ⟨hGs, hSs.sublist List.filter_sublist, ?_⟩
      intro a ha b hb
      rw [hGe] at ha
      have ha := (List.mem_filter.1 ha).2
      obtain ⟨hb1, hb2⟩ := List.mem_filter.1 hb
      simp only [decide_eq_true_eq] at ha
      simp only [Bool.not_eq_eq_eq_not, Bool.not_true, decide_eq_false_iff_not] at hb2
      rw [← List.take_append_drop nb S] at hb1 hSs
      rw [List.pairwise_append] at hSs
      rcases List.mem_append.1 hb1 with h | h
      · exact absurd h hb2
      · exact hSs.2.2 a ha b h
    · rw [hGe]
      exact List.filter_append_perm _ _
  have hlen : s.length ≤ G.length := by
    rw [hGe]
    have : s.Sublist (S.filter (fun x => decide (x ∈ s))) := by
      have h1 : s.filter (fun x => decide (x ∈ s)) = s := List.filter_eq_self.2 (by simp)
      rw [← h1]
      have : (s.filter (fun x => decide (x ∈ s))).Sublist (S.filter (fun x => decide (x ∈ s))) := (List.take_sublist nb S).filter _
      rw [h1] at this ⊢
      simpa [h1] using this
    exact this.length_le
  rcases Nat.lt_or_ge nb S.length with h | h
  · have : s.length = nb := by rw [hs, List.length_take]; omega
    have h2 : nb ≤ G.length := by omega
    rw [hs, ← hsplit, List.take_append_of_le_length h2]
  · have h1 : s = S := List.take_of_length_le h
    have : G = S := by rw [hGe, h1]; exact List.filter_eq_self.2 (by simp)
    rw [this]

/-- `get_lowests_eig`. -/
theorem getLowestsEig_spec {α : Type} (dflt : α) (v : List K) (w : List α) (hw : w.length = v.length) (nb : Nat) :
    ∃ idx, getLowestsEig v w nb = .ok (idx.map (fun i => v.getD i 0), idx.map (fun i => w.getD i dflt)) ∧ LowPositions v nb idx := by
  set vs := ((v.insertionSort (· ≤ ·)).take nb).dedup.insertionSort (· ≤ ·) with hvs
  have hvn : vs.Nodup := (List.perm_insertionSort _ _).nodup_iff.2 (List.nodup_dedup _)
  have hlt : ∀ i ∈ (vs.flatMap (positions v)).take nb, i < v.length := by
    intro i hi
    obtain ⟨x, _, hx⟩ := List.mem_flatMap.1 (List.mem_of_mem_take hi)
    exact (List.getElem?_eq_some_iff.1 (mem_positions.1 hx)).1
  refine ⟨(vs.flatMap (positions v)).take nb, ?_, ?_⟩
  · unfold getLowestsEig
    have h := lowest_loop v nb vs []
    rw [List.take_nil, List.nil_append] at h
    rw [lowest_values]
    refine bind_ok (mapM_ok (g := fun i => w.getD i dflt) ?_) ?_
    · intro i hi
      have hi' : i ∈ (vs.flatMap (positions v)).take nb := by rw [← h]; exact hi
      have : i < w.length := by rw [hw]; exact hlt i hi'
      unfold pyGet
      rw [List.getElem?_eq_getElem this, List.getD_eq_getElem?_getD, List.getElem?_eq_getElem this]
      rfl
    · rw [← h]
      rfl
  · refine lowPositions_of v _ (List.perm_insertionSort _ _) (insertionSort_sorted _) nb _ ?_ hlt (lowest_values v nb)
    refine List.Nodup.sublist (List.take_sublist _ _) ?_
    rw [List.nodup_flatMap]
    refine ⟨fun x _ => List.nodup_range.filter _, ?_⟩
    refine hvn.imp ?_
    intro a b hab
    show List.Disjoint _ _
    intro i h1 h2
    have e1 := mem_positions.1 h1
    rw [mem_positions.1 h2] at e1
    exact hab (Option.some.inj e1).symm

end

end TJ
