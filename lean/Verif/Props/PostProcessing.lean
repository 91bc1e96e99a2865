/-
Properties of the computations of postProcessing.py: C64, C65.
-/
import Verif.Model.PostProcessing
import Verif.Lemmas.Davidson
import Verif.Props.Observables
import Mathlib.Algebra.Order.Floor.Defs
import Mathlib.Data.Rat.Floor
import Mathlib.Algebra.BigOperators.Group.Finset.Basic

namespace TJ

/-! ### C64 -/

section
variable {α : Type} [DecidableEq α]

/-- Levels with multiplicities, by removing all the copies of the first energy. -/
def groups : Nat → List α → List (α × Nat)
  | 0, _ => []
  | _, [] => []
  | n + 1, a :: l => (a, l.count a + 1) :: groups n (l.filter (fun x => x ≠ a))

theorem groups_fst_mem : ∀ (n : Nat) (l : List α), l.length ≤ n → ∀ x, x ∈ (groups n l).map Prod.fst ↔ x ∈ l
  | 0, l, h, x => by rw [List.length_eq_zero_iff.1 (by omega : l.length = 0)]; simp [groups]
  | n + 1, [], _, x => by simp [groups]
  | n + 1, a :: l, h, x => by
    rw [groups, List.map_cons, List.mem_cons, groups_fst_mem n _ ((List.length_filter_le _ _).trans (by simpa using h)), List.mem_filter,
      List.mem_cons]
    by_cases hx : x = a
    · simp [hx]
    · simp [hx]

theorem groups_nodup : ∀ (n : Nat) (l : List α), l.length ≤ n → ((groups n l).map Prod.fst).Nodup
  | 0, l, h => by simp [groups]
  | n + 1, [], _ => by simp [groups]
  | n + 1, a :: l, h => by
    have hl := (List.length_filter_le (fun x => decide (x ≠ a)) l).trans (Nat.le_of_succ_le_succ h)
    rw [groups, List.map_cons, List.nodup_cons]
    exact ⟨fun hm => by simpa using (groups_fst_mem n _ hl a).1 hm, groups_nodup n _ hl⟩

theorem groups_count : ∀ (n : Nat) (l : List α), l.length ≤ n → (groups n l).map Prod.snd = ((groups n l).map Prod.fst).map (fun x => l.count x)
  | 0, l, h => by simp [groups]
  | n + 1, [], _ => by simp [groups]
  | n + 1, a :: l, h => by
    have hl := (List.length_filter_le (fun x => decide (x ≠ a)) l).trans (Nat.le_of_succ_le_succ h)
    rw [groups, List.map_cons, List.map_cons, List.map_cons, groups_count n _ hl]
    congr 1
    · simp
    · refine List.map_congr_left fun x hx => ?_
      have hx := (groups_fst_mem n _ hl x).1 hx
      rw [List.mem_filter] at hx
      have hne : x ≠ a := by simpa using hx.2
      rw [List.count_cons_of_ne (Ne.symm hne), List.count_filter]
      simpa using hne

theorem groups_sublist : ∀ (n : Nat) (l : List α), ((groups n l).map Prod.fst).Sublist l
  | 0, l => by simp [groups]
  | n + 1, [] => by simp [groups]
  | n + 1, a :: l => by
    rw [groups, List.map_cons]
    exact List.Sublist.cons_cons _ ((groups_sublist n _).trans List.filter_sublist)

theorem groups_stable : ∀ (n m : Nat) (l : List α), l.length ≤ n → l.length ≤ m → groups n l = groups m l
  | 0, 0, l, _, _ => rfl
  | 0, m + 1, l, h, _ => by rw [List.length_eq_zero_iff.1 (by omega : l.length = 0)]; simp [groups]
  | n + 1, 0, l, _, h => by rw [List.length_eq_zero_iff.1 (by omega : l.length = 0)]; simp [groups]
  | n + 1, m + 1, [], _, _ => by simp [groups]
  | n + 1, m + 1, a :: l, h, h' => by
    have hl := List.length_filter_le (fun x => decide (x ≠ a)) l
    rw [List.length_cons] at h h'
    rw [groups, groups, groups_stable n m _ (hl.trans (by omega)) (hl.trans (by omega))]

theorem filter_ne_erase (v : α) : ∀ l : List α, (l.erase v).filter (fun x => decide (x ≠ v)) = l.filter (fun x => decide (x ≠ v))
  | [] => rfl
  | a :: l => by
    by_cases h : a = v
    · subst h; simp
    · rw [List.erase_cons_tail (by simpa using h), List.filter_cons, List.filter_cons, filter_ne_erase v l]

/-- The loop, from a state where `P` is finished and `v` (seen `d` times) is the current energy. -/
theorem degeneracyLoop_eq : ∀ (fuel : Nat) (rest P : List α) (D : List Nat) (v : α) (d m : Nat), D.length = P.length → rest.length ≤ m →
    rest.length < fuel →
    ∃ deg, degeneracyLoop fuel (P ++ v :: rest) (D ++ d :: List.replicate m 1) P.length =
        .ok (P ++ v :: (groups rest.length (rest.filter (fun x => x ≠ v))).map Prod.fst, deg) ∧
      deg.take (P ++ v :: (groups rest.length (rest.filter (fun x => x ≠ v))).map Prod.fst).length =
        D ++ (d + rest.count v) :: (groups rest.length (rest.filter (fun x => x ≠ v))).map Prod.snd
  | 0, _, _, _, _, _, _, _, _, h => by omega
  | fuel + 1, [], P, D, v, d, m, hD, hm, hf => by
    refine ⟨D ++ d :: List.replicate m 1, by rw [degeneracyLoop, if_neg (by simp)]; simp [groups], ?_⟩
    simp only [List.filter_nil, List.length_nil, groups, List.map_nil, List.length_append, List.length_cons, List.count_nil, Nat.add_zero]
    rw [← hD, List.take_length_add_append]
    simp
  | fuel + 1, w :: r, P, D, v, d, m, hD, hm, hf => by
    have hget : pyGet (P ++ v :: w :: r) P.length = .ok v := by unfold pyGet; simp
    have hdrop : (P ++ v :: w :: r).drop (P.length + 1) = w :: r := by rw [List.drop_length_add_append]; rfl
    have htake : (P ++ v :: w :: r).take (P.length + 1) = P ++ [v] := by rw [List.take_length_add_append]; rfl
    rw [degeneracyLoop, if_pos (by simp)]
    simp only [hget, hdrop, htake, bind, Except.bind]
    by_cases hv : v ∈ w :: r
    · rw [if_pos hv, pyRemove, if_pos hv]
      have hg : pyGet (D ++ d :: List.replicate m 1) P.length = .ok d := by unfold pyGet; rw [← hD]; simp
      have hs : pySet (D ++ d :: List.replicate m 1) P.length (d + 1) = .ok (D ++ (d + 1) :: List.replicate m 1) := by
        unfold pySet; rw [← hD]; simp
      simp only [hg, hs]
      have hlen := List.length_erase_of_mem hv
      have hpos : 0 < (w :: r).length := by simp
      obtain ⟨deg, h1, h2⟩ := degeneracyLoop_eq fuel ((w :: r).erase v) P D v (d + 1) m hD (by omega) (by omega)
      have hfil : ((w :: r).erase v).filter (fun x => decide (x ≠ v)) = (w :: r).filter (fun x => decide (x ≠ v)) :=
        filter_ne_erase v _
      have hst := groups_stable ((w :: r).erase v).length (w :: r).length (((w :: r).erase v).filter (fun x => decide (x ≠ v)))
        (List.length_filter_le _ _) ((List.length_filter_le _ _).trans (by omega))
      have hc : d + 1 + ((w :: r).erase v).count v = d + (w :: r).count v := by
        rw [List.count_erase_self]
        have := List.count_pos_iff.2 hv
        omega
      rw [hst, hfil] at h1 h2
      rw [hc] at h2
      refine ⟨deg, ?_, h2⟩
      rw [List.append_assoc]
      exact h1
    · rw [if_neg hv]
      obtain ⟨m, rfl⟩ : ∃ m', m = m' + 1 := ⟨m - 1, by simp at hm; omega⟩
      obtain ⟨deg, h1, h2⟩ := degeneracyLoop_eq fuel r (P ++ [v]) (D ++ [d]) w 1 m (by simp [hD]) (by simpa using hm) (by simpa using hf)
      have hfil : (w :: r).filter (fun x => decide (x ≠ v)) = w :: r := by
        rw [List.filter_eq_self]
        intro x hx
        simp only [ne_eq, decide_not, Bool.not_eq_eq_eq_not, Bool.not_true, decide_eq_false_iff_not]
        rintro rfl
        exact hv hx
      rw [hfil, List.count_eq_zero_of_not_mem hv, List.length_cons, groups]
      simp only [List.map_cons, List.append_assoc, List.singleton_append, List.length_append, List.length_singleton, List.replicate_succ] at h1 h2 ⊢
      refine ⟨deg, h1, ?_⟩
      simp only [List.length_append, List.length_cons, List.length_nil] at h2 ⊢
      rw [h2, Nat.add_comm 1]
      rfl

/-- C64. The levels are the different energies, in the order in which they first occur, and the degeneracies are the numbers of their
occurrences; they add up to the number of energies. -/
theorem C64_levels (eigvals : List α) (fuel : Nat) (hf : eigvals.length < fuel) :
    ∃ vals deg, spectrumLevels fuel eigvals = .ok (vals, deg) ∧ vals.Nodup ∧ (∀ x, x ∈ vals ↔ x ∈ eigvals) ∧ vals.Sublist eigvals ∧
      deg = vals.map (fun x => eigvals.count x) ∧ deg.sum = eigvals.length := by
  have hsum : ∀ vals : List α, vals.Nodup → (∀ x, x ∈ vals ↔ x ∈ eigvals) → (vals.map (fun x => eigvals.count x)).sum = eigvals.length := by
    intro vals hn hm
    rw [← List.sum_map_count_dedup_eq_length eigvals]
    exact (((List.perm_ext_iff_of_nodup hn (List.nodup_dedup _)).2 (fun x => by rw [hm, List.mem_dedup])).map _).sum_eq
  cases eigvals with
  | nil =>
    refine ⟨[], [], ?_, by simp, by simp, by simp, by simp, by simp⟩
    obtain ⟨f, rfl⟩ : ∃ f, fuel = f + 1 := ⟨fuel - 1, by simp at hf; omega⟩
    simp [spectrumLevels, degeneracyLoop, bind, Except.bind, pure, Except.pure]
  | cons v rest =>
    obtain ⟨deg, h1, h2⟩ := degeneracyLoop_eq fuel rest [] [] v 1 rest.length rfl (le_refl _) (by simp at hf; omega)
    simp only [List.nil_append, List.length_nil] at h1 h2
    have hg : groups (rest.length + 1) (v :: rest) = (v, rest.count v + 1) :: groups rest.length (rest.filter (fun x => x ≠ v)) := rfl
    have e1 : v :: (groups rest.length (rest.filter (fun x => x ≠ v))).map Prod.fst = (groups (rest.length + 1) (v :: rest)).map Prod.fst := by
      rw [hg]; rfl
    have e2 : (1 + rest.count v) :: (groups rest.length (rest.filter (fun x => x ≠ v))).map Prod.snd =
        (groups (rest.length + 1) (v :: rest)).map Prod.snd := by
      rw [hg, Nat.add_comm 1]; rfl
    have hl : (v :: rest).length ≤ rest.length + 1 := by simp
    have hn := groups_nodup _ _ hl
    have hm := groups_fst_mem _ _ hl
    refine ⟨(groups (rest.length + 1) (v :: rest)).map Prod.fst, (groups (rest.length + 1) (v :: rest)).map Prod.snd, ?_, hn, hm,
      groups_sublist _ _, groups_count _ _ hl, ?_⟩
    · unfold spectrumLevels
      have : (v :: rest).map (fun _ => 1) = 1 :: List.replicate rest.length 1 := by simp [List.map_const']
      rw [this, h1]
      simp only [bind, Except.bind, pure, Except.pure]
      rw [h2, e1, e2]
    · rw [groups_count _ _ hl]
      exact hsum _ hn hm

/-- C64. The segments drawn: at each energy as many as its degeneracy, numbered from 1. -/
theorem C64_segments (eigvals : List α) (fuel : Nat) (hf : eigvals.length < fuel) :
    ∃ levels segs, spectrumLevels fuel eigvals = .ok levels ∧ orbitals levels = .ok segs ∧ segs.length = eigvals.length ∧ segs.Nodup ∧
      ∀ k x, (k, x) ∈ segs ↔ 1 ≤ k ∧ k ≤ eigvals.count x := by
  obtain ⟨vals, deg, h1, h2, h3, _, h5, h6⟩ := C64_levels eigvals fuel hf
  have ho : orbitals (vals, deg) = .ok (vals.flatMap (fun x => (List.range (eigvals.count x)).map (fun ind => (ind + 1, x)))) := by
    unfold orbitals
    rw [mapM_ok (g := fun p : α × Nat => (List.range (eigvals.count p.1)).map (fun ind => (ind + 1, p.1)))]
    · simp only [bind, Except.bind, pure, Except.pure, Except.ok.injEq]
      rw [List.flatMap_def]
      congr 1
      conv_rhs => rw [← List.zipIdx_map_fst 0 vals]
      rw [List.map_map]
      rfl
    · rintro ⟨x, i⟩ hp
      have hi := List.mem_zipIdx hp
      have : pyGet deg i = .ok (eigvals.count x) := by
        unfold pyGet
        rw [h5, List.getElem?_map, List.getElem?_eq_getElem (by simpa using hi.2.1)]
        simp only [Option.map_some, hi.2.2]
        simp
      simp only [this, bind, Except.bind, pure, Except.pure]
  refine ⟨(vals, deg), _, h1, ho, ?_, ?_, ?_⟩
  · rw [List.length_flatMap, ← h6, h5]
    simp
  · rw [List.nodup_flatMap]
    refine ⟨fun x _ => List.nodup_range.map (fun a b h => by simpa using h), h2.imp ?_⟩
    intro x y hxy
    rw [Function.onFun, List.disjoint_left]
    rintro p hp hq
    obtain ⟨_, _, rfl⟩ := List.mem_map.1 hp
    obtain ⟨_, _, h⟩ := List.mem_map.1 hq
    exact hxy (congrArg Prod.snd h).symm
  · intro k x
    rw [List.mem_flatMap]
    constructor
    · rintro ⟨y, _, h⟩
      obtain ⟨i, hi, h⟩ := List.mem_map.1 h
      obtain ⟨rfl, rfl⟩ := Prod.mk.inj h
      have := List.mem_range.1 hi
      omega
    · rintro ⟨a, b⟩
      refine ⟨x, (h3 x).2 (List.count_pos_iff.1 (by omega)), List.mem_map.2 ⟨k - 1, List.mem_range.2 (by omega), ?_⟩⟩
      rw [Nat.sub_add_cancel a]

end

example : spectrumLevels 7 [3, 1, 3, 2, 1, 3] = .ok ([3, 1, 2], [3, 2, 1]) := by decide
example : orbitals ([3, 1, 2], [3, 2, 1]) = .ok [(1, 3), (2, 3), (3, 3), (1, 1), (2, 1), (1, 2)] := by decide

/-! ### C65 -/

section
variable {K : Type} [Field K] [LinearOrder K] [IsStrictOrderedRing K] [FloorRing K]

omit [FloorRing K] in
theorem countBelow_eq (x : K) : ∀ l : List K, l.Pairwise (· ≤ ·) → (∀ a ∈ l, 0 ≤ a) → countBelow x l = (l.filter (fun a => a < x)).length
  | [], _, _ => rfl
  | a :: l, hs, h0 => by
    obtain ⟨h1, h2⟩ := List.pairwise_cons.1 hs
    rw [countBelow, abs_of_nonneg (h0 a (by simp)), List.filter_cons]
    by_cases h : a < x
    · rw [if_pos h, if_pos (by simpa using h), List.length_cons, countBelow_eq x l h2 (fun b hb => h0 b (by simp [hb]))]
    · rw [if_neg h, if_neg (by simpa using h)]
      symm
      rw [List.length_eq_zero_iff, List.filter_eq_nil_iff]
      intro b hb
      simp only [decide_eq_true_eq, not_lt]
      exact (not_lt.1 h).trans (h1 b hb)

/-- C65. For a non-empty vector the abscissae run from -0.0005 in steps of 0.0001 past the largest modulus, the ordinate at `x` is the
number of coefficients of modulus at least `x`, the ordinates do not increase, and the first one is the dimension. -/
theorem C65_curve (v : List K) (hv : v ≠ []) :
    ∃ xs ys, amplitudeCurve v = .ok (xs, ys) ∧ ys = xs.map (fun x => (v.filter (fun a => x ≤ |a|)).length) ∧
      (∀ i (h : i < xs.length), xs[i] = -(5 / 10000) + i * (1 / 10000)) ∧ (∀ a ∈ v, |a| < -(5 / 10000) + xs.length * (1 / 10000)) ∧
      ys.Pairwise (fun a b => b ≤ a) ∧ ys.head? = some v.length := by
  set w := (v.map (fun x => |x|)).insertionSort (· ≤ ·) with hw
  have hperm : w.Perm (v.map (fun x => |x|)) := List.perm_insertionSort _ _
  have hsort : w.Pairwise (· ≤ ·) := List.pairwise_insertionSort _ _
  have h0 : ∀ a ∈ w, 0 ≤ a := by
    intro a ha
    obtain ⟨b, _, rfl⟩ := List.mem_map.1 (hperm.mem_iff.1 ha)
    exact abs_nonneg b
  have hne : w ≠ [] := by
    intro h
    have := hperm.length_eq
    rw [h] at this
    simp at this
    exact hv (List.length_eq_zero_iff.1 this.symm)
  obtain ⟨m, hm⟩ : ∃ m, w.getLast? = some m := ⟨_, List.getLast?_eq_some_getLast hne⟩
  have hmax : ∀ a ∈ v, |a| ≤ m := by
    intro a ha
    have ha : |a| ∈ w := hperm.mem_iff.2 (List.mem_map.2 ⟨a, ha, rfl⟩)
    obtain ⟨l, hl⟩ := List.getLast?_eq_some_iff.1 hm
    rw [hl, List.mem_append, List.mem_singleton] at ha
    rcases ha with ha | ha
    · rw [hl] at hsort
      exact (List.pairwise_append.1 hsort).2.2 _ ha _ (by simp)
    · exact ha.le
  have hm0 : 0 ≤ m := h0 m (List.mem_of_getLast? hm)
  have hcnt : ∀ x : K, w.length - countBelow x w = (v.filter (fun a => x ≤ |a|)).length := by
    intro x
    rw [countBelow_eq x w hsort h0, (hperm.filter _).length_eq, hperm.length_eq, List.length_map, List.filter_map, List.length_map]
    have := List.length_eq_length_filter_add (l := v) (fun a => decide (|a| < x))
    have e : (fun a : K => !decide (|a| < x)) = fun a => decide (x ≤ |a|) := by
      funext a; by_cases h : |a| < x <;> simp [h, not_le.2, not_lt.1]
    rw [e] at this
    show v.length - (List.filter (fun a => decide (|a| < x)) v).length = _
    omega
  set xs := arange (-(5 / 10000) : K) (m + 5 / 10000) (1 / 10000) with hxs
  have hlen : xs.length = ⌈(m + 5 / 10000 - -(5 / 10000)) / (1 / 10000)⌉.toNat := by rw [hxs, arange, List.length_map, List.length_range]
  have hget : ∀ i (h : i < xs.length), xs[i] = -(5 / 10000) + i * (1 / 10000) := by
    intro i h
    simp only [hxs, arange, List.getElem_map, List.getElem_range]
  have hq : (m + 5 / 10000 - -(5 / 10000)) / (1 / 10000) ≤ (xs.length : K) := by
    rw [hlen]
    refine (Int.le_ceil _).trans ?_
    have : (⌈(m + 5 / 10000 - -(5 / 10000)) / (1 / 10000)⌉ : Int) ≤ ((⌈(m + 5 / 10000 - -(5 / 10000)) / (1 / 10000)⌉.toNat : Nat) : Int) :=
      Int.self_le_toNat _
    exact_mod_cast this
  have hstep : (0 : K) < 1 / 10000 := by positivity
  refine ⟨xs, _, ?_, rfl, hget, ?_, ?_, ?_⟩
  · unfold amplitudeCurve
    simp only [← hw, hm]
    rw [← hxs]
    simp only [hcnt]
  · intro a ha
    rw [div_le_iff₀ hstep] at hq
    have := hmax a ha
    have h5 : (0 : K) < 5 / 10000 := by positivity
    linarith
  · rw [List.pairwise_map]
    rw [List.pairwise_iff_getElem]
    intro i j hi hj hij
    have hle : xs[i] ≤ xs[j] := by
      rw [hget, hget]
      have : (i : K) ≤ (j : K) := by exact_mod_cast hij.le
      have := mul_le_mul_of_nonneg_right this hstep.le
      linarith
    refine List.Sublist.length_le (List.monotone_filter_right _ fun a h => ?_)
    simp only [decide_eq_true_eq] at h ⊢
    exact hle.trans h
  · have hpos : 0 < xs.length := by
      rcases Nat.eq_zero_or_pos xs.length with h | h
      · rw [h, div_le_iff₀ hstep] at hq
        have h5 : (0 : K) < 5 / 10000 := by positivity
        push_cast at hq
        linarith
      · exact h
    rw [List.head?_map, List.head?_eq_getElem?, List.getElem?_eq_getElem hpos, hget]
    simp only [Option.map_some, Option.some.injEq]
    rw [List.filter_eq_self.2]
    intro a _
    simp only [decide_eq_true_eq]
    have h5 : (0 : K) < 5 / 10000 := by positivity
    have := abs_nonneg a
    push_cast
    linarith

end

/-- Three coefficients: the curve starts at 3 and ends at 0. -/
example : (amplitudeCurve [(1 / 5000 : ℚ), -1 / 2500, 0]).map (fun r => (r.1.map (fun x => x * 10000), r.2)) =
    .ok ([-5, -4, -3, -2, -1, 0, 1, 2, 3, 4, 5, 6, 7, 8], [3, 3, 3, 3, 3, 3, 2, 2, 1, 1, 0, 0, 0, 0]) := by decide +kernel
example : amplitudeCurve ([] : List ℚ) = .error .valueError := by decide +kernel

end TJ
