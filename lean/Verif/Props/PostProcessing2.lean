/-
Further properties of the computations of postProcessing.py: C75 - C78.
-/
import Verif.Props.PostProcessing
import Verif.Props.IO

namespace TJ

/-! ### C75 -/

section
variable {K : Type} [Field K] [LinearOrder K] [IsStrictOrderedRing K]

theorem reverse_insertionSort (l : List K) : (l.insertionSort (· ≤ ·)).reverse = sortedDesc l := by
  have hp : (l.insertionSort (· ≤ ·)).reverse.Perm (sortedDesc l) :=
    (List.reverse_perm _).trans ((List.perm_insertionSort _ _).trans (sortedDesc_perm l).symm)
  have hs : (l.insertionSort (· ≤ ·)).reverse.Pairwise (fun x y => y ≤ x) := by
    rw [List.pairwise_reverse]
    exact List.pairwise_insertionSort _ _
  exact hp.eq_of_pairwise (fun a b _ _ h1 h2 => le_antisymm h2 h1) hs (sortedDesc_sorted l)

/-- C75, part, for all vectors: the heights of the bars are the largest squared amplitudes, decreasing, and the determinants shown are
those of the heights; they are the determinants of largest amplitude when no two amplitudes are equal. Missing: with equal amplitudes
the same determinant is taken several times (`C75_ties_repeat`). -/
theorem C75_highest_partial (v : List K) (n : Nat) (hn : n ≤ v.length) :
    ∃ idx top, highestsDet v n = .ok idx ∧ TopPositions (v.map (fun x => |x| ^ 2)) n top ∧
      highestCoeffs v n = .ok (top.map (fun i => |v.getD i 0| ^ 2)) ∧ idx.map (fun i => |v.getD i 0| ^ 2) = top.map (fun i => |v.getD i 0| ^ 2) ∧
      (∀ i ∈ idx, i < v.length) ∧ ((v.map (fun x => |x|)).Nodup → TopPositions (v.map (fun x => |x| ^ 2)) n idx) := by
  set w := v.map (fun x => |x| ^ 2) with hw
  have hlen : w.length = v.length := by rw [hw, List.length_map]
  have habs : w.map (fun x => |x|) = w := by
    conv_rhs => rw [← List.map_id w]
    refine List.map_congr_left fun x hx => ?_
    obtain ⟨y, _, rfl⟩ := List.mem_map.1 hx
    exact abs_of_nonneg (by positivity)
  have hwget : ∀ i, w.getD i 0 = |v.getD i 0| ^ 2 := by
    intro i
    by_cases h : i < v.length
    · simp [hw, List.getD_eq_getElem?_getD, List.getElem?_eq_getElem h]
    · simp [hw, List.getD_eq_getElem?_getD, List.getElem?_eq_none (not_lt.1 h)]
  have hwabs : ∀ i, |w.getD i 0| = |v.getD i 0| ^ 2 := fun i => by rw [hwget]; exact abs_of_nonneg (by positivity)
  obtain ⟨top, _, g1, g2, g3⟩ := mostDominant_loop (List.replicate w.length []) w (by simp) ((sortedDesc (w.map (fun x => |x|))).take n)
      ((sortedDesc (w.map (fun x => |x|))).drop n) [] [] List.nodup_nil (by simp) rfl
      (by simpa [List.take_append_drop] using sortedDesc_perm (w.map (fun x => |x|)))
  have g3 : top.map (fun i => |w.getD i 0|) = (sortedDesc (w.map (fun x => |x|))).take n := by simpa using g3
  have ht := topPositions_of w _ (sortedDesc_perm _) (sortedDesc_sorted _) n top g1 g2 g3
  rw [habs] at g3
  set idx := ((sortedDesc w).take n).map (fun y => w.idxOf y) with hidx
  have hmem : ∀ y ∈ (sortedDesc w).take n, y ∈ w := fun y hy => (sortedDesc_perm _).mem_iff.1 (List.mem_of_mem_take hy)
  have hix : ∀ y ∈ w, w.idxOf y < w.length ∧ w.getD (w.idxOf y) 0 = y := by
    intro y hy
    have h1 := List.idxOf_lt_length_of_mem hy
    refine ⟨h1, ?_⟩
    rw [List.getD_eq_getElem?_getD, List.getElem?_eq_getElem h1]
    simp
  have e1 : highestsDet v n = .ok idx := by
    unfold highestsDet
    simp only [← hw, reverse_insertionSort]
    exact mapM_ok (fun y hy => by unfold pyIndex; rw [if_pos (hmem y hy)])
  have hlt : ∀ i ∈ idx, i < v.length := by
    intro i hi
    obtain ⟨y, hy, rfl⟩ := List.mem_map.1 hi
    rw [← hlen]
    exact (hix y (hmem y hy)).1
  have e2 : idx.map (fun i => |v.getD i 0| ^ 2) = (sortedDesc w).take n := by
    rw [hidx, List.map_map]
    conv_rhs => rw [← List.map_id ((sortedDesc w).take n)]
    refine List.map_congr_left fun y hy => ?_
    have := (hix y (hmem y hy)).2
    rw [hwget] at this
    exact this
  have e3 : top.map (fun i => |v.getD i 0| ^ 2) = (sortedDesc w).take n := by
    rw [← g3]
    exact List.map_congr_left fun i _ => (hwabs i).symm
  have hil : idx.length = n := by
    rw [hidx, List.length_map, List.length_take, (sortedDesc_perm w).length_eq, hlen]; omega
  refine ⟨idx, top, e1, ht, ?_, e2.trans e3.symm, hlt, ?_⟩
  · rw [e3, ← e2]
    unfold highestCoeffs
    rw [e1]
    refine bind_ok rfl ?_
    have : (List.range n).mapM (fun ind => match idx[ind]? with
        | some i => pyGet (v.map (fun x => |x| ^ 2)) i
        | none => .error .keyError) = .ok ((List.range n).map (fun ind => |v.getD (idx.getD ind 0) 0| ^ 2)) := by
      refine mapM_ok fun ind hind => ?_
      have hind := List.mem_range.1 hind
      have h1 : ind < idx.length := by omega
      rw [List.getElem?_eq_getElem h1]
      have h2 := hlt _ (List.getElem_mem h1)
      simp [pyGet, List.getElem?_eq_getElem h2, List.getD_eq_getElem?_getD, List.getElem?_eq_getElem h1]
    refine this.trans ?_
    congr 1
    apply List.ext_getElem
    · simp [hil]
    · intro k h1 h2
      simp only [List.getElem_map, List.getElem_range]
      have : k < idx.length := by simpa using h2
      rw [show idx.getD k 0 = idx[k] by rw [List.getD_eq_getElem?_getD, List.getElem?_eq_getElem this]; rfl]
  · intro hnd
    refine topPositions_of w _ (sortedDesc_perm _) (sortedDesc_sorted _) n idx ?_ (by rw [hlen]; exact hlt) ?_
    · have hw' : w.Nodup := by
        rw [hw, ← show (v.map (fun x => |x|)).map (fun x => x ^ 2) = v.map (fun x => |x| ^ 2) by rw [List.map_map]; rfl]
        refine hnd.map_on fun x hx y hy h => ?_
        obtain ⟨a, _, rfl⟩ := List.mem_map.1 hx
        obtain ⟨b, _, rfl⟩ := List.mem_map.1 hy
        exact (sq_eq_sq₀ (abs_nonneg a) (abs_nonneg b)).1 h
      have : (idx.map (fun i => |v.getD i 0| ^ 2)).Nodup := by
        rw [e2]
        exact ((sortedDesc_perm _).nodup_iff.2 hw').sublist (List.take_sublist _ _)
      exact List.Nodup.of_map _ this
    · rw [habs, ← e2]
      exact List.map_congr_left fun i _ => hwabs i

end

/-- C75 fails for equal amplitudes: the same determinant is shown twice. -/
theorem C75_ties_repeat : highestsDet [(1 : ℚ), -1, 0] 2 = .ok [0, 0] ∧ ¬ TopPositions [(1 : ℚ), 1, 0] 2 [0, 0] :=
  ⟨by decide +kernel, fun h => by have := h.1; simp at this⟩

example : highestsDet [(1 : ℚ), -3, 2] 2 = .ok [1, 2] ∧ highestCoeffs [(1 : ℚ), -3, 2] 2 = .ok [9, 4] := by decide +kernel

/-! ### C78 -/

/-- C78, part: with at least four subplots asked for, every state gets a cell of its own inside the grid. Missing: fewer than four
(`C78_single_cell`). -/
theorem C78_cells_partial (k m : Nat) (hk : 4 ≤ k) :
    ∃ cells, subplots k m = .ok cells ∧ cells.length = min (Nat.sqrt k * Nat.sqrt k) m ∧ cells.Nodup ∧
      (∀ p ∈ cells, p.1 < Nat.sqrt k ∧ p.2 < Nat.sqrt k) ∧ ∀ i (h : i < cells.length), cells[i].1 * Nat.sqrt k + cells[i].2 = i := by
  set s := Nat.sqrt k with hs
  have h2 : 2 ≤ s := Nat.le_sqrt'.2 hk
  have hg : subplotGrid k = (s * s, s) := by
    unfold subplotGrid
    rw [← hs, pow_two, Nat.sqrt_eq]
  have hdiv : ∀ i, i < s * s → i / s < s := fun i hi => Nat.div_lt_of_lt_mul hi
  have hc : subplots k m = .ok ((List.range (min (s * s) m)).map (fun i => (i / s, i % s))) := by
    unfold subplots subplotCells
    rw [hg, if_neg (by show s ≠ 0; omega)]
    refine mapM_ok fun i hi => ?_
    have hi := List.mem_range.1 hi
    rw [if_neg (by show s ≠ 1; omega), if_pos ⟨hdiv i (by omega), Nat.mod_lt _ (by omega)⟩]
  refine ⟨_, hc, by simp, ?_, ?_, ?_⟩
  · refine List.nodup_range.map fun a b h => ?_
    obtain ⟨h1, h2⟩ := Prod.mk.inj h
    rw [← Nat.div_add_mod a s, ← Nat.div_add_mod b s, h1, h2]
  · intro p hp
    obtain ⟨i, hi, rfl⟩ := List.mem_map.1 hp
    have hi := List.mem_range.1 hi
    exact ⟨hdiv i (by omega), Nat.mod_lt _ (by omega)⟩
  · intro i h
    simp only [List.getElem_map, List.getElem_range]
    exact Nat.div_add_mod' i s

/-- C78 fails for one to three subplots: the single cell cannot be subscripted; for none the grid is rejected. -/
theorem C78_single_cell (k m : Nat) (hm : 0 < m) : (1 ≤ k → k ≤ 3 → subplots k m = .error .typeError) ∧ subplots 0 m = .error .valueError := by
  constructor
  · intro h1 h2
    have hs : Nat.sqrt k = 1 := (Nat.eq_sqrt.2 ⟨by omega, by omega⟩).symm
    unfold subplots subplotCells subplotGrid
    simp only [hs]
    have : min (1 ^ 2) m = 1 := by omega
    rw [this]
    rfl
  · unfold subplots subplotCells subplotGrid
    simp

example : subplots 10 9 = .ok [(0, 0), (0, 1), (0, 2), (1, 0), (1, 1), (1, 2), (2, 0), (2, 1), (2, 2)] := by decide +kernel

/-! ### C76 -/

section

/-- From `ind` to `r` the labels (multiplicity and degeneracy) of the curve do not change. -/
def Constant {K : Type} (c : Curve K) (ind r : Nat) : Prop := ∀ k, ind ≤ k → k < r → (c[k]?).map Prod.snd = (c[k + 1]?).map Prod.snd

variable {K : Type}

theorem constantPrefix_lt : ∀ (fuel : Nat) (c : Curve K) (ind : Nat), ind < c.length → constantPrefix fuel c ind < c.length
  | 0, _, _, h => h
  | fuel + 1, c, ind, h => by
    rw [constantPrefix, List.getElem?_eq_getElem h]
    by_cases h1 : ind + 1 < c.length
    · rw [List.getElem?_eq_getElem h1]
      simp only
      split_ifs
      · exact constantPrefix_lt fuel c (ind + 1) h1
      · exact h
    · rw [List.getElem?_eq_none (not_lt.1 h1)]
      exact h

theorem constantPrefix_const : ∀ (fuel : Nat) (c : Curve K) (ind : Nat), Constant c ind (constantPrefix fuel c ind)
  | 0, _, _ => fun k h1 h2 => by rw [constantPrefix] at h2; omega
  | fuel + 1, c, ind => by
    intro k h1 h2
    rw [constantPrefix] at h2
    split at h2
    · rename_i p q hp hq
      split_ifs at h2 with h
      · by_cases hk : k = ind
        · subst hk; rw [hp, hq]; simp [h]
        · exact constantPrefix_const fuel c (ind + 1) k (by omega) h2
      · omega
    · omega

theorem le_constantPrefix : ∀ (fuel : Nat) (c : Curve K) (ind r : Nat), ind ≤ r → r < c.length → r ≤ ind + fuel → Constant c ind r →
    r ≤ constantPrefix fuel c ind
  | 0, _, ind, r, _, _, h, _ => by rw [constantPrefix]; omega
  | fuel + 1, c, ind, r, h1, h2, h3, hc => by
    by_cases h : ind = r
    · subst h
      rw [constantPrefix]
      split
      · split_ifs with hpq
        · rename_i p q hp hq
          have : ind ≤ constantPrefix fuel c (ind + 1) := by
            clear hc h3
            have : ∀ (f : Nat) (i : Nat), i ≤ constantPrefix f c i := by
              intro f
              induction f with
              | zero => intro i; exact le_refl _
              | succ f ih =>
                intro i
                rw [constantPrefix]
                split
                · split_ifs
                  · exact (Nat.le_succ i).trans (ih (i + 1))
                  · exact le_refl _
                · exact le_refl _
            exact (Nat.le_succ ind).trans (this fuel (ind + 1))
          exact this
        · exact le_refl _
      · exact le_refl _
    · have hlt : ind < r := by omega
      have e := hc ind (le_refl _) hlt
      rw [constantPrefix]
      have a1 : ind < c.length := by omega
      have a2 : ind + 1 < c.length := by omega
      rw [List.getElem?_eq_getElem a1, List.getElem?_eq_getElem a2] at e ⊢
      simp only [Option.map_some, Option.some.injEq] at e
      simp only [e, if_true]
      exact le_constantPrefix fuel c (ind + 1) r (by omega) h2 (by omega) (fun k h1 h2 => hc k (by omega) h2)

theorem findPartner_spec {curves : List (Curve K)} {n : Nat} (hl : ∀ c ∈ curves, c.length = n) {a : Curve K} (ha : a.length = n) {ind : Nat}
    (hi : ind + 1 < n) : ∀ (fuel new : Nat), curves.length ≤ new + fuel →
    ∃ r, findPartner curves a ind fuel new = .ok r ∧ new ≤ r ∧ ∀ h : r < curves.length, exchangeable a curves[r] ind = .ok true
  | 0, new, h => ⟨new, rfl, le_refl _, fun h' => by omega⟩
  | fuel + 1, new, h => by
    rw [findPartner]
    by_cases hn : new < curves.length
    · rw [if_pos hn]
      have hb := hl _ (List.getElem_mem hn)
      have hg : pyGet curves new = .ok curves[new] := by unfold pyGet; rw [List.getElem?_eq_getElem hn]
      have hex : ∃ e, exchangeable a curves[new] ind = .ok e := by
        unfold exchangeable pyGet
        rw [List.getElem?_eq_getElem (by omega : ind < a.length), List.getElem?_eq_getElem (by omega : ind + 1 < a.length),
          List.getElem?_eq_getElem (by omega : ind < curves[new].length), List.getElem?_eq_getElem (by omega : ind + 1 < curves[new].length)]
        exact ⟨_, rfl⟩
      obtain ⟨e, he⟩ := hex
      simp only [hg, he, bind, Except.bind]
      cases e with
      | true => exact ⟨new, rfl, le_refl _, fun _ => he⟩
      | false =>
        obtain ⟨r, h1, h2, h3⟩ := findPartner_spec hl ha hi fuel (new + 1) (by omega)
        exact ⟨r, h1, by omega, h3⟩
    · rw [if_neg hn]
      exact ⟨new, rfl, le_refl _, fun h' => absurd h' hn⟩

variable [Field K] [LinearOrder K]

/-- The loop ends, and at each abscissa the points are the same. -/
theorem reorganise_spec {n : Nat} (hn : 0 < n) : ∀ (fuel : Nat) (curves : List (Curve K)) (s : Nat), (∀ c ∈ curves, c.length = n) →
    (curves.length - s) * (n + 1) + 1 ≤ fuel + constantPrefix n (curves.getD s []) 0 → s ≤ curves.length →
    ∃ curves', reorganise fuel curves s = .ok curves' ∧ curves'.length = curves.length ∧ (∀ c ∈ curves', c.length = n) ∧
      ∀ j < n, (curves'.map (fun c => c[j]?)).Perm (curves.map (fun c => c[j]?))
  | 0, curves, s, hl, hf, hs => by
    exfalso
    by_cases h : s < curves.length
    · have hc : (curves.getD s []).length = n := by
        rw [List.getD_eq_getElem?_getD, List.getElem?_eq_getElem h]
        exact hl _ (List.getElem_mem h)
      have := constantPrefix_lt n (curves.getD s []) 0 (by omega)
      have h2 : 1 * (n + 1) ≤ (curves.length - s) * (n + 1) := Nat.mul_le_mul_right _ (by omega)
      omega
    · rw [List.getD_eq_getElem?_getD, List.getElem?_eq_none (not_lt.1 h)] at hf
      have : constantPrefix n (([] : Curve K)) 0 = 0 := by cases n <;> simp [constantPrefix]
      simp only [Option.getD_none, this] at hf
      omega
  | fuel + 1, curves, s, hl, hf, hs => by
    rw [reorganise]
    by_cases h : s + 1 < curves.length
    · have h0 : s < curves.length := by omega
      have hgd : curves.getD s [] = curves[s] := by rw [List.getD_eq_getElem?_getD, List.getElem?_eq_getElem h0]; rfl
      have ha := hl _ (List.getElem_mem h0)
      have hg : pyGet curves s = .ok curves[s] := by unfold pyGet; rw [List.getElem?_eq_getElem h0]
      have hg0 : pyGet curves[s] 0 = .ok curves[s][0] := by unfold pyGet; rw [List.getElem?_eq_getElem (by omega)]
      rw [hgd] at hf
      have hlt := constantPrefix_lt n curves[s] 0 (by omega)
      -- the next curve
      have next : ∃ curves', reorganise fuel curves (s + 1) = .ok curves' ∧ curves'.length = curves.length ∧ (∀ c ∈ curves', c.length = n) ∧
          ∀ j < n, (curves'.map (fun c => c[j]?)).Perm (curves.map (fun c => c[j]?)) := by
        refine reorganise_spec hn fuel curves (s + 1) hl ?_ (by omega)
        have : (curves.length - s) * (n + 1) = (curves.length - (s + 1)) * (n + 1) + (n + 1) := by
          rw [show curves.length - s = (curves.length - (s + 1)) + 1 by omega, Nat.add_mul, Nat.one_mul]
        omega
      rw [if_pos h]
      simp only [hg, hg0, bind, Except.bind]
      rw [ha]
      by_cases he : constantPrefix n curves[s] 0 + 1 = n
      · rw [if_pos he]; exact next
      rw [if_neg he]
      set ind := constantPrefix n curves[s] 0 with hind
      have hi : ind + 1 < n := by omega
      obtain ⟨r, hr1, hr2, hr3⟩ := findPartner_spec hl ha hi curves.length (s + 1) (by omega)
      simp only [hr1]
      by_cases hrl : r < curves.length
      · rw [if_pos hrl]
        have hb := hl _ (List.getElem_mem hrl)
        have hgr : pyGet curves r = .ok curves[r] := by unfold pyGet; rw [List.getElem?_eq_getElem hrl]
        have hsm : ∃ e, sharper curves[s] curves[r] ind = .ok e := by
          unfold sharper pyGet
          rw [List.getElem?_eq_getElem (by omega : ind - 1 < curves[s].length), List.getElem?_eq_getElem (by omega : ind < curves[s].length),
            List.getElem?_eq_getElem (by omega : ind + 1 < curves[s].length), List.getElem?_eq_getElem (by omega : ind - 1 < curves[r].length),
            List.getElem?_eq_getElem (by omega : ind < curves[r].length), List.getElem?_eq_getElem (by omega : ind + 1 < curves[r].length)]
          exact ⟨_, rfl⟩
        obtain ⟨e, hsm⟩ := hsm
        simp only [hgr, hsm]
        cases e with
        | false => exact next
        | true =>
          set a' := curves[s].take (ind + 1) ++ curves[r].drop (ind + 1) with ha'
          set b' := curves[r].take (ind + 1) ++ curves[s].drop (ind + 1) with hb'
          have hs1 : pySet curves s a' = .ok (curves.set s a') := by unfold pySet; rw [if_pos h0]
          have hs2 : pySet (curves.set s a') r b' = .ok ((curves.set s a').set r b') := by
            unfold pySet; rw [if_pos (by rw [List.length_set]; exact hrl)]
          simp only [hs1, hs2, if_true]
          have hla : a'.length = n := by rw [ha', List.length_append, List.length_take, List.length_drop]; omega
          have hlb : b'.length = n := by rw [hb', List.length_append, List.length_take, List.length_drop]; omega
          have hl' : ∀ c ∈ (curves.set s a').set r b', c.length = n := by
            intro c hc
            rcases List.mem_or_eq_of_mem_set hc with hc | rfl
            · rcases List.mem_or_eq_of_mem_set hc with hc | rfl
              · exact hl c hc
              · exact hla
            · exact hlb
          have hne : r ≠ s := by omega
          have hgs : ((curves.set s a').set r b').getD s [] = a' := by
            rw [List.getD_eq_getElem?_getD, List.getElem?_set_ne hne, List.getElem?_set_self h0]; rfl
          -- the constant beginning of the new curve is longer
          have hgrow : ind + 1 ≤ constantPrefix n a' 0 := by
            refine le_constantPrefix n a' 0 (ind + 1) (by omega) (by omega) (by omega) ?_
            intro k _ hk
            have e1 : a'[k]? = curves[s][k]? := by
              rw [ha', List.getElem?_append_left (by rw [List.length_take]; omega), List.getElem?_take_of_lt hk]
            by_cases hk2 : k < ind
            · have e2 : a'[k + 1]? = curves[s][k + 1]? := by
                rw [ha', List.getElem?_append_left (by rw [List.length_take]; omega), List.getElem?_take_of_lt (by omega)]
              rw [e1, e2]
              exact constantPrefix_const n curves[s] 0 k (by omega) (by omega)
            · have hk3 : k = ind := by omega
              rw [hk3] at e1 ⊢
              have e2 : a'[ind + 1]? = curves[r][ind + 1]? := by
                rw [ha', List.getElem?_append_right (by rw [List.length_take]; omega), List.length_take, ha, min_eq_left (by omega),
                  List.getElem?_drop]
                congr 1
                omega
              rw [e1, e2]
              have hx := hr3 hrl
              unfold exchangeable pyGet at hx
              rw [List.getElem?_eq_getElem (by omega : ind < curves[s].length), List.getElem?_eq_getElem (by omega : ind + 1 < curves[s].length),
                List.getElem?_eq_getElem (by omega : ind < curves[r].length), List.getElem?_eq_getElem (by omega : ind + 1 < curves[r].length)] at hx
              have hx : decide _ = true := Except.ok.inj hx
              have hx := of_decide_eq_true hx
              rw [List.getElem?_eq_getElem (by omega : ind < curves[s].length), List.getElem?_eq_getElem (by omega : ind + 1 < curves[r].length)]
              simp only [Option.map_some, Option.some.injEq]
              exact Prod.ext hx.1 hx.2.2.1
          obtain ⟨curves', g1, g2, g3, g4⟩ := reorganise_spec hn fuel ((curves.set s a').set r b') s hl' (by
            rw [hgs, List.length_set, List.length_set]; omega) (by rw [List.length_set, List.length_set]; exact hs)
          refine ⟨curves', g1, by rw [g2, List.length_set, List.length_set], g3, fun j hj => (g4 j hj).trans ?_⟩
          rw [List.map_set, List.map_set]
          by_cases hji : j < ind + 1
          · have e1 : a'[j]? = curves[s][j]? := by
              rw [ha', List.getElem?_append_left (by rw [List.length_take]; omega), List.getElem?_take_of_lt hji]
            have e2 : b'[j]? = curves[r][j]? := by
              rw [hb', List.getElem?_append_left (by rw [List.length_take]; omega), List.getElem?_take_of_lt hji]
            rw [e1, e2]
            have f1 : (curves.map (fun c => c[j]?)).set s curves[s][j]? = curves.map (fun c => c[j]?) := by
              have := List.set_getElem_self (as := curves.map (fun c => c[j]?)) (i := s) (by simpa using h0)
              simpa using this
            have f2 : (curves.map (fun c => c[j]?)).set r curves[r][j]? = curves.map (fun c => c[j]?) := by
              have := List.set_getElem_self (as := curves.map (fun c => c[j]?)) (i := r) (by simpa using hrl)
              simpa using this
            rw [f1, f2]
          · have e1 : a'[j]? = curves[r][j]? := by
              rw [ha', List.getElem?_append_right (by rw [List.length_take]; omega), List.length_take, ha, min_eq_left (by omega),
                List.getElem?_drop]
              congr 1
              omega
            have e2 : b'[j]? = curves[s][j]? := by
              rw [hb', List.getElem?_append_right (by rw [List.length_take]; omega), List.length_take, hb, min_eq_left (by omega),
                List.getElem?_drop]
              congr 1
              omega
            rw [e1, e2]
            have := List.set_set_perm (as := curves.map (fun c => c[j]?)) (i := s) (j := r) (by simpa using h0) (by simpa using hrl)
            simpa using this
      · rw [if_neg hrl]; exact next
    · rw [if_neg h]
      exact ⟨curves, rfl, rfl, hl, fun j _ => List.Perm.refl _⟩

/-- C76. The exchanges of ends of curves stop, and leave at every abscissa the same points (energy, multiplicity, degeneracy), each on
one curve. -/
theorem C76_reorganise (curves : List (Curve K)) (n : Nat) (hn : 0 < n) (hl : ∀ c ∈ curves, c.length = n) (fuel : Nat)
    (hf : curves.length * (n + 1) + 1 ≤ fuel) :
    ∃ curves', reorganise fuel curves 0 = .ok curves' ∧ curves'.length = curves.length ∧ (∀ c ∈ curves', c.length = n) ∧
      ∀ j < n, (curves'.map (fun c => c[j]?)).Perm (curves.map (fun c => c[j]?)) :=
  reorganise_spec hn fuel curves 0 hl (by rw [Nat.sub_zero]; omega) (by omega)

end

/-- Two levels without crossing in energy whose labels are exchanged at the last abscissa: the ends are exchanged. -/
example : reorganise 11 [[((0 : ℚ), "doublet", 1), (1, "doublet", 1), (2, "doublet", 1), (3, "quartet", 1)],
    [(12, "quartet", 1), (11, "quartet", 1), (10, "quartet", 1), (9, "doublet", 1)]] 0 =
    .ok [[(0, "doublet", 1), (1, "doublet", 1), (2, "doublet", 1), (9, "doublet", 1)],
    [(12, "quartet", 1), (11, "quartet", 1), (10, "quartet", 1), (3, "quartet", 1)]] := by decide +kernel

/-- The variation of the slope of `c` around the abscissa `k`, with the value `e` at `k + 1`. -/
def slopeChange (c : Curve ℚ) (k : Nat) (e : ℚ) : ℚ :=
  |(|e - (c.getD k (0, "", 0)).1| - |(c.getD k (0, "", 0)).1 - (c.getD (k - 1) (0, "", 0)).1|)|

/-- "Reorganizing lists to make the spectra monotonous" (line 244): an exchange is made exactly when it increases the variation of the
slope of both curves, so it never makes a curve smoother. -/
theorem C76_never_smoother (a b : Curve ℚ) (ind : Nat) (hi : ind + 1 < a.length) (hb : ind + 1 < b.length) :
    sharper a b ind = .ok (decide (1 < ind ∧ slopeChange a ind (a.getD (ind + 1) (0, "", 0)).1 < slopeChange a ind (b.getD (ind + 1) (0, "", 0)).1 ∧
      slopeChange b ind (b.getD (ind + 1) (0, "", 0)).1 < slopeChange b ind (a.getD (ind + 1) (0, "", 0)).1)) := by
  unfold sharper pyGet slopeChange
  simp only [List.getD_eq_getElem?_getD]
  rw [List.getElem?_eq_getElem (by omega : ind - 1 < a.length), List.getElem?_eq_getElem (by omega : ind < a.length),
    List.getElem?_eq_getElem (by omega : ind + 1 < a.length), List.getElem?_eq_getElem (by omega : ind - 1 < b.length),
    List.getElem?_eq_getElem (by omega : ind < b.length), List.getElem?_eq_getElem (by omega : ind + 1 < b.length)]
  rfl

/-! ### C77 -/

/-- C77, part: without embedding plots, `generate_plots` opens exactly the files that the sweep of
`perform_configurations_computations` has written, in the same order. -/
theorem C77_sweep_files_partial (c : Config) (hn : c.nsites ≠ 0) (b : BoolInteractions) (neigh : Bool) :
    ∃ cs, sweepConfigs c = .ok cs ∧
      plotSweepFiles c b ⟨false, false, false, neigh⟩ = .ok (cs.map (fun c' => [saveName c'.nsites c'.nalpha c'.nbeta b])) := by
  refine ⟨(List.range (c.nsites + 1 - c.nholes)).map (fun (a : Nat) =>
    (⟨c.bond, c.nholes, c.nsites - c.nholes - a, c.restr, .periodic, c.nbh, c.nbv, c.nblocs⟩ : Config)), ?_, ?_⟩
  · refine mapM_ok ?_
    intro a _
    unfold Config.init
    rw [if_neg (show ¬ c.bond.rows = 0 from hn)]
  · rw [List.map_map]
    refine mapM_ok ?_
    intro a _
    unfold Config.init
    rw [if_neg (show ¬ c.bond.rows = 0 from hn)]
    rfl

/-- C77, part: after `embedding_blocks` with the options `dyn`, `neel`, `neigh`, the plots with the same options open the file it has
written, provided one of the three plots of block embeddings is asked for. -/
theorem C77_blocks_partial (c : Config) (b : BoolInteractions) (o : PlotOptions) (h : o.neel ∨ o.stat ∨ o.dyn) :
    plotFiles c b o = [saveName c.nsites c.nalpha c.nbeta b, savedBlocksFile o.dyn o.neel o.neigh c.nsites c.nalpha c.nbeta b] := by
  have : (o.neel || o.stat || o.dyn) = true := by rcases h with h | h | h <;> simp [h]
  unfold plotFiles
  dsimp only
  rw [if_pos this]
  rfl

/-- C77 fails for `embedding_neel`: whatever the options, the file it writes is never opened by the plots. -/
theorem C77_neel_never_opened (c : Config) (b : BoolInteractions) (o : PlotOptions) :
    savedPeripheralFile c.nsites c.nalpha c.nbeta b ∉ plotFiles c b o := by
  have hP : ∃ l, "Peripheral_embedding/".toList = 'P' :: l := ⟨_, rfl⟩
  have ht : ∃ l, "tJHam-".toList = 't' :: l := ⟨_, rfl⟩
  have hE : ∃ l, "Embedding_blocks/".toList = 'E' :: l := ⟨_, rfl⟩
  obtain ⟨P, hP⟩ := hP
  obtain ⟨T, ht⟩ := ht
  obtain ⟨E, hE⟩ := hE
  intro h
  unfold plotFiles savedPeripheralFile at h
  dsimp only at h
  rw [hP, ht, hE] at h
  generalize loadName _ _ _ _ = X at h
  rcases List.mem_append.1 h with h | h
  · have := List.mem_singleton.1 h
    simp only [List.cons_append, List.cons.injEq] at this
    exact absurd this.1 (by decide)
  · split at h
    · have := List.mem_singleton.1 h
      simp only [List.cons_append, List.cons.injEq] at this
      exact absurd this.1 (by decide)
    · cases h

/-- C77 fails for the switches: two runs of `embedding_blocks` that both leave out some term write the same file, so the plots may show
another Hamiltonian. -/
theorem C77_switches_invisible (dyn neel neigh : Bool) (n a b : Int) (s s' : BoolInteractions) (h : s.full = false) (h' : s'.full = false) :
    savedBlocksFile dyn neel neigh n a b s = savedBlocksFile dyn neel neigh n a b s' := by
  unfold savedBlocksFile
  rw [h, h']

example : savedBlocksFile true false true 8 4 3 ⟨true, true, true, false, true, true⟩ =
    "Embedding_blocks/tJHam-dyn-neigh-843SDVJttN.json".toList := by decide +kernel
example : savedBlocksFile true false true 8 4 3 ⟨false, true, true, true, true, true⟩ =
    "Embedding_blocks/tJHam-dyn-neigh-843SDVJttN.json".toList := by decide +kernel
example : savedPeripheralFile 4 2 2 ⟨true, true, true, true, true, true⟩ = "Peripheral_embedding/tJHam-422Full.json".toList := by decide +kernel

end TJ
