/-
The index of a rotated determinant as a map of indices, and the entries of a matrix built by successive additions.
-/
import Verif.Lemmas.EmbedSym
import Verif.Props.Rotation
import Verif.Lemmas.SpinOp
import Mathlib.Data.List.GetD

namespace TJ

section
variable {K : Type} [Field K]

theorem foldlM_entry {α : Type} {f : SpMat K → α → Py (SpMat K)} {g : α → Nat → Nat → K}
    (hf : ∀ M a M', f M a = .ok M' → M'.dim = M.dim ∧ ∀ i j, M'.entry i j = M.entry i j + g a i j) :
    ∀ (l : List α) (M M' : SpMat K), l.foldlM f M = .ok M' →
      M'.dim = M.dim ∧ ∀ i j, M'.entry i j = M.entry i j + (l.map (fun a => g a i j)).sum
  | [], M, M', e => by cases e; exact ⟨rfl, by simp⟩
  | a :: l, M, M', e => by
    rw [List.foldlM_cons] at e
    obtain ⟨M1, e1, e2⟩ := bind_eq_ok.1 e
    obtain ⟨d1, h1⟩ := hf M a M1 e1
    obtain ⟨d2, h2⟩ := foldlM_entry hf l M1 M' e2
    exact ⟨d2.trans d1, fun i j => by rw [h2, h1, List.map_cons, List.sum_cons, add_assoc]⟩

end

/-- Index of the rotated determinant number `i`. -/
def rotIdx (c : Config) (dets : List (List Nat)) (k : Int) (i : Nat) : Nat :=
  getIndexInt c (rotateDeterminant k c (dets.getD i []))

/-- On sites that are natural numbers `get_index_in_basis` is the function of `Model/Base`. -/
theorem getIndexInt_cast (c : Config) (det : List Nat) : getIndexInt c (det.map (fun (s : Nat) => (s : Int))) = getIndexInBasis c det := by
  have key : ∀ (n : Nat) (h b : List Nat), getDistanceHashInt n (h.map (fun (s : Nat) => (s : Int))) (b.map (fun (s : Nat) => (s : Int))) =
      getDistanceHash n h b := by
    intro n h b
    unfold getDistanceHashInt getDistanceHash projectHash
    have e : List.zipWith (fun (b : Int) (bh : Nat) => b - (bh : Int)) (b.map (fun (s : Nat) => (s : Int)))
        ((b.map (fun (s : Nat) => (s : Int))).map (fun b => ((h.map (fun (s : Nat) => (s : Int))).map (fun h => if h ≤ b then 1 else 0)).sum)) =
        List.zipWith (fun (b bh : Nat) => (b : Int) - (bh : Int)) b (b.map (fun b => (h.map (fun h => if h ≤ b then 1 else 0)).sum)) := by
      rw [List.zipWith_map_left, List.map_map]
      congr 1
      refine List.map_congr_left fun x _ => ?_
      simp only [Function.comp_apply, List.map_map]
      congr 1
      refine List.map_congr_left fun y _ => ?_
      simp
    simp only [List.map_eq_nil_iff, List.length_map, e]
  unfold getIndexInt getIndexInBasis computeHashTable
  simp only [reorderInt_map, ← List.map_take, ← List.map_drop, key]
  have k0 := key c.nsites []
  simp only [List.map_nil] at k0
  rw [k0]
  rfl

section
variable {c : Config} {L : Nat} {dets : List (List Nat)}

theorem rotate_mod (c : Config) (k m : Int) (h : k % 4 = m % 4) (det : List Nat) : rotateDeterminant k c det = rotateDeterminant m c det := by
  unfold rotateDeterminant
  have : k.emod 4 = m.emod 4 := h
  rw [this]

theorem rotIdx_spec (hq : SquareConf c L) (hn : c.nholes + c.nbeta ≤ c.nsites) (hb : constructBasis c = .ok dets) (k : Int) {i : Nat}
    (hi : i < dets.length) : ∃ h : rotIdx c dets k i < dets.length,
      rotateDeterminant k c dets[i] = (dets[rotIdx c dets k i]).map (fun (s : Nat) => (s : Int)) := by
  obtain ⟨d', h1, h2⟩ := C13_basis c L hq hn k dets hb dets[i] (List.getElem_mem hi)
  obtain ⟨j, hj, rfl⟩ := List.getElem_of_mem h1
  have e : rotIdx c dets k i = j := by
    unfold rotIdx
    rw [List.getD_eq_getElem dets [] hi, h2, getIndexInt_cast]
    exact C04_index_is_position c dets hb j hj
  subst e
  exact ⟨hj, h2⟩

theorem rotIdx_lt (hq : SquareConf c L) (hn : c.nholes + c.nbeta ≤ c.nsites) (hb : constructBasis c = .ok dets) (k : Int) {i : Nat}
    (hi : i < dets.length) : rotIdx c dets k i < dets.length := (rotIdx_spec hq hn hb k hi).1

theorem rotIdx_comp (hq : SquareConf c L) (hn : c.nholes + c.nbeta ≤ c.nsites) (hb : constructBasis c = .ok dets) (k m : Int) {i : Nat}
    (hi : i < dets.length) : rotIdx c dets k (rotIdx c dets m i) = rotIdx c dets (k + m) i := by
  obtain ⟨h1, e1⟩ := rotIdx_spec hq hn hb m hi
  have h2 := C13_compose c L hq hn k m dets[i] _ (canonical_getElem hb i hi) e1
  show getIndexInt c (rotateDeterminant k c (dets.getD (rotIdx c dets m i) [])) = getIndexInt c (rotateDeterminant (k + m) c (dets.getD i []))
  rw [List.getD_eq_getElem dets [] h1, List.getD_eq_getElem dets [] hi, h2]

theorem rotIdx_mod {k m : Int} (h : k % 4 = m % 4) (i : Nat) : rotIdx c dets k i = rotIdx c dets m i := by
  unfold rotIdx
  rw [rotate_mod c k m h]

theorem rotIdx_zero (hb : constructBasis c = .ok dets) {i : Nat} (hi : i < dets.length) : rotIdx c dets 0 i = i := by
  unfold rotIdx
  rw [List.getD_eq_getElem dets [] hi]
  have : rotateDeterminant 0 c dets[i] = dets[i].map (fun (s : Nat) => (s : Int)) := rfl
  rw [this, getIndexInt_cast]
  exact C04_index_is_position c dets hb i hi

theorem rotIdx_eq_iff (hq : SquareConf c L) (hn : c.nholes + c.nbeta ≤ c.nsites) (hb : constructBasis c = .ok dets) (k m : Int) {i j : Nat}
    (hi : i < dets.length) (hj : j < dets.length) : rotIdx c dets k i = rotIdx c dets m j ↔ rotIdx c dets (k - m) i = j := by
  constructor
  · intro h
    have := congrArg (rotIdx c dets (-m)) h
    rw [rotIdx_comp hq hn hb _ _ hi, rotIdx_comp hq hn hb _ _ hj, neg_add_cancel, rotIdx_zero hb hj] at this
    rw [← this]
    congr 1
    ring
  · rintro rfl
    rw [rotIdx_comp hq hn hb _ _ hi]
    congr 1
    ring

/-- A sum over the four rotations is invariant under rotation. -/
theorem sum_rotations {M : Type} [AddCommMonoid M] (g : Int → M) (hg : ∀ k m, k % 4 = m % 4 → g k = g m) (k : Int) :
    ∑ r ∈ Finset.range 4, g ((r : Int) - k) = ∑ r ∈ Finset.range 4, g (r : Int) := by
  have h4 := Int.emod_nonneg k (by decide : (4 : Int) ≠ 0)
  have h5 := Int.emod_lt_of_pos k (by decide : (0 : Int) < 4)
  have e : ∀ r : Int, g (r - k) = g (r - k % 4) := fun r => hg _ _ (by omega)
  simp only [e]
  generalize k % 4 = m at h4 h5
  have : m = 0 ∨ m = 1 ∨ m = 2 ∨ m = 3 := by omega
  rcases this with rfl | rfl | rfl | rfl
  · simp
  · simp only [Finset.sum_range_succ, Finset.sum_range_zero]
    rw [hg (((0 : Nat) : Int) - 1) ((3 : Nat) : Int) (by decide)]
    norm_num
    abel
  · simp only [Finset.sum_range_succ, Finset.sum_range_zero]
    rw [hg (((0 : Nat) : Int) - 2) ((2 : Nat) : Int) (by decide), hg (((1 : Nat) : Int) - 2) ((3 : Nat) : Int) (by decide)]
    norm_num
    abel
  · simp only [Finset.sum_range_succ, Finset.sum_range_zero]
    rw [hg (((0 : Nat) : Int) - 3) ((1 : Nat) : Int) (by decide), hg (((1 : Nat) : Int) - 3) ((2 : Nat) : Int) (by decide),
      hg (((2 : Nat) : Int) - 3) ((3 : Nat) : Int) (by decide)]
    norm_num
    abel

end

end TJ
