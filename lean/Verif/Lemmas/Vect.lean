/-
Lists of coefficients, and the reordering made by `reverse_spins_vect`.
-/
import Verif.Lemmas.Det
import Mathlib.Algebra.BigOperators.Intervals
import Mathlib.Algebra.Ring.Defs

namespace TJ

theorem foldlM_ok_of {α β : Type} {f : β → α → Py β} {g : β → α → β} (P : β → Prop) :
    ∀ (l : List α) (b : β), P b → (∀ b a, P b → a ∈ l → f b a = .ok (g b a) ∧ P (g b a)) →
      l.foldlM f b = .ok (l.foldl g b)
  | [], b, _, _ => rfl
  | a :: l, b, hb, h => by
    obtain ⟨h1, h2⟩ := h b a hb (by simp)
    rw [List.foldlM_cons, h1]
    exact foldlM_ok_of P l (g b a) h2 (fun b' a' hb' ha' => h b' a' hb' (List.mem_cons_of_mem _ ha'))

theorem foldl_set_spec {K : Type} (π : Nat → Nat) (v : List K) (m : Nat) (w0 : List K) (x0 : K) :
    ∀ n, n ≤ m → (∀ i j, i < m → j < m → π i = π j → i = j) → (∀ i < m, π i < w0.length) →
    ((List.range n).foldl (fun w i => w.set (π i) (v.getD i x0)) w0).length = w0.length ∧
    ∀ i < n, ((List.range n).foldl (fun w i => w.set (π i) (v.getD i x0)) w0).getD (π i) x0 = v.getD i x0 := by
  intro n
  induction n with
  | zero => intro _ _ _; simp
  | succ n ih =>
    intro hn hinj hlt
    obtain ⟨h1, h2⟩ := ih (by omega) hinj hlt
    simp only [List.range_succ, List.foldl_append, List.foldl_cons, List.foldl_nil]
    generalize (List.range n).foldl (fun w i => w.set (π i) (v.getD i x0)) w0 = w at *
    constructor
    · rw [List.length_set]; exact h1
    · intro i hi
      by_cases h : i = n
      · subst h
        have := hlt i (by omega)
        simp only [List.getD_eq_getElem?_getD]
        rw [List.getElem?_set_self (by omega)]; simp
      · have hne : π n ≠ π i := fun he => h (hinj n i (by omega) (by omega) he).symm
        have := h2 i (by omega)
        simp only [List.getD_eq_getElem?_getD] at this ⊢
        rw [List.getElem?_set_ne hne]
        exact this

theorem zipWith_sum_eq {K : Type} [Semiring K] (v w : List K) (d : Nat) (hv : v.length = d) (hw : w.length = d) :
    (List.zipWith (· * ·) v w).sum = ∑ i ∈ Finset.range d, v.getD i 0 * w.getD i 0 := by
  have : List.zipWith (· * ·) v w = (List.range d).map (fun i => v.getD i 0 * w.getD i 0) := by
    apply List.ext_getElem
    · simp [hv, hw]
    · intro i h1 h2
      simp only [List.length_zipWith] at h1
      have h3 : i < v.length := by omega
      have h4 : i < w.length := by omega
      simp [List.getD_eq_getElem?_getD, h3, h4]
  rw [this]
  clear this hv hw
  induction d with
  | zero => simp
  | succ d ih => rw [List.range_succ, List.map_append, List.sum_append, ih, Finset.sum_range_succ]; simp

/-- Position, in the reversed basis, of the reversed `i`-th determinant. -/
def revIdx (c : Config) (i : Nat) : Nat :=
  getIndexInBasis c.flip (detOf c.nsites (fun s => (occC c ((basisList c.nsites c.nholes c.nbeta).getD i []) s).rev))

theorem length_flip_basis {c : Config} (hn : c.nholes + c.nbeta ≤ c.nsites) :
    (basisList c.flip.nsites c.flip.nholes c.flip.nbeta).length = (basisList c.nsites c.nholes c.nbeta).length := by
  rw [length_basisList, length_basisList]
  show c.nsites.choose c.nholes * (c.nsites - c.nholes).choose c.nalpha.toNat = _
  rw [nalpha_toNat hn, Nat.choose_symm (by omega)]

section
variable {c : Config} (hn : c.nholes + c.nbeta ≤ c.nsites) {i : Nat}
  (hi : i < (basisList c.nsites c.nholes c.nbeta).length)
include hn hi

theorem getD_basis : (basisList c.nsites c.nholes c.nbeta).getD i [] = (basisList c.nsites c.nholes c.nbeta)[i] := by
  simp [List.getD_eq_getElem?_getD, hi]

theorem canonical_getD : Canonical c.nsites c.nholes c.nbeta ((basisList c.nsites c.nholes c.nbeta).getD i []) := by
  rw [getD_basis hn hi]
  exact canonical_of_mem_basisList (List.getElem_mem _)

theorem getElem?_revIdx : (basisList c.flip.nsites c.flip.nholes c.flip.nbeta)[revIdx c i]? =
    some (detOf c.nsites (fun s => (occC c ((basisList c.nsites c.nholes c.nbeta).getD i []) s).rev)) := by
  unfold revIdx
  have hv : ValidDet c.flip.nsites (detOf c.nsites (fun s => (occC c ((basisList c.nsites c.nholes c.nbeta).getD i []) s).rev)) :=
    detOf_valid _ _
  rw [getElem?_index hv (flip_hn hn)]
  congr 1
  apply reorder_of_canonical
  have hc := canonical_getD hn hi
  apply detOf_canonical
  · rw [cnt_rev]; exact cnt_occ_hole hc.1 hn
  · rw [cnt_rev]; exact cnt_occ_up hc.1 hn

theorem revIdx_lt : revIdx c i < (basisList c.flip.nsites c.flip.nholes c.flip.nbeta).length :=
  (List.getElem?_eq_some_iff.1 (getElem?_revIdx hn hi)).1

theorem revIdx_unique {j : Nat} (hj : j < (basisList c.flip.nsites c.flip.nholes c.flip.nbeta).length)
    (h : ∀ s < c.nsites, occ c.flip.nholes c.flip.nbeta (basisList c.flip.nsites c.flip.nholes c.flip.nbeta)[j] s
      = (occ c.nholes c.nbeta (basisList c.nsites c.nholes c.nbeta)[i] s).rev) : revIdx c i = j := by
  obtain ⟨h1, h2⟩ := List.getElem?_eq_some_iff.1 (getElem?_revIdx hn hi)
  apply ((nodup_basisList c.flip.nsites c.flip.nholes c.flip.nbeta).getElem_inj_iff (hi := h1) (hj := hj)).1
  rw [h2, getD_basis hn hi]
  have hc := canonical_of_mem_basisList (List.getElem_mem hj)
  rw [← detOf_occ hc]
  apply detOf_congr
  intro s hs
  exact (h s hs).symm

theorem revIdx_revIdx : revIdx c.flip (revIdx c i) = i := by
  have hj := revIdx_lt hn hi
  have hfn := flip_hn hn
  apply revIdx_unique hfn hj
  · intro s hs
    have h2 := (List.getElem?_eq_some_iff.1 (getElem?_revIdx hn hi)).2
    simp only [flip_flip hn, h2]
    rw [getD_basis hn hi]
    have hv := (canonical_of_mem_basisList (List.getElem_mem hi)).1
    have := occ_reverse hn hv hs
    simp only [occC] at this ⊢
    rw [this, Occ.rev_rev]
  · rw [flip_flip hn]; exact hi

end

theorem revIdx_inj {c : Config} (hn : c.nholes + c.nbeta ≤ c.nsites) {i j : Nat}
    (hi : i < (basisList c.nsites c.nholes c.nbeta).length) (hj : j < (basisList c.nsites c.nholes c.nbeta).length)
    (h : revIdx c i = revIdx c j) : i = j := by
  rw [← revIdx_revIdx hn hi, ← revIdx_revIdx hn hj, h]

theorem reverseSpinsVect_spec {K : Type} [Zero K] (S : SetSem) {c : Config} (hf : c.Full)
    (hn : c.nholes + c.nbeta ≤ c.nsites) (v : List K)
    (hv : v.length = (basisList c.nsites c.nholes c.nbeta).length) :
    ∃ w, reverseSpinsVect S c (basisList c.nsites c.nholes c.nbeta) v = .ok w ∧
      w.length = (basisList c.nsites c.nholes c.nbeta).length ∧
      ∀ i < (basisList c.nsites c.nholes c.nbeta).length, w.getD (revIdx c i) 0 = v.getD i 0 := by
  have hlen := length_flip_basis hn
  have hrl : ∀ i, i < (basisList c.nsites c.nholes c.nbeta).length →
      revIdx c i < (basisList c.nsites c.nholes c.nbeta).length := fun i hi => hlen ▸ revIdx_lt hn hi
  clear hlen
  set L := basisList c.nsites c.nholes c.nbeta with hL
  have h1 : reverseSpinsVect S c L v = .ok (L.zipIdx.foldl (fun w p => w.set (revIdx c p.2) (v.getD p.2 0))
      (List.replicate v.length 0)) := by
    unfold reverseSpinsVect
    apply foldlM_ok_of (fun w => w.length = v.length)
    · simp
    · intro w p hw hp
      obtain ⟨d, i⟩ := p
      have hp' := List.mem_zipIdx_iff_getElem?.1 hp
      obtain ⟨hi, hd⟩ := List.getElem?_eq_some_iff.1 hp'
      simp only at hi hd hp'
      have hvd : ValidDet c.nsites d := by
        rw [← hd]; exact (canonical_of_mem_basisList (List.getElem_mem _)).1
      have hg : L.getD i [] = d := by simp [List.getD_eq_getElem?_getD, hp']
      have hri : revIdx c i = getIndexInBasis c.flip (detOf c.nsites (fun s => (occC c d s).rev)) := by
        unfold revIdx; rw [← hL, hg]
      refine ⟨?_, by simp [hw]⟩
      simp only
      rw [reverseSpins_eq S hf hn hvd]
      have hget : pyGet v i = .ok (v.getD i 0) := by
        unfold pyGet
        rw [List.getD_eq_getElem?_getD, List.getElem?_eq_getElem (by omega)]; rfl
      show (pyGet v i >>= fun x => pySet w (getIndexInBasis c.flip _) x) = _
      rw [hget]
      show pySet w _ _ = _
      rw [← hri]
      unfold pySet
      rw [if_pos (by rw [hw, hv]; exact hrl i hi)]
  have h2 : ∀ w0 : List K, L.zipIdx.foldl (fun w p => w.set (revIdx c p.2) (v.getD p.2 0)) w0 =
      (List.range L.length).foldl (fun w i => w.set (revIdx c i) (v.getD i 0)) w0 := by
    intro w0
    have : (List.range L.length) = L.zipIdx.map Prod.snd := by
      rw [List.zipIdx_map_snd, List.range_eq_range']
    rw [this, List.foldl_map]
  rw [h2] at h1
  obtain ⟨s1, s2⟩ := foldl_set_spec (revIdx c) v L.length (List.replicate v.length 0) (0 : K) L.length (Nat.le_refl _)
    (fun i j hi hj h => revIdx_inj hn hi hj h)
    (fun i hi => by rw [List.length_replicate, hv]; exact hrl i hi)
  exact ⟨_, h1, by rw [s1, List.length_replicate, hv], s2⟩

end TJ
