/-
Determinant functions in terms of occupations.
-/
import Verif.Lemmas.Basis

namespace TJ

/-- Occupation of a determinant of the configuration. -/
abbrev occC (c : Config) (det : List Nat) : Nat → Occ := occ c.nholes c.nbeta det

theorem getSpinSite_eq {c : Config} {det : List Nat} {s : Nat} (hs : s ∈ det) :
    getSpinSite c det s = .ok (occC c det s) := by
  unfold getSpinSite pyIndex
  rw [if_pos hs]
  have h1 := List.mem_take_iff_idxOf_lt hs (n := c.nholes)
  have h2 : s ∈ det.take (c.nholes + c.nbeta) ↔ det.idxOf s < c.nholes + c.nbeta := List.mem_take_iff_idxOf_lt hs
  have h3 : s ∈ det.take (c.nholes + c.nbeta) ↔ s ∈ det.take c.nholes ∨ s ∈ (det.drop c.nholes).take c.nbeta := by
    rw [List.take_add, List.mem_append]
  show (if det.idxOf s < c.nholes then pure Occ.hole else if det.idxOf s < c.nholes + c.nbeta then pure Occ.down else pure Occ.up : Py Occ) = _
  unfold occC occ
  by_cases a : det.idxOf s < c.nholes
  · rw [if_pos a, if_pos (h1.2 a)]; rfl
  · rw [if_neg a, if_neg (fun h => a (h1.1 h))]
    by_cases b : det.idxOf s < c.nholes + c.nbeta
    · have : s ∈ (det.drop c.nholes).take c.nbeta := (h3.1 (h2.2 b)).resolve_left (fun h => a (h1.1 h))
      rw [if_pos b, if_pos this]; rfl
    · have : s ∉ (det.drop c.nholes).take c.nbeta := fun h => b (h2.1 (h3.2 (Or.inr h)))
      rw [if_neg b, if_neg this]; rfl

/-- `get_indexes_of` on an unrestricted configuration. -/
theorem getIndexesOf_full (S : SetSem) {c : Config} (hf : c.Full) {det : List Nat} (hv : ValidDet c.nsites det)
    (o : Occ) (t : Bool) :
    ∃ l, getIndexesOf S c det o.twice t = .ok l ∧ l.Perm (sitesOf c.nsites (occC c det) o) := by
  have key : ∀ p : List Nat, (∀ x ∈ p, x < c.nsites) → p.Nodup →
      ∀ l', l'.Perm p → (S.inter p (if t then c.restr.2 else c.restr.1)).Perm l' := by
    intro p hp hnd l' hl'
    refine (List.perm_ext_iff_of_nodup (S.nodup_inter _ _) (hl'.nodup_iff.2 hnd)).2 ?_
    intro x
    rw [S.mem_inter, hl'.mem_iff]
    constructor
    · exact fun h => h.1
    · intro h
      refine ⟨h, ?_⟩
      have := hf x (hp x h)
      cases t <;> simp [this]
  cases o with
  | hole =>
    exact ⟨_, by simp [getIndexesOf, Occ.twice, holesOf], key _ (fun x hx => hv.mem.1 (List.mem_of_mem_take hx))
      (hv.nodup.sublist (List.take_sublist _ _)) _ (sitesOf_occ_hole hv _ _)⟩
  | down =>
    exact ⟨_, by simp [getIndexesOf, Occ.twice, betaOf], key _
      (fun x hx => hv.mem.1 (List.mem_of_mem_drop (List.mem_of_mem_take hx)))
      (hv.nodup.sublist ((List.take_sublist _ _).trans (List.drop_sublist _ _))) _ (sitesOf_occ_down hv _ _)⟩
  | up =>
    exact ⟨_, by simp [getIndexesOf, Occ.twice, alphaOf], key _ (fun x hx => hv.mem.1 (List.mem_of_mem_drop hx))
      (hv.nodup.sublist (List.drop_sublist _ _)) _ (sitesOf_occ_up hv _ _)⟩

/-- A list made of the sites of the three species, in any order inside each species. -/
theorem occ_of_parts {n : Nat} {σ : Nat → Occ} {hs bs as : List Nat} (h1 : hs.Perm (sitesOf n σ .hole))
    (h2 : bs.Perm (sitesOf n σ .down)) (h3 : as.Perm (sitesOf n σ .up)) :
    ValidDet n (hs ++ bs ++ as) ∧ ∀ s < n, occ (cnt n σ .hole) (cnt n σ .down) (hs ++ bs ++ as) s = σ s := by
  constructor
  · exact ((h1.append h2).append h3).trans (detOf_valid n σ)
  · intro s hs'
    have l1 : hs.length = cnt n σ .hole := h1.length_eq
    have l2 : bs.length = cnt n σ .down := h2.length_eq
    rw [← occ_detOf (σ := σ) rfl rfl hs']
    unfold occ
    rw [List.append_assoc, List.take_left' l1, List.drop_left' l1, List.take_left' l2, take_detOf rfl, mid_detOf rfl rfl]
    simp only [h1.mem_iff, h2.mem_iff]

theorem sitesOf_rev (n : Nat) (σ : Nat → Occ) (o : Occ) :
    sitesOf n (fun s => (σ s).rev) o = sitesOf n σ o.rev := by
  apply List.filter_congr
  intro s _
  cases h : σ s <;> cases o <;> simp [Occ.rev, h]

theorem cnt_rev (n : Nat) (σ : Nat → Occ) (o : Occ) : cnt n (fun s => (σ s).rev) o = cnt n σ o.rev := by
  rw [← length_sitesOf, sitesOf_rev, length_sitesOf]

theorem flip_nsites (c : Config) : c.flip.nsites = c.nsites := rfl
theorem flip_nholes (c : Config) : c.flip.nholes = c.nholes := rfl

theorem flip_full {c : Config} (hf : c.Full) : c.flip.Full := hf

theorem nalpha_toNat {c : Config} (hn : c.nholes + c.nbeta ≤ c.nsites) :
    c.nalpha.toNat = c.nsites - c.nholes - c.nbeta := by unfold Config.nalpha; omega

theorem cnt_occ_up {c : Config} {det : List Nat} (hv : ValidDet c.nsites det) (hn : c.nholes + c.nbeta ≤ c.nsites) :
    cnt c.nsites (occC c det) .up = c.nalpha.toNat := by
  have := cnt_add c.nsites (occC c det)
  have h1 := cnt_occ_hole hv hn
  have h2 := cnt_occ_down hv hn
  rw [nalpha_toNat hn]
  simp only [occC] at *
  omega

theorem flip_flip {c : Config} (hn : c.nholes + c.nbeta ≤ c.nsites) : c.flip.flip = c := by
  have : c.flip.nalpha.toNat = c.nbeta := by
    rw [nalpha_toNat (c := c.flip)]
    · show c.nsites - c.nholes - c.nalpha.toNat = _
      rw [nalpha_toNat hn]; omega
    · show c.nholes + c.nalpha.toNat ≤ c.nsites
      rw [nalpha_toNat hn]; omega
  unfold Config.flip at *
  simp only [this]

theorem flip_hn {c : Config} (hn : c.nholes + c.nbeta ≤ c.nsites) :
    c.flip.nholes + c.flip.nbeta ≤ c.flip.nsites := by
  show c.nholes + c.nalpha.toNat ≤ c.nsites
  rw [nalpha_toNat hn]; omega

theorem reverseSpins_eq (S : SetSem) {c : Config} (hf : c.Full) (hn : c.nholes + c.nbeta ≤ c.nsites)
    {det : List Nat} (hv : ValidDet c.nsites det) :
    reverseSpins S c det = .ok (c.flip, detOf c.nsites (fun s => (occC c det s).rev)) := by
  obtain ⟨hs, e1, p1⟩ := getIndexesOf_full S hf hv .hole false
  obtain ⟨as, e2, p2⟩ := getIndexesOf_full S hf hv .up false
  obtain ⟨bs, e3, p3⟩ := getIndexesOf_full S hf hv .down false
  simp only [Occ.twice] at e1 e2 e3
  unfold reverseSpins
  rw [e1, e2, e3]
  show Except.ok _ = _
  congr 2
  set σ : Nat → Occ := fun s => (occC c det s).rev
  have q1 : hs.Perm (sitesOf c.nsites σ .hole) := by rw [sitesOf_rev]; exact p1
  have q2 : as.Perm (sitesOf c.nsites σ .down) := by rw [sitesOf_rev]; exact p2
  have q3 : bs.Perm (sitesOf c.nsites σ .up) := by rw [sitesOf_rev]; exact p3
  obtain ⟨v, o⟩ := occ_of_parts q1 q2 q3
  rw [reorder_eq (c := c.flip) (n := c.nsites) v]
  apply detOf_congr
  intro s hs'
  have c1 : cnt c.nsites σ .hole = c.flip.nholes := by rw [cnt_rev]; exact cnt_occ_hole hv hn
  have c2 : cnt c.nsites σ .down = c.flip.nbeta := by rw [cnt_rev]; exact cnt_occ_up hv hn
  rw [← c1, ← c2]
  exact o s hs'

theorem occ_reverse {c : Config} (hn : c.nholes + c.nbeta ≤ c.nsites) {det : List Nat}
    (hv : ValidDet c.nsites det) {s : Nat} (hs : s < c.nsites) :
    occC c.flip (detOf c.nsites (fun s => (occC c det s).rev)) s = (occC c det s).rev := by
  apply occ_detOf (σ := fun s => (occC c det s).rev) _ _ hs
  · rw [cnt_rev]; exact cnt_occ_hole hv hn
  · rw [cnt_rev]; exact cnt_occ_up hv hn

theorem Occ.rev_rev (o : Occ) : o.rev.rev = o := by cases o <;> rfl

theorem detOf_inj {n : Nat} {σ τ : Nat → Occ} (h : detOf n σ = detOf n τ)
    (hh : cnt n σ .hole = cnt n τ .hole) (hb : cnt n σ .down = cnt n τ .down) : ∀ s < n, σ s = τ s := by
  intro s hs
  rw [← occ_detOf (σ := σ) rfl rfl hs, h, hh, hb, occ_detOf rfl rfl hs]

end TJ
