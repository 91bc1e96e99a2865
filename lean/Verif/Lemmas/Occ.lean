/-
Normal form of determinants: a determinant is characterised by its occupation.
-/
import Verif.Spec.Occupation
import Mathlib.Tactic.Linarith

namespace TJ

theorem det_split (h b : Nat) (det : List Nat) :
    det.take h ++ (det.drop h).take b ++ det.drop (h + b) = det := by
  rw [List.append_assoc, ← List.drop_drop, List.take_append_drop, List.take_append_drop]

theorem ValidDet.nodup {n : Nat} {det : List Nat} (h : ValidDet n det) : det.Nodup :=
  h.nodup_iff.2 List.nodup_range

theorem ValidDet.mem {n : Nat} {det : List Nat} (h : ValidDet n det) {s : Nat} : s ∈ det ↔ s < n := by
  rw [h.mem_iff, List.mem_range]

theorem ValidDet.length {n : Nat} {det : List Nat} (h : ValidDet n det) : det.length = n := by
  rw [h.length_eq, List.length_range]

theorem validDet_iff {n : Nat} {det : List Nat} :
    ValidDet n det ↔ det.Nodup ∧ ∀ s, s ∈ det ↔ s < n := by
  constructor
  · exact fun h => ⟨h.nodup, fun s => h.mem⟩
  · rintro ⟨h1, h2⟩
    exact (List.perm_ext_iff_of_nodup h1 List.nodup_range).2 (fun s => by rw [h2, List.mem_range])

theorem sitesOf_nodup (n : Nat) (σ : Nat → Occ) (o : Occ) : (sitesOf n σ o).Nodup :=
  List.nodup_range.filter _

theorem mem_sitesOf {n : Nat} {σ : Nat → Occ} {o : Occ} {s : Nat} :
    s ∈ sitesOf n σ o ↔ s < n ∧ σ s = o := by
  simp [sitesOf]

theorem sitesOf_sorted (n : Nat) (σ : Nat → Occ) (o : Occ) : (sitesOf n σ o).Pairwise (· < ·) :=
  List.pairwise_lt_range.filter _

theorem length_sitesOf (n : Nat) (σ : Nat → Occ) (o : Occ) : (sitesOf n σ o).length = cnt n σ o := rfl

theorem detOf_valid (n : Nat) (σ : Nat → Occ) : ValidDet n (detOf n σ) := by
  rw [validDet_iff]
  constructor
  · unfold detOf
    rw [List.nodup_append, List.nodup_append]
    refine ⟨⟨sitesOf_nodup _ _ _, sitesOf_nodup _ _ _, ?_⟩, sitesOf_nodup _ _ _, ?_⟩
    · intro a ha b hb hab
      rw [mem_sitesOf] at ha hb
      subst hab
      simp [ha.2] at hb
    · intro a ha b hb hab
      rw [List.mem_append] at ha
      subst hab
      simp only [mem_sitesOf] at ha hb
      rcases ha with ha | ha <;> simp [ha.2] at hb
  · intro s
    simp only [detOf, List.mem_append, mem_sitesOf]
    cases σ s <;> simp

theorem cnt_add (n : Nat) (σ : Nat → Occ) : cnt n σ .hole + cnt n σ .down + cnt n σ .up = n := by
  have := (detOf_valid n σ).length
  simp only [detOf, List.length_append, length_sitesOf] at this
  omega

theorem detOf_congr {n : Nat} {σ τ : Nat → Occ} (h : ∀ s < n, σ s = τ s) : detOf n σ = detOf n τ := by
  have : ∀ o, sitesOf n σ o = sitesOf n τ o := by
    intro o
    apply List.filter_congr
    intro s hs
    rw [h s (List.mem_range.1 hs)]
  simp [detOf, this]

theorem cnt_congr {n : Nat} {σ τ : Nat → Occ} (h : ∀ s < n, σ s = τ s) (o : Occ) : cnt n σ o = cnt n τ o := by
  unfold cnt
  congr 1
  apply List.filter_congr
  intro s hs
  rw [h s (List.mem_range.1 hs)]

theorem take_detOf {n h : Nat} {σ : Nat → Occ} (hh : cnt n σ .hole = h) :
    (detOf n σ).take h = sitesOf n σ .hole := by
  subst hh
  simp only [detOf, List.append_assoc]
  exact List.take_left' rfl

theorem mid_detOf {n h b : Nat} {σ : Nat → Occ} (hh : cnt n σ .hole = h) (hb : cnt n σ .down = b) :
    ((detOf n σ).drop h).take b = sitesOf n σ .down := by
  subst hh; subst hb
  simp only [detOf, List.append_assoc]
  rw [List.drop_left' (length_sitesOf n σ .hole)]
  exact List.take_left' rfl

theorem drop_detOf {n h b : Nat} {σ : Nat → Occ} (hh : cnt n σ .hole = h) (hb : cnt n σ .down = b) :
    (detOf n σ).drop (h + b) = sitesOf n σ .up := by
  subst hh; subst hb
  simp only [detOf]
  exact List.drop_left' (by simp [length_sitesOf])

theorem occ_detOf {n h b : Nat} {σ : Nat → Occ} (hh : cnt n σ .hole = h) (hb : cnt n σ .down = b)
    {s : Nat} (hs : s < n) : occ h b (detOf n σ) s = σ s := by
  unfold occ
  rw [take_detOf hh, mid_detOf hh hb]
  simp only [mem_sitesOf, hs, true_and]
  cases σ s <;> simp

theorem detOf_canonical {n h b : Nat} {σ : Nat → Occ} (hh : cnt n σ .hole = h) (hb : cnt n σ .down = b) :
    Canonical n h b (detOf n σ) := by
  refine ⟨detOf_valid n σ, ?_, ?_, ?_⟩
  · rw [take_detOf hh]; exact sitesOf_sorted _ _ _
  · rw [mid_detOf hh hb]; exact sitesOf_sorted _ _ _
  · rw [drop_detOf hh hb]; exact sitesOf_sorted _ _ _

/-- The three parts of a list without repetition are disjoint. -/
theorem parts_disjoint {det : List Nat} (hd : det.Nodup) (h b : Nat) :
    (∀ s, s ∈ det.take h → s ∉ (det.drop h).take b ∧ s ∉ det.drop (h + b)) ∧
    (∀ s, s ∈ (det.drop h).take b → s ∉ det.drop (h + b)) := by
  have := det_split h b det
  rw [← this, List.nodup_append, List.nodup_append] at hd
  obtain ⟨⟨_, _, h1⟩, _, h2⟩ := hd
  refine ⟨fun s hs => ⟨fun h' => h1 s hs s h' rfl, fun h' => h2 s (List.mem_append_left _ hs) s h' rfl⟩,
    fun s hs h' => h2 s (List.mem_append_right _ hs) s h' rfl⟩

theorem mem_parts {det : List Nat} {h b s : Nat} :
    s ∈ det ↔ s ∈ det.take h ∨ s ∈ (det.drop h).take b ∨ s ∈ det.drop (h + b) := by
  conv_lhs => rw [← det_split h b det]
  simp

theorem occ_hole_iff {h b : Nat} {det : List Nat} {s : Nat} :
    occ h b det s = .hole ↔ s ∈ det.take h := by
  unfold occ
  split
  · simp_all
  · split <;> simp_all

theorem occ_down_iff {h b : Nat} {det : List Nat} (hd : det.Nodup) {s : Nat} :
    occ h b det s = .down ↔ s ∈ (det.drop h).take b := by
  have := (parts_disjoint hd h b).1 s
  unfold occ
  split
  · simp_all
  · split <;> simp_all

theorem occ_up_iff {h b : Nat} {det : List Nat} (hd : det.Nodup) {s : Nat} (hs : s ∈ det) :
    occ h b det s = .up ↔ s ∈ det.drop (h + b) := by
  have h1 := (parts_disjoint hd h b).1 s
  have h2 := (parts_disjoint hd h b).2 s
  have h3 := (mem_parts (h := h) (b := b)).1 hs
  unfold occ
  split
  · simp_all
  · split <;> simp_all

theorem sitesOf_occ_hole {n : Nat} {det : List Nat} (hv : ValidDet n det) (h b : Nat) :
    (sitesOf n (occ h b det) .hole).Perm (det.take h) := by
  refine (List.perm_ext_iff_of_nodup (sitesOf_nodup _ _ _) (hv.nodup.sublist (List.take_sublist _ _))).2 ?_
  intro s
  rw [mem_sitesOf, occ_hole_iff]
  exact ⟨fun h => h.2, fun h => ⟨hv.mem.1 (List.mem_of_mem_take h), h⟩⟩

theorem sitesOf_occ_down {n : Nat} {det : List Nat} (hv : ValidDet n det) (h b : Nat) :
    (sitesOf n (occ h b det) .down).Perm ((det.drop h).take b) := by
  refine (List.perm_ext_iff_of_nodup (sitesOf_nodup _ _ _)
    (hv.nodup.sublist ((List.take_sublist _ _).trans (List.drop_sublist _ _)))).2 ?_
  intro s
  rw [mem_sitesOf, occ_down_iff hv.nodup]
  exact ⟨fun h => h.2, fun h => ⟨hv.mem.1 (List.mem_of_mem_drop (List.mem_of_mem_take h)), h⟩⟩

theorem sitesOf_occ_up {n : Nat} {det : List Nat} (hv : ValidDet n det) (h b : Nat) :
    (sitesOf n (occ h b det) .up).Perm (det.drop (h + b)) := by
  refine (List.perm_ext_iff_of_nodup (sitesOf_nodup _ _ _)
    (hv.nodup.sublist (List.drop_sublist _ _))).2 ?_
  intro s
  rw [mem_sitesOf]
  constructor
  · rintro ⟨hs, ho⟩
    exact (occ_up_iff hv.nodup (hv.mem.2 hs)).1 ho
  · intro hm
    have hs := hv.mem.1 (List.mem_of_mem_drop hm)
    exact ⟨hs, (occ_up_iff hv.nodup (hv.mem.2 hs)).2 hm⟩

theorem cnt_occ_hole {n h b : Nat} {det : List Nat} (hv : ValidDet n det) (hb : h + b ≤ n) :
    cnt n (occ h b det) .hole = h := by
  rw [← length_sitesOf, (sitesOf_occ_hole hv h b).length_eq, List.length_take, hv.length]
  omega

theorem cnt_occ_down {n h b : Nat} {det : List Nat} (hv : ValidDet n det) (hb : h + b ≤ n) :
    cnt n (occ h b det) .down = b := by
  rw [← length_sitesOf, (sitesOf_occ_down hv h b).length_eq, List.length_take, List.length_drop, hv.length]
  omega

theorem sorted_perm_eq {l1 l2 : List Nat} (h : l1.Perm l2) (h1 : l1.Pairwise (· < ·)) (h2 : l2.Pairwise (· < ·)) :
    l1 = l2 :=
  h.eq_of_pairwise (fun a b _ _ hab hba => by omega) h1 h2

theorem detOf_occ {n h b : Nat} {det : List Nat} (hc : Canonical n h b det) :
    detOf n (occ h b det) = det := by
  obtain ⟨hv, h1, h2, h3⟩ := hc
  unfold detOf
  rw [sorted_perm_eq (sitesOf_occ_hole hv h b) (sitesOf_sorted _ _ _) h1,
    sorted_perm_eq (sitesOf_occ_down hv h b) (sitesOf_sorted _ _ _) h2,
    sorted_perm_eq (sitesOf_occ_up hv h b) (sitesOf_sorted _ _ _) h3]
  exact det_split h b det

theorem pySort_eq {l l' : List Nat} (h : l'.Perm l) (hs : l'.Pairwise (· < ·)) : pySort l = l' := by
  have hp : (pySort l).Perm l' := (List.perm_insertionSort _ _).trans h.symm
  have hsort : (pySort l).Pairwise (· ≤ ·) := List.pairwise_insertionSort _ _
  exact hp.eq_of_pairwise (fun a b _ _ hab hba => by omega) hsort (hs.imp (fun h => Nat.le_of_lt h))

theorem reorder_eq {c : Config} {n : Nat} {det : List Nat} (hv : ValidDet n det) :
    reorder c det = detOf n (occ c.nholes c.nbeta det) := by
  unfold reorder detOf holesOf betaOf alphaOf
  rw [pySort_eq (sitesOf_occ_hole hv _ _) (sitesOf_sorted _ _ _),
    pySort_eq (sitesOf_occ_down hv _ _) (sitesOf_sorted _ _ _),
    pySort_eq (sitesOf_occ_up hv _ _) (sitesOf_sorted _ _ _)]

end TJ
