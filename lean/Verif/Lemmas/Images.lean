/-
Images of determinants under the terms of the Hamiltonian: every `compute_*` function of
interactions.py is a list indexed by pairs or triples of sites.
-/
import Verif.Spec.Hamiltonian
import Verif.Lemmas.Rotation
import Verif.Lemmas.Vect

namespace TJ

/-! ### Neighbour lists as values -/

/-- The list returned by `get_neighbors`. -/
def nbl (S : SetSem) (bond : NdMat) (r : RestrArg) (a : Nat) : List Nat :=
  match getNeighbors S a bond r with
  | .ok l => l
  | .error _ => []

theorem nbl_spec (S : SetSem) (bond : NdMat) (r : RestrArg) {a : Nat} (ha : a < bond.rows) :
    getNeighbors S a bond r = .ok (nbl S bond r a) ∧ (nbl S bond r a).Nodup ∧
      ∀ s, s ∈ nbl S bond r a ↔ (s < bond.rows ∧ allowed bond.rows r s ∧ bond.e a s = 1) := by
  obtain ⟨l, h1, h2, h3⟩ := getNeighbors_spec S bond r a ha
  unfold nbl
  rw [h1]
  exact ⟨rfl, h2, h3⟩

theorem mem_nbl_full {S : SetSem} {c : Config} (hf : c.Full) {a : Nat} (ha : a < c.nsites) (s : Nat) :
    s ∈ nbl S c.bond c.restrArg a ↔ (s < c.nsites ∧ c.bond.e a s = 1) := by
  rw [(nbl_spec S c.bond c.restrArg ha).2.2]
  constructor
  · rintro ⟨h1, _, h2⟩; exact ⟨h1, h2⟩
  · rintro ⟨h1, h2⟩; exact ⟨h1, (hf s h1).2, h2⟩

theorem mem_nbl_nil {S : SetSem} {c : Config} {a : Nat} (ha : a < c.nsites) (s : Nat) :
    s ∈ nbl S c.bond (.list []) a ↔ (s < c.nsites ∧ c.bond.e a s = 1) := by
  rw [(nbl_spec S c.bond (.list []) ha).2.2]
  constructor
  · rintro ⟨h1, _, h2⟩; exact ⟨h1, h2⟩
  · rintro ⟨h1, h2⟩; exact ⟨h1, h1, h2⟩

/-! ### Exchanging positions of a determinant -/

theorem pyIndex_eq {det : List Nat} {a : Nat} (ha : a ∈ det) : pyIndex det a = .ok (det.idxOf a) := by
  unfold pyIndex; rw [if_pos ha]

theorem eq_idxOf_iff {det : List Nat} (hd : det.Nodup) {a : Nat} (ha : a ∈ det) {p : Nat} (hp : p < det.length) :
    det.idxOf a = p ↔ det[p] = a := by
  constructor
  · rintro rfl; exact List.getElem_idxOf (List.idxOf_lt_length_iff.2 ha)
  · rintro rfl; exact hd.idxOf_getElem p hp

theorem set2_eq {det : List Nat} (hd : det.Nodup) {a b : Nat} (ha : a ∈ det) (hb : b ∈ det) :
    (det.set (det.idxOf a) b).set (det.idxOf b) a = det.map (Equiv.swap a b) := by
  apply List.ext_getElem
  · simp
  · intro p h1 h2
    have hp : p < det.length := by simpa using h1
    rw [List.getElem_set, List.getElem_set, List.getElem_map]
    simp only [eq_idxOf_iff hd ha hp, eq_idxOf_iff hd hb hp]
    by_cases e1 : det[p] = b
    · rw [if_pos e1, e1, Equiv.swap_apply_right]
    · rw [if_neg e1]
      by_cases e2 : det[p] = a
      · rw [if_pos e2, e2, Equiv.swap_apply_left]
      · rw [if_neg e2, Equiv.swap_apply_of_ne_of_ne e2 e1]

theorem swap_lt {n a b : Nat} (ha : a < n) (hb : b < n) {s : Nat} (hs : s < n) : Equiv.swap a b s < n := by
  rw [Equiv.swap_apply_def]
  split_ifs <;> assumption

/-- The occupation after exchanging the contents of `a` and `b`. -/
def swapOcc (σ : Nat → Occ) (a b : Nat) : Nat → Occ := fun s => σ (Equiv.swap a b s)

/-- Relabelling by an involution and reordering. -/
theorem reorder_map {c : Config} {det : List Nat} (hv : ValidDet c.nsites det) {π ρ : Nat → Nat}
    (hr : ∀ s < c.nsites, π s < c.nsites) (hρ : ∀ s < c.nsites, ρ s < c.nsites)
    (h1 : ∀ s < c.nsites, ρ (π s) = s) (h2 : ∀ s < c.nsites, π (ρ s) = s) :
    reorder c (det.map π) = detOf c.nsites (fun s => occC c det (ρ s)) := by
  have hi : ∀ s < c.nsites, ∀ t < c.nsites, π s = π t → s = t := by
    intro s hs t ht h
    rw [← h1 s hs, h, h1 t ht]
  rw [reorder_eq (hv.map hr hi)]
  apply detOf_congr
  intro s hs
  have := occ_map (h := c.nholes) (b := c.nbeta) hv hi (hρ s hs)
  rwa [h2 s hs] at this

theorem swapped_eq {c : Config} {det : List Nat} (hv : ValidDet c.nsites det) {a b : Nat} (ha : a < c.nsites)
    (hb : b < c.nsites) : swapped c det a b = .ok (detOf c.nsites (swapOcc (occC c det) a b)) := by
  unfold swapped
  rw [pyIndex_eq (hv.mem.2 ha), pyIndex_eq (hv.mem.2 hb)]
  show Except.ok (reorder c _) = _
  rw [set2_eq hv.nodup (hv.mem.2 ha) (hv.mem.2 hb),
    reorder_map hv (ρ := Equiv.swap a b) (fun s hs => swap_lt ha hb hs) (fun s hs => swap_lt ha hb hs)
      (fun s _ => Equiv.swap_apply_self a b s) (fun s _ => Equiv.swap_apply_self a b s)]
  rfl

/-- The occupation after the cyclic move along a path. -/
def shiftOcc (σ : Nat → Occ) (a m b : Nat) : Nat → Occ := fun s =>
  if s = a then σ m else if s = m then σ b else if s = b then σ a else σ s

theorem shifted_eq {c : Config} {det : List Nat} (hv : ValidDet c.nsites det) {a m b : Nat} (ha : a < c.nsites)
    (hm : m < c.nsites) (hb : b < c.nsites) (ham : a ≠ m) (hab : a ≠ b) (hmb : m ≠ b) :
    reorder c (((det.set (det.idxOf a) b).set (det.idxOf m) a).set (det.idxOf b) m) =
      detOf c.nsites (shiftOcc (occC c det) a m b) := by
  have e : ((det.set (det.idxOf a) b).set (det.idxOf m) a).set (det.idxOf b) m =
      det.map (fun s => if s = b then m else if s = m then a else if s = a then b else s) := by
    apply List.ext_getElem
    · simp
    · intro p h1 h2
      have hp : p < det.length := by simpa using h1
      rw [List.getElem_set, List.getElem_set, List.getElem_set, List.getElem_map]
      simp only [eq_idxOf_iff hv.nodup (hv.mem.2 ha) hp, eq_idxOf_iff hv.nodup (hv.mem.2 hm) hp,
        eq_idxOf_iff hv.nodup (hv.mem.2 hb) hp]
  rw [e, reorder_map hv (ρ := fun s => if s = a then m else if s = m then b else if s = b then a else s)]
  · apply detOf_congr
    intro s _
    unfold shiftOcc
    split_ifs <;> rfl
  · intro s hs; split_ifs <;> assumption
  · intro s hs; split_ifs <;> assumption
  · intro s _; split_ifs <;> first | rfl | omega
  · intro s _; split_ifs <;> first | rfl | omega

theorem swapped3_eq {c : Config} {det : List Nat} (hv : ValidDet c.nsites det) {a m b : Nat} (ha : a < c.nsites)
    (hm : m < c.nsites) (hb : b < c.nsites) (ham : a ≠ m) (hmb : m ≠ b) :
    reorder c (((det.set (det.idxOf a) b).set (det.idxOf m) m).set (det.idxOf b) a) =
      detOf c.nsites (swapOcc (occC c det) a b) := by
  have e : ((det.set (det.idxOf a) b).set (det.idxOf m) m).set (det.idxOf b) a =
      (det.set (det.idxOf a) b).set (det.idxOf b) a := by
    apply List.ext_getElem
    · simp
    · intro p h1 h2
      have hp : p < det.length := by simpa using h1
      simp only [List.getElem_set, eq_idxOf_iff hv.nodup (hv.mem.2 ha) hp, eq_idxOf_iff hv.nodup (hv.mem.2 hm) hp,
        eq_idxOf_iff hv.nodup (hv.mem.2 hb) hp]
      split_ifs <;> first | rfl | omega
  rw [e, set2_eq hv.nodup (hv.mem.2 ha) (hv.mem.2 hb),
    reorder_map hv (ρ := Equiv.swap a b) (fun s hs => swap_lt ha hb hs) (fun s hs => swap_lt ha hb hs)
      (fun s _ => Equiv.swap_apply_self a b s) (fun s _ => Equiv.swap_apply_self a b s)]
  rfl

/-! ### Counts are conserved -/

theorem cnt_perm {n : Nat} {σ τ : Nat → Occ} {π : Nat → Nat} (hr : ∀ s < n, π s < n)
    (hi : ∀ s < n, ∀ t < n, π s = π t → s = t) (h : ∀ s < n, τ (π s) = σ s) (o : Occ) : cnt n τ o = cnt n σ o := by
  have hp : ((sitesOf n σ o).map π).Perm (sitesOf n τ o) := by
    refine (List.perm_ext_iff_of_nodup ?_ (sitesOf_nodup _ _ _)).2 ?_
    · exact (sitesOf_nodup _ _ _).map_on (fun x hx y hy h => hi x (mem_sitesOf.1 hx).1 y (mem_sitesOf.1 hy).1 h)
    · intro t
      rw [List.mem_map, mem_sitesOf]
      constructor
      · rintro ⟨s, hs, rfl⟩
        rw [mem_sitesOf] at hs
        exact ⟨hr s hs.1, (h s hs.1).trans hs.2⟩
      · rintro ⟨ht, ho⟩
        obtain ⟨s, hs, rfl⟩ := exists_preimage hr hi ht
        exact ⟨s, mem_sitesOf.2 ⟨hs, (h s hs).symm.trans ho⟩, rfl⟩
  have := hp.length_eq
  rwa [List.length_map, length_sitesOf, length_sitesOf, eq_comm] at this

theorem cnt_swapOcc {n a b : Nat} (ha : a < n) (hb : b < n) (σ : Nat → Occ) (o : Occ) :
    cnt n (swapOcc σ a b) o = cnt n σ o :=
  cnt_perm (π := Equiv.swap a b) (fun s hs => swap_lt ha hb hs) (fun _ _ _ _ h => (Equiv.swap a b).injective h)
    (fun s _ => by unfold swapOcc; rw [Equiv.swap_apply_self]) o

theorem cnt_shiftOcc {n a m b : Nat} (ha : a < n) (hm : m < n) (hb : b < n) (ham : a ≠ m) (hab : a ≠ b) (hmb : m ≠ b)
    (σ : Nat → Occ) (o : Occ) : cnt n (shiftOcc σ a m b) o = cnt n σ o := by
  apply cnt_perm (π := fun s => if s = b then m else if s = m then a else if s = a then b else s)
  · intro s hs; split_ifs <;> assumption
  · intro s _ t _; split_ifs <;> omega
  · intro s _
    unfold shiftOcc
    split_ifs <;> first | rfl | (subst_vars; rfl) | omega

/-- The canonical determinant of a rearranged occupation. -/
theorem moved_swap {c : Config} {det : List Nat} (hv : ValidDet c.nsites det) (hn : c.nholes + c.nbeta ≤ c.nsites)
    {a b : Nat} (ha : a < c.nsites) (hb : b < c.nsites) :
    Moved c.nsites c.nholes c.nbeta (Equiv.swap a b) det (detOf c.nsites (swapOcc (occC c det) a b)) := by
  have h1 : cnt c.nsites (swapOcc (occC c det) a b) .hole = c.nholes := (cnt_swapOcc ha hb _ _).trans (cnt_occ_hole hv hn)
  have h2 : cnt c.nsites (swapOcc (occC c det) a b) .down = c.nbeta := (cnt_swapOcc ha hb _ _).trans (cnt_occ_down hv hn)
  refine ⟨detOf_canonical h1 h2, ?_⟩
  intro s hs
  rw [occ_detOf h1 h2 (swap_lt ha hb hs)]
  unfold swapOcc
  rw [Equiv.swap_apply_self]

/-! ### Hopping -/

theorem flatten_map_map {α β γ : Type} (l : List α) (g : α → List β) (f : α → β → γ) :
    (l.map (fun a => (g a).map (f a))).flatten = (l.flatMap (fun a => (g a).map (fun b => (a, b)))).map (fun p => f p.1 p.2) := by
  rw [List.map_flatMap, List.flatMap]
  simp [Function.comp_def]

theorem nodup_pairs {α β : Type} {l : List α} (hl : l.Nodup) {g : α → List β} (hg : ∀ a ∈ l, (g a).Nodup) :
    (l.flatMap (fun a => (g a).map (fun b => (a, b)))).Nodup := by
  rw [List.nodup_flatMap]
  refine ⟨fun a ha => (hg a ha).map (fun x y h => (Prod.mk.inj h).2), ?_⟩
  refine hl.imp ?_
  intro a a' hne
  intro x hx hx'
  obtain ⟨_, _, rfl⟩ := List.mem_map.1 hx
  obtain ⟨_, _, h⟩ := List.mem_map.1 hx'
  exact hne (Prod.mk.inj h).1.symm

theorem mem_pairs {α β : Type} {l : List α} {g : α → List β} {p : α × β} :
    p ∈ l.flatMap (fun a => (g a).map (fun b => (a, b))) ↔ p.1 ∈ l ∧ p.2 ∈ g p.1 := by
  rw [List.mem_flatMap]
  constructor
  · rintro ⟨a, ha, h⟩
    obtain ⟨b, hb, rfl⟩ := List.mem_map.1 h
    exact ⟨ha, hb⟩
  · rintro ⟨h1, h2⟩
    exact ⟨p.1, h1, List.mem_map.2 ⟨p.2, h2, rfl⟩⟩

theorem computeHopping_eq (S : SetSem) {c : Config} (hf : c.Full) {det : List Nat} (hv : ValidDet c.nsites det)
    (hn : c.nholes + c.nbeta ≤ c.nsites) :
    ∃ L : List (Nat × Nat), L.Nodup ∧
      (∀ p, p ∈ L ↔ p.1 < c.nsites ∧ p.2 < c.nsites ∧ occC c det p.1 = .hole ∧ occC c det p.2 ≠ .hole ∧
        c.bond.e p.1 p.2 = 1) ∧
      computeHopping S c det = .ok (L.map (fun p => detOf c.nsites (swapOcc (occC c det) p.1 p.2))) := by
  obtain ⟨hs, e0, p0⟩ := getIndexesOf_full S hf hv .hole false
  have hmem : ∀ s, s ∈ hs ↔ s < c.nsites ∧ occC c det s = .hole := fun s => by rw [p0.mem_iff, mem_sitesOf]
  have hnd : hs.Nodup := p0.nodup_iff.2 (sitesOf_nodup _ _ _)
  refine ⟨hs.flatMap (fun a => ((nbl S c.bond c.restrArg a).filter (fun b => b ∉ hs)).map (fun b => (a, b))),
    nodup_pairs hnd (fun a ha => ((nbl_spec S c.bond c.restrArg ((hmem a).1 ha).1).2.1).filter _), ?_, ?_⟩
  · intro p
    rw [mem_pairs, List.mem_filter, hmem]
    constructor
    · rintro ⟨h1, h2, h3⟩
      rw [mem_nbl_full hf h1.1] at h2
      have h3 : ¬ p.2 ∈ hs := by simpa using h3
      rw [hmem] at h3
      exact ⟨h1.1, h2.1, h1.2, fun h => h3 ⟨h2.1, h⟩, h2.2⟩
    · rintro ⟨h1, h2, h3, h4, h5⟩
      refine ⟨⟨h1, h3⟩, (mem_nbl_full hf h1 _).2 ⟨h2, h5⟩, ?_⟩
      have : ¬ p.2 ∈ hs := by rw [hmem]; exact fun h => h4 h.2
      simpa using this
  · unfold computeHopping
    split_ifs with h0
    · refine bind_ok e0 ?_
      rw [← flatten_map_map hs (fun a => (nbl S c.bond c.restrArg a).filter (fun b => b ∉ hs))
        (fun a b => detOf c.nsites (swapOcc (occC c det) a b))]
      refine bind_ok (mapM_ok (g := fun a => ((nbl S c.bond c.restrArg a).filter (fun b => b ∉ hs)).map
        (fun b => detOf c.nsites (swapOcc (occC c det) a b))) ?_) rfl
      intro a ha
      have ha' := (hmem a).1 ha
      refine bind_ok (nbl_spec S c.bond c.restrArg ha'.1).1 ?_
      apply mapM_ok
      intro b hb
      have := (mem_nbl_full hf ha'.1 b).1 (List.mem_filter.1 hb).1
      exact swapped_eq hv ha'.1 this.1
    · have : hs = [] := by
        apply List.eq_nil_iff_forall_not_mem.2
        intro s hs
        have := (hmem s).1 hs
        rw [occ_hole_iff] at this
        have h0 : c.nholes = 0 := by omega
        rw [h0] at this
        simp at this
      rw [this]
      rfl

end TJ
