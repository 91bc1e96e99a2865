/-
Property C81: for which lattices compute_S2 is the total spin operator when the program is run by CPython.
-/
import Verif.Lemmas.CPythonSet
import Verif.Props.Spin

namespace TJ

/-! ### C81 -/

/-- C81. The table of CPython, however often it grew, lists every element of a set, of an intersection and of a difference exactly
once: the probing reaches every slot, so no element is lost, and finds the elements that are there, so none is entered twice. -/
theorem C81_tables (a b : List Nat) :
    ((PyTable.ofList a).toList.Nodup ∧ ∀ x, x ∈ (PyTable.ofList a).toList ↔ x ∈ a) ∧
    (((PyTable.ofList a).inter (PyTable.ofList b)).toList.Nodup ∧
      ∀ x, x ∈ ((PyTable.ofList a).inter (PyTable.ofList b)).toList ↔ x ∈ a ∧ x ∈ b) ∧
    (((PyTable.ofList a).diff (PyTable.ofList b)).Nodup ∧
      ∀ x, x ∈ (PyTable.ofList a).diff (PyTable.ofList b) ↔ x ∈ a ∧ x ∉ b) :=
  ⟨⟨(good_ofList a).1.nodup, (good_ofList a).2⟩, ⟨(good_inter a b).1.nodup, (good_inter a b).2⟩, good_diff a b⟩

/-- Six numbers with the same first slot, one of them twice: the table has grown from 8 to 32 slots. -/
example : (PyTable.ofList [0, 8, 16, 8, 64, 40, 72]).toList = [0, 64, 8, 40, 72, 16] ∧
    (PyTable.ofList [0, 8, 16, 8, 64, 40, 72]).mask = 31 := by decide +kernel

/-- C81. Sets of numbers smaller than 8 are iterated increasingly by CPython, however they were built. -/
theorem C81_small_sets (a b : List Nat) (h : ∀ x ∈ a, x < 8) :
    (SetSem.cpython.ofList a).Pairwise (· < ·) ∧ (SetSem.cpython.inter a b).Pairwise (· < ·) ∧
      (SetSem.cpython.inter b a).Pairwise (· < ·) := by
  refine ⟨(ofList_small a h).1.sorted, ?_, ?_⟩
  · obtain ⟨l, _, l2, l3⟩ := inter_ofList a b
    rw [l3]
    exact (ofList_small l fun x hx => h x ((l2 x).1 hx).1).1.sorted
  · obtain ⟨l, _, l2, l3⟩ := inter_ofList b a
    rw [l3]
    exact (ofList_small l fun x hx => h x ((l2 x).1 hx).2).1.sorted

/-- C81. A set of `k` different numbers has `tableSize k` slots in CPython, in whatever order they were added; numbers smaller than that are
iterated increasingly. -/
theorem C81_sets (a : List Nat) (hnd : a.Nodup) :
    (PyTable.ofList a).slots.length = tableSize a.length ∧
      ((∀ x ∈ a, x < tableSize a.length) → (SetSem.cpython.ofList a).Pairwise (· < ·)) :=
  ⟨(good_ofList a).1.len.trans (ofList_slots a hnd).2.1, ofList_increasing a hnd⟩

/-- Five numbers below 32. -/
example : (SetSem.cpython.ofList [31, 8, 24, 0, 16]).Pairwise (· < ·) := (C81_sets _ (by decide)).2 (by decide +kernel)

/-- C81. On every lattice, CPython lists the hole sites of every determinant increasingly exactly if there is at most one hole or the
lattice has at most as many sites as a set of that many holes has slots. -/
theorem C81_in_order_iff (c : Config) (hf : c.Full) (hn : c.nholes ≤ c.nsites) :
    HolesInOrder SetSem.cpython c ↔ c.nholes ≤ 1 ∨ c.nsites ≤ tableSize c.nholes := by
  have hset : ∀ l : List Nat, l.Nodup → (∀ x ∈ l, x < c.nsites) → ∃ l' : List Nat, l'.Perm l ∧
      SetSem.cpython.inter l c.restr.1 = (PyTable.ofList l').toList := by
    intro l hl hl2
    obtain ⟨l', h1, h2, h3⟩ := inter_ofList l c.restr.1
    refine ⟨l', (List.perm_ext_iff_of_nodup h1 hl).2 fun y => ?_, h3⟩
    rw [h2]
    exact ⟨fun h => h.1, fun h => ⟨h, (hf y (hl2 y h)).1⟩⟩
  constructor
  · intro h
    by_contra hcon
    push Not at hcon
    obtain ⟨h1, h2⟩ := hcon
    obtain ⟨k, hk⟩ : ∃ k, c.nholes = k + 2 := ⟨c.nholes - 2, by omega⟩
    have h5 := lt_tableSize c.nholes
    -- the holes 1, ..., nholes - 1 and one on the site with the number of slots
    have hl1 : (List.range' 1 (k + 1) ++ [tableSize c.nholes]).Pairwise (· < ·) := by
      refine List.pairwise_append.2 ⟨List.pairwise_lt_range', List.pairwise_singleton _ _, fun a ha b hb => ?_⟩
      rw [List.mem_singleton] at hb
      have := List.mem_range'_1.1 ha
      omega
    have hl2 : (List.range' 1 (k + 1) ++ [tableSize c.nholes]).length = c.nholes := by
      rw [List.length_append, List.length_range', List.length_singleton, hk]
    have hl3 : ∀ x ∈ List.range' 1 (k + 1) ++ [tableSize c.nholes], x < c.nsites := by
      intro x hx
      rcases List.mem_append.1 hx with hx | hx
      · have := List.mem_range'_1.1 hx
        omega
      · rw [List.mem_singleton] at hx
        omega
    have h' := h _ hl1 hl2 hl3
    obtain ⟨l', p1, p2⟩ := hset _ (hl1.imp fun h => Nat.ne_of_lt h) hl3
    rw [p2] at h'
    have hlen : l'.length = c.nholes := p1.length_eq.trans hl2
    have hnd : l'.Nodup := p1.nodup_iff.2 (hl1.imp fun h => Nat.ne_of_lt h)
    have hmem : ∀ x ∈ l', (1 ≤ x ∧ x < k + 2) ∨ x = tableSize c.nholes := by
      intro x hx
      rcases List.mem_append.1 (p1.mem_iff.1 hx) with hx | hx
      · have := List.mem_range'_1.1 hx
        omega
      · exact Or.inr (List.mem_singleton.1 hx)
    have hfirst := ofList_first l' hnd (x := tableSize c.nholes) (by
        rw [hlen]
        intro a ha b hb e
        rcases hmem a ha with ha | rfl <;> rcases hmem b hb with hb | rfl
        · rwa [Nat.mod_eq_of_lt (by omega), Nat.mod_eq_of_lt (by omega)] at e
        · rw [Nat.mod_eq_of_lt (by omega), Nat.mod_self] at e
          omega
        · rw [Nat.mod_self, Nat.mod_eq_of_lt (by omega)] at e
          omega
        · rfl)
      (p1.mem_iff.2 (List.mem_append_right _ List.mem_cons_self)) (by rw [hlen, Nat.mod_self])
    have h1mem : 1 ∈ (PyTable.ofList l').toList :=
      ((good_ofList l').2 1).2 (p1.mem_iff.2 (List.mem_append_left _ (List.mem_range'_1.2 ⟨by omega, by omega⟩)))
    cases ht : (PyTable.ofList l').toList with
    | nil => rw [ht] at h1mem; simp at h1mem
    | cons a r =>
      rw [ht] at h1mem h' hfirst
      obtain rfl : a = tableSize c.nholes := by simpa using hfirst
      rcases List.mem_cons.1 h1mem with e | h1mem
      · omega
      · have := (List.pairwise_cons.1 h').1 1 h1mem
        omega
  · rintro (h | h)
    · exact C39_one_hole_in_order _ c h
    · intro l l1 l2 l3
      obtain ⟨l', p1, p2⟩ := hset l (l1.imp fun h => Nat.ne_of_lt h) l3
      rw [p2]
      refine ofList_increasing l' (p1.nodup_iff.2 (l1.imp fun h => Nat.ne_of_lt h)) fun x hx => ?_
      rw [p1.length_eq, l2]
      exact lt_of_lt_of_le (l3 x (p1.mem_iff.1 hx)) h

/-- C81. The same with numbers, up to 128 sites: at most one hole, or at most eight sites, or at least five holes and at most 32 sites, or at
least 19 holes. -/
theorem C81_in_order_small (c : Config) (hf : c.Full) (h128 : c.nsites ≤ 128) (hn : c.nholes ≤ c.nsites) :
    HolesInOrder SetSem.cpython c ↔
      c.nholes ≤ 1 ∨ c.nsites ≤ 8 ∨ (5 ≤ c.nholes ∧ c.nsites ≤ 32) ∨ 19 ≤ c.nholes := by
  rw [C81_in_order_iff c hf hn]
  have e4 : tableSize 4 = 8 := by decide +kernel
  have e5 : tableSize 5 = 32 := by decide +kernel
  have e18 : tableSize 18 = 32 := by decide +kernel
  have e19 : tableSize 19 = 128 := by decide +kernel
  have h8 := (lt_tableSize c.nholes).1
  rcases Nat.lt_or_ge c.nholes 5 with h5 | h5
  · have := tableSize_mono (show c.nholes ≤ 4 by omega)
    omega
  · have a5 := tableSize_mono h5
    rcases Nat.lt_or_ge c.nholes 19 with h19 | h19
    · have := tableSize_mono (show c.nholes ≤ 18 by omega)
      omega
    · have a19 := tableSize_mono h19
      omega

/-- C81. Run by CPython, `compute_S2` is the total spin operator on every lattice with at most one hole, and on every lattice that has at
most as many sites as a set of the holes has slots: for instance on all lattices of at most eight sites, on all lattices of at most 32
sites with at least five holes. -/
theorem C81_total_spin {K : Type} [Field K] [CharZero K] (c : Config)
    (hf : c.Full) (hc : c.nholes ≤ 1 ∨ c.nsites ≤ tableSize c.nholes)
    (hn : c.nholes + c.nbeta ≤ c.nsites) (dets : List (List Nat)) (hb : constructBasis c = .ok dets) (v : List K)
    (hv : v.length = dets.length) :
    ∃ w, computeS2 SetSem.cpython c v = .ok w ∧ w.length = dets.length ∧ ∀ k (hk : k < dets.length),
      w.getD k 0 = spin2 (amp c dets v) (conf c dets[k]) :=
  C40_total_spin_partial _ c hf ((C81_in_order_iff c hf (by omega)).2 hc) hn dets hb v hv

/-- C81. Run by CPython, `compute_S2` is the total spin operator (on every vector) exactly if all spins are parallel, or there is at most one
hole, or the lattice has at most as many sites as a set of the holes has slots. -/
theorem C81_total_spin_iff {K : Type} [Field K] [CharZero K] (c : Config) (hf : c.Full)
    (hn : c.nholes + c.nbeta ≤ c.nsites) (dets : List (List Nat)) (hb : constructBasis c = .ok dets) :
    (∀ v : List K, v.length = dets.length → ∃ w, computeS2 SetSem.cpython c v = .ok w ∧ w.length = dets.length ∧
      ∀ k (hk : k < dets.length), w.getD k 0 = spin2 (amp c dets v) (conf c dets[k])) ↔
      c.nalpha = 0 ∨ c.nbeta = 0 ∨ c.nholes ≤ 1 ∨ c.nsites ≤ tableSize c.nholes := by
  rw [C40_total_spin_iff SetSem.cpython c hf hn dets hb, C81_in_order_iff c hf (by omega)]

/-- C81. The first lattice outside these conditions, 3 x 3 with two holes: on CPython `compute_S2` raises `IndexError`. -/
theorem C81_nine_sites :
    computeS2 SetSem.cpython (rectConf 3 3 1 2 1) (List.replicate 252 (1 : ℚ)) = .error .indexError := by
  decide +kernel

/-- The 4 x 2 lattice with two holes and three down spins. -/
example : HolesInOrder SetSem.cpython (rectConf 4 2 1 2 3) :=
  (C81_in_order_iff _ (by unfold Config.Full; decide +kernel) (by decide +kernel)).2 (Or.inr (by decide +kernel))

/-- The 4 x 4 lattice with two holes. -/
example : ¬ HolesInOrder SetSem.cpython (rectConf 4 4 1 2 7) := by
  rw [C81_in_order_iff _ (by unfold Config.Full; decide +kernel) (by decide +kernel)]
  decide +kernel

/-- The 6 x 6 lattice with five holes, and with nineteen. -/
example : ¬ HolesInOrder SetSem.cpython (rectConf 6 6 1 5 7) ∧ HolesInOrder SetSem.cpython (rectConf 6 6 1 19 7) := by
  rw [C81_in_order_small _ (by unfold Config.Full; decide +kernel) (by decide +kernel) (by decide +kernel),
    C81_in_order_small _ (by unfold Config.Full; decide +kernel) (by decide +kernel) (by decide +kernel)]
  decide +kernel

example : SetSem.cpython.ofList [5, 3, 7, 0] = [0, 3, 5, 7] ∧ SetSem.cpython.ofList [8, 3, 16, 0] = [8, 16, 3, 0] := by
  decide +kernel

end TJ
