/-
C54, exact condition: when the results that are loaded are the results that were saved.
-/
import Verif.Props.IO

namespace TJ

section
variable {K : Type} [Field K]

/-- C54. Results on a lattice with at least one site are loaded back with the same Hamiltonian, switches, couplings, determinants,
eigenstates and lattice type exactly if the computing times are there, the arrays of the Hamiltonian fit together and the lattice type is the
default. -/
theorem C54_same_iff (d : DataComputations K) (hn : d.config.nsites ≠ 0) :
    (∃ name v L, saveData d = .ok (name, v) ∧ loadData v = .ok L ∧ L.ham = d.ham ∧ L.bools = d.bools ∧ L.interactions = d.interactions ∧
        L.determinants = d.determinants ∧ L.eigenstates = d.eigenstates ∧ L.config.ltype = d.config.ltype) ↔
      d.times.isSome ∧ CsrShape d.config.nbConf d.ham.data d.ham.indices d.ham.indptr ∧ d.config.ltype = .periodic := by
  constructor
  · rintro ⟨name, v, L, h1, h2, h3, _, _, _, _, h4⟩
    cases ht : d.times with
    | none =>
      unfold saveData at h1
      rw [ht] at h1
      cases h1
    | some t =>
      obtain ⟨name', v', m, g1, _, _, _, g2⟩ := saved_load d t ht hn
      obtain ⟨_, rfl⟩ := Prod.mk.inj (Except.ok.inj (h1.symm.trans g1))
      rw [h2] at g2
      cases hm : csrMatrix d.config.nbConf d.ham with
      | error e =>
        rw [hm] at g2
        cases g2
      | ok M =>
        rw [hm] at g2
        obtain rfl := Except.ok.inj g2
        have h3 : M = d.ham := h3
        have := csrMatrix_ok hm
        rw [h3] at this
        exact ⟨rfl, this, h4.symm⟩
  · rintro ⟨ht, hh, hl⟩
    obtain ⟨t, ht⟩ := Option.isSome_iff_exists.1 ht
    obtain ⟨name, v, L, h1, h2, _, _, _, _, _, _, _, _, l1, _, l2, _, l3, _, l4, l5, _, l6, _⟩ := C54_roundtrip_partial d t ht hn hh
    exact ⟨name, v, L, h1, h2, l5, l3, l2, l4, l6, by rw [l1, hl]⟩

end

/-- On the lattice with a border of `exSaved` the lattice type is lost; with the default type everything is there. -/
example : (¬ ∃ name v L, saveData exSaved = .ok (name, v) ∧ loadData v = .ok L ∧ L.ham = exSaved.ham ∧ L.bools = exSaved.bools ∧
      L.interactions = exSaved.interactions ∧ L.determinants = exSaved.determinants ∧ L.eigenstates = exSaved.eigenstates ∧
      L.config.ltype = exSaved.config.ltype) ∧
    ∃ name v L, saveData { exSaved with config := { exSaved.config with ltype := .periodic } } = .ok (name, v) ∧ loadData v = .ok L ∧
      L.ham = exSaved.ham ∧ L.config.ltype = .periodic := by
  refine ⟨fun h => ?_, ?_⟩
  · have := ((C54_same_iff exSaved (by decide +kernel)).1 h).2.2
    revert this
    decide +kernel
  · obtain ⟨name, v, L, h1, h2, h3, _, _, _, _, h4⟩ := (C54_same_iff { exSaved with config := { exSaved.config with ltype := .periodic } }
      (by decide +kernel)).2 ⟨rfl, exSaved_shape, rfl⟩
    exact ⟨name, v, L, h1, h2, h3, h4⟩

end TJ
