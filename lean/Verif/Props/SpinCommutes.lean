/-
C38 under the exact condition of C40: wherever `compute_S2` is the total spin operator it commutes with the Hamiltonian.
-/
import Verif.Props.Spin
import Verif.Props.SetOrder

namespace TJ

/-- C38, part: the Hamiltonian commutes with the operator computed by `compute_S2` wherever the latter is the total spin operator, that is
(`C40_total_spin_iff`) for parallel spins and for set orders that list the hole sites increasingly. Missing: other set orders, for which
`compute_S2` is another operator or raises an exception. -/
theorem C38_wherever_right_partial {K : Type} [Field K] [CharZero K] (E : Env) (S : SetSem) (c : Config) (nbh nbv nb : Nat)
    (hc : RectConf c nbh nbv nb) (hf : c.Full) (ho : c.nalpha = 0 ∨ c.nbeta = 0 ∨ HolesInOrder S c) (hn : c.nholes + c.nbeta ≤ c.nsites)
    (I : Interactions K) (B : BoolInteractions)
    (hB : B.bz = B.bij) (r : List Nat) (vb : Bool) (dets : List (List Nat)) (hb : constructBasis c = .ok dets) (H : SpMat K)
    (hH : buildHamiltonian E c I dets B r vb = .ok H) (v : List K) (hv : v.length = dets.length) :
    ∃ w, computeS2 S c v = .ok w ∧ computeS2 S c (matVec H v) = .ok (matVec H w) := by
  obtain ⟨H', h1, h2, _, _⟩ := buildHamiltonian_spec I (hc.tj E) hf hn hb B r vb
  obtain rfl := Except.ok.inj (hH.symm.trans h1)
  have hlen : ∀ u : List K, (matVec H u).length = dets.length := by intro u; simp [matVec, h2]
  have hS := (C40_total_spin_iff (K := K) S c hf hn dets hb).2 ho
  obtain ⟨w, w1, w2, w3⟩ := hS v hv
  obtain ⟨u, u1, u2, u3⟩ := hS (matVec H v) (hlen v)
  refine ⟨w, w1, u1.trans ?_⟩
  congr 1
  apply List.ext_getElem (by rw [u2, hlen])
  intro k hk hk'
  have hk1 : k < dets.length := by omega
  have := C38_conserves_total_spin E c nbh nbv nb hc hf hn I B hB r vb dets hb H hH v w w3 k hk1
  have e1 : u[k] = u.getD k 0 := by simp [List.getD_eq_getElem?_getD, hk]
  have e2 : (matVec H w)[k] = (matVec H w).getD k 0 := by
    rw [List.getD_eq_getElem?_getD, List.getElem?_eq_getElem hk']; rfl
  rw [e1, e2, u3 k hk1, this]

/-- C38, CPython: the condition in numbers. -/
theorem C38_cpython_partial {K : Type} [Field K] [CharZero K] (E : Env) (c : Config) (nbh nbv nb : Nat)
    (hc : RectConf c nbh nbv nb) (hf : c.Full) (ho : c.nalpha = 0 ∨ c.nbeta = 0 ∨ c.nholes ≤ 1 ∨ c.nsites ≤ tableSize c.nholes)
    (hn : c.nholes + c.nbeta ≤ c.nsites) (I : Interactions K) (B : BoolInteractions)
    (hB : B.bz = B.bij) (r : List Nat) (vb : Bool) (dets : List (List Nat)) (hb : constructBasis c = .ok dets) (H : SpMat K)
    (hH : buildHamiltonian E c I dets B r vb = .ok H) (v : List K) (hv : v.length = dets.length) :
    ∃ w, computeS2 SetSem.cpython c v = .ok w ∧ computeS2 SetSem.cpython c (matVec H v) = .ok (matVec H w) :=
  C38_wherever_right_partial E _ c nbh nbv nb hc hf (by rwa [C81_in_order_iff c hf (by omega)]) hn I B hB r vb dets hb H hH v hv

/-- Two holes among parallel spins on 3 x 3 sites, where the hole sites are not listed increasingly; and six sites with two holes. -/
example : ¬ HolesInOrder SetSem.cpython (rectConf 3 3 1 2 0) ∧ (rectConf 3 3 1 2 0).nbeta = 0 ∧
    (rectConf 3 2 1 2 2).nsites ≤ tableSize (rectConf 3 2 1 2 2).nholes := by
  refine ⟨?_, rfl, by decide +kernel⟩
  rw [C81_in_order_iff _ (by unfold Config.Full; decide +kernel) (by decide +kernel)]
  decide +kernel

end TJ
