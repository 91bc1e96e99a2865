/-
Model of /repo/initialComputations.py 85-139, `perform_initial_computations`: basis, Hamiltonian,
diagonalisation and spin numbers of one configuration.
-/
import Verif.Model.Davidson
import Verif.Model.Embedding
import Verif.Model.Spin
import Verif.Model.IO

namespace TJ

/-- initialComputations.py 58-73, `class Data`; `spinMult` is the attribute `b_spin_multipicities` of the
`BoolInteractions` object. -/
structure Data (K : Type) where
  config : Config
  interactions : Interactions K
  diag : Diagonalization K
  bools : BoolInteractions
  spinMult : Bool

/-- The result of `perform_initial_computations` (initialComputations.py 75-81, 136), without the computation
times; `spins` is the attribute of the eigenstates. -/
structure InitialResult where
  determinants : List (List Nat)
  ham : SpMat ℝ
  eig : DavidsonResult ℝ ham.dim
  spins : List SpinNumber

/-- The columns of the array `initial_guess`, given by rows. An array with a wrong number of rows raises
`ValueError` in `A.dot(krylov_basis)` (davidson.py 260); the model raises at once. -/
def guessColumns {K : Type} [Zero K] (d : Nat) (rows : List (List K)) : Py (List (Fin d → K)) :=
  if rows.length = d then .ok ((List.range (rows.headD []).length).map (fun j i => (rows.getD i []).getD j 0))
  else .error .valueError

/-- The attribute `initial_guess` as an argument of `modified_davidson_algorithm`. -/
def Diagonalization.guessArg {K : Type} [Zero K] (g : Diagonalization K) (d : Nat) : Py (Option (List (Fin d → K))) :=
  match g.guess with
  | none => .ok none
  | some rows => some <$> guessColumns d rows

/-- initialComputations.py 126-130: one spin number per eigenvector, if selected. -/
noncomputable def spinNumbers (S : SetSem) (swap : List ℝ → Bool) (D : Data ℝ) {d : Nat} (vects : List (Fin d → ℝ)) :
    Py (List SpinNumber) :=
  if D.spinMult then vects.mapM (fun v => computeSpinNumber S (swap (List.ofFn v)) D.config (List.ofFn v)) else .ok []

/-- initialComputations.py 85-139, `perform_initial_computations`. `swap v` is the order in which
`np.roots` returns the roots for the vector `v`. -/
noncomputable def performInitial (E : Env) (L : LinAlg ℝ) (swap : List ℝ → Bool) (D : Data ℝ) : Py InitialResult := do
  let dets ← constructBasis D.config
  let ham ← buildHamiltonian E D.config D.interactions dets D.bools [] true
  let guess ← D.diag.guessArg ham.dim
  let r ← modifiedDavidson L ham.toMatrix D.diag.nbVal guess D.diag.stp D.diag.tol D.diag.dimMax
  let spins ← spinNumbers E.toSetSem swap D r.eigvects
  return ⟨dets, ham, r, spins⟩

end TJ
