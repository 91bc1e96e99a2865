/-
Model of /repo/initialComputations.py 265-310, `perform_configurations_computations`, with the files it leaves.
-/
import Verif.Model.Initial
import Verif.Model.Files
import Verif.Model.Csr

namespace TJ

/-- A spin number, `none` for the string "-" (interactions.py 715). -/
def SpinNumber.toOption : SpinNumber → Option ℝ
  | .dash => none
  | .num s => some s

/-- What is not determined by the arguments of one run: the library calls, the order of the roots, the sorting of the rows and the
measured times. -/
structure RunLib where
  lin : LinAlg ℝ
  swap : List ℝ → Bool
  srt : List (Nat × ℝ) → List (Nat × ℝ)
  times : Times ℝ

/-- initialComputations.py 132-136: the object returned by `perform_initial_computations`, with the Hamiltonian in compressed rows and
the eigenvectors as a two-dimensional array, by rows. -/
noncomputable def InitialResult.toData (R : RunLib) (D : Data ℝ) (r : InitialResult) : DataComputations ℝ :=
  ⟨D.config, D.interactions, D.diag, D.bools, D.spinMult, r.determinants, r.ham.toCsr R.srt,
    ⟨r.eig.eigvals, r.spins.map SpinNumber.toOption, List.ofFn (fun i => r.eig.eigvects.map (fun v => v i))⟩, some R.times⟩

/-- initialComputations.py 278-313, the loop of `perform_configurations_computations` over the numbers of up spins `as`; `R a` are the
undetermined parts of the run with `a` up spins. The configuration of each turn takes its restriction and its sizes from the one before,
`lattice_type` is not handed on; `data` is changed in place: the configuration in line 292, the initial guess by `save_data` (line 165).
The prints are not modelled. -/
noncomputable def sweepLoop (E : Env) (R : Nat → RunLib) (nsites : Nat) : List Nat → FileSys ℝ → Data ℝ → FileSys ℝ × Except IoErr Unit
  | [], fs, _ => (fs, .ok ())
  | a :: as, fs, D =>
    match Config.init D.config.bond D.config.nholes (nsites - D.config.nholes - a) (.pair D.config.restr.1 D.config.restr.2) .periodic
        D.config.nbh D.config.nbv D.config.nblocs with
    | .error e => (fs, .error (.py e))
    | .ok c =>
      match performInitial E (R a).lin (R a).swap { D with config := c } with
      | .error e => (fs, .error (.py e))
      | .ok r =>
        match saveDataFs fs (r.toData (R a) { D with config := c }) with
        | (fs, d, .ok ()) => sweepLoop E R nsites as fs { D with config := c, diag := d.diag }
        | (fs, _, .error e) => (fs, .error e)

/-- initialComputations.py 265-310, `perform_configurations_computations`. -/
noncomputable def performConfigurations (E : Env) (R : Nat → RunLib) (fs : FileSys ℝ) (D : Data ℝ) : FileSys ℝ × Except IoErr Unit :=
  sweepLoop E R D.config.nsites (List.range (D.config.nsites + 1 - D.config.nholes)) fs D

end TJ
