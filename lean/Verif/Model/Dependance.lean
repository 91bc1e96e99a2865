/-
Model of `plot_spectrum_dependance` (postProcessing.py 181-368): the sweep over t/J and the curves given to the two
figures. The exchanges of ends of curves (lines 248-325) are `reorganise` in Model/PostProcessing. The files and the creation of missing
directories are in Model/DependancePictures. The axes and the legend are not modelled.
-/
import Verif.Model.Initial
import Verif.Model.PostProcessing

namespace TJ

/-- interactions.py 717-740, `compute_spin_multiplicity` of what `compute_spin_number` returns. `None` is given as a string that is
none of the others. -/
noncomputable def SpinNumber.multiplicity : SpinNumber → String
  | .dash => "-"
  | .num s => (computeSpinMultiplicity s).getD "None"

/-- `round(x, 6)` (postProcessing.py 226, 231), in exact arithmetic: nearest multiple of a millionth, ties to even. -/
noncomputable def round6 (x : ℝ) : ℝ := (pyRound (x * 1000000) : ℝ) / 1000000

/-- `np.linspace(a, b, n)[i]`, in exact arithmetic. -/
noncomputable def linspace (a b : ℝ) (n i : Nat) : ℝ := a + (i : ℝ) * ((b - a) / ((n : ℝ) - 1))

/-- postProcessing.py 207-218: the couplings at the ratio `tJ`, which is not 0. `J` is a numpy number, so with a zero coupling `interactions.J` the
divisions give `inf` or `nan` with a warning, which is not modelled: here they end the computation with `zeroDivisionError`, and no property is
claimed for this case. -/
noncomputable def dependanceCouplings (I : Interactions ℝ) (tJ : ℝ) : Py (Interactions ℝ) :=
  let J := |I.t| / tJ
  if I.J = 0 then .error .zeroDivisionError
  else .ok { t := I.t, J := J, Jhpar := I.Jhpar * J / I.J, Jhper := I.Jhper * J / I.J, hSDper := I.hSDper * J / I.J,
             hSDpar := I.hSDpar * J / I.J, tNNN := I.tNNN, tnNNN := I.tnNNN, VNN := I.VNN, VNNNper := I.VNNNper }

/-- postProcessing.py 219-220: the terms of the Hamiltonian without and with extension. -/
def dependanceBools (extended : Bool) : BoolInteractions :=
  { bt := true, bz := true, bij := true, bSD := extended, btN := extended, bV := extended }

/-- postProcessing.py 222-223: the data of the computation at one ratio. -/
def dependanceData (D : Data ℝ) (I : Interactions ℝ) (extended : Bool) : Data ℝ :=
  { D with interactions := I, bools := dependanceBools extended, spinMult := true }

/-- postProcessing.py 225-228 (230-233): the rounded energies, the multiplicities and the degeneracies. -/
structure Levels where
  vals : List ℝ
  mults : List String
  degs : List Nat

/-- postProcessing.py 225-228 (230-233). -/
noncomputable def levelsAt (E : Env) (L : LinAlg ℝ) (swap : List ℝ → Bool) (D : Data ℝ) : Py Levels := do
  let r ← performInitial E L swap D
  let vals := r.eig.eigvals.map round6
  return ⟨vals, r.spins.map SpinNumber.multiplicity, vals.map (fun e => vals.count e)⟩

/-- postProcessing.py 236-238 (240-242): a point added to the curve number `ind`. -/
def appendPoint (curves : List (Curve ℝ)) (p : Levels) (ind : Nat) (e : ℝ) : Py (List (Curve ℝ)) := do
  let row ← pyGet curves ind
  let m ← pyGet p.mults ind
  let d ← pyGet p.degs ind
  pySet curves ind (row ++ [(e, m, d)])

/-- postProcessing.py 235-242: the points of one ratio added to all curves. -/
noncomputable def appendLevels (curves : List (Curve ℝ) × List (Curve ℝ)) (p p' : Levels) : Py (List (Curve ℝ) × List (Curve ℝ)) :=
  ((p.vals.insertionSort (· ≤ ·)).zip (p'.vals.insertionSort (· ≤ ·))).zipIdx.foldlM (fun acc q => do
    let c ← appendPoint acc.1 p q.2 q.1.1
    let c' ← appendPoint acc.2 p' q.2 q.1.2
    return (c, c')) curves

/-- postProcessing.py 206-242: one step of the sweep. `L false`, `L true` are the libraries (with their random numbers) of the two
diagonalisations. -/
noncomputable def dependanceStep (E : Env) (L : Bool → LinAlg ℝ) (swap : List ℝ → Bool) (D : Data ℝ) (tJ : ℝ)
    (curves : List (Curve ℝ) × List (Curve ℝ)) : Py (List (Curve ℝ) × List (Curve ℝ)) := do
  let I ← dependanceCouplings D.interactions tJ
  let p ← levelsAt E (L false) swap (dependanceData D I false)
  let p' ← levelsAt E (L true) swap (dependanceData D I true)
  appendLevels curves p p'

/-- postProcessing.py 195: the ratio number `i`. The code has 1000 ratios; their number is a parameter here. -/
noncomputable def ratio (n i : Nat) : ℝ := linspace (3 / 10) 10 n i

/-- postProcessing.py 197-242: the sweep, up to the ratio number `m` of `n`. -/
noncomputable def dependanceSweep (E : Env) (L : Nat → Bool → LinAlg ℝ) (swap : List ℝ → Bool) (D : Data ℝ) (n m : Nat) :
    Py (List (Curve ℝ) × List (Curve ℝ)) :=
  (List.range m).foldlM (fun acc i => dependanceStep E (L i) swap D (ratio n i) acc)
    (List.replicate D.diag.nbVal [], List.replicate D.diag.nbVal [])

/-- A curve of a figure: ordinates, colour, line style. -/
structure Drawn where
  ys : List ℝ
  colour : Char
  style : String

/-- postProcessing.py 245: `colors_multiplicities[m]`. -/
def colourOf (m : String) : Py Char :=
  if m = "doublet" then .ok 'b' else if m = "quartet" then .ok 'g' else .error .keyError

/-- postProcessing.py 246: `linestyles_multiplicities[d]`. -/
def styleOf (d : Nat) : Py String :=
  if d = 1 then .ok "--" else if d = 2 then .ok "-" else .error .keyError

/-- postProcessing.py 334-335 (352-353): the curves of a figure. `ax.plot` refuses lists of different lengths (`ValueError`). -/
def drawCurves (n nbVal : Nat) (curves : List (Curve ℝ)) : Py (List Drawn) :=
  (List.range nbVal).mapM (fun ind => do
    let c ← pyGet curves ind
    let p ← pyGet c 0
    let colour ← colourOf p.2.1
    let style ← styleOf p.2.2
    if c.length = n then return ⟨c.map (fun q => q.1), colour, style⟩ else .error .valueError)

/-- postProcessing.py 181-368, `plot_spectrum_dependance` with `n` ratios (1000 in the code): the figures that are given to `plt.savefig`, and how
the call ends if the directory of the lattice exists (the files are in `dependancePictures`, Model/DependancePictures). `fuel` bounds the steps of the loops of lines 248-325. -/
noncomputable def plotSpectrumDependance (fuel : Nat) (E : Env) (L : Nat → Bool → LinAlg ℝ) (swap : List ℝ → Bool) (D : Data ℝ) (n : Nat) :
    List (List Drawn) × Py Unit :=
  match (do
    let (c, c') ← dependanceSweep E L swap D n n
    let c ← reorganise fuel c 0
    let c' ← reorganise fuel c' 0
    let fig1 ← drawCurves n D.diag.nbVal c
    return (fig1, c')) with
  | .error e => ([], .error e)
  | .ok (fig1, c') =>
    match drawCurves n D.diag.nbVal c' with
    | .error e => ([fig1], .error e)
    | .ok fig2 => ([fig1, fig2], .ok ())

end TJ
