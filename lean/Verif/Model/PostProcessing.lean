/-
Model of the computations of /repo/postProcessing.py (the drawing itself is not modelled).
-/
import Verif.Model.IO
import Verif.Model.Observables
import Mathlib.Algebra.Order.Floor.Ring
import Mathlib.Data.Nat.Sqrt

namespace TJ

/-! ### Spectrum -/

section
variable {α : Type} [DecidableEq α]

/-- postProcessing.py 499-507: the loop over the energies. `l.remove` cannot fail here; `degeneracy[ind] += 1` may raise
`IndexError` in principle. -/
def degeneracyLoop : Nat → List α → List Nat → Nat → Py (List α × List Nat)
  | 0, _, _, _ => .error .nonTermination
  | fuel + 1, vals, deg, ind =>
    if ind + 1 < vals.length then do
      let rest := vals.drop (ind + 1)
      let v ← pyGet vals ind
      if v ∈ rest then do
        let rest ← pyRemove rest v
        let d ← pyGet deg ind
        let deg ← pySet deg ind (d + 1)
        degeneracyLoop fuel (vals.take (ind + 1) ++ rest) deg ind
      else degeneracyLoop fuel vals deg (ind + 1)
    else .ok (vals, deg)

/-- postProcessing.py 497-508: the levels and their degeneracies. -/
def spectrumLevels (fuel : Nat) (eigvals : List α) : Py (List α × List Nat) := do
  let r ← degeneracyLoop fuel eigvals (eigvals.map (fun _ => 1)) 0
  return (r.1, r.2.take r.1.length)

/-- postProcessing.py 512-515: the segments drawn: number in the row of the level (abscissae `ind + 1` to `ind + 1.5`) and energy. -/
def orbitals (levels : List α × List Nat) : Py (List (Nat × α)) := do
  let l ← levels.1.zipIdx.mapM (fun p => do
    let d ← pyGet levels.2 p.2
    return (List.range d).map (fun ind => (ind + 1, p.1)))
  return l.flatten

end

/-! ### Repartition of the amplitudes -/

section
variable {K : Type} [Field K] [LinearOrder K] [FloorRing K]

/-- `np.arange(start, stop, step)` for a positive step, in exact arithmetic. -/
def arange (start stop step : K) : List K := (List.range ⌈(stop - start) / step⌉.toNat).map (fun (i : Nat) => start + (i : K) * step)

/-- postProcessing.py 779-781, the inner loop: the number of entries passed. -/
def countBelow (x : K) : List K → Nat
  | [] => 0
  | a :: l => if |a| < x then countBelow x l + 1 else 0

/-- postProcessing.py 773-782: the abscissae and ordinates of the curve for one eigenvector. -/
def amplitudeCurve (v : List K) : Py (List K × List Nat) :=
  let vect := (v.map (fun x => |x|)).insertionSort (· ≤ ·)
  match vect.getLast? with
  | none => .error .valueError
  | some m =>
    let x := arange (-(5 / 10000)) (m + 5 / 10000) (1 / 10000)
    .ok (x, x.map (fun x => vect.length - countBelow x vect))

end

/-! ### Grid of subplots -/

/-- postProcessing.py 540-541, 757-758: `nb_plot` and `nb_row`; the square roots of small integers are exact up to the rounding
that `floor` and `int` remove. -/
def subplotGrid (nbSubplots : Nat) : Nat × Nat := (Nat.sqrt nbSubplots ^ 2, Nat.sqrt (Nat.sqrt nbSubplots ^ 2))

/-- `plt.subplots(nb_row, nb_row)` then `ax[i // nb_row, i % nb_row]` for `i` in `range(nb)`: no row is rejected, one row gives a
single object without subscripts (`TypeError`). -/
def subplotCells (nbRow nb : Nat) : Py (List (Nat × Nat)) :=
  if nbRow = 0 then .error .valueError
  else (List.range nb).mapM (fun i =>
    if nbRow = 1 then .error .typeError
    else if i / nbRow < nbRow ∧ i % nbRow < nbRow then .ok (i / nbRow, i % nbRow) else .error .indexError)

/-- postProcessing.py 540-542, 561, 586-588, 757-759, 772, 786-787: the cells used for `nbVect` eigenvectors. -/
def subplots (nbSubplots nbVect : Nat) : Py (List (Nat × Nat)) :=
  subplotCells (subplotGrid nbSubplots).2 (min (subplotGrid nbSubplots).1 nbVect)

/-! ### Determinants with the highest amplitude -/

section
variable {K : Type} [Field K] [LinearOrder K]

/-- postProcessing.py 825-826, 830-831: `highests_det` as the list of its values. -/
def highestsDet (v : List K) (nbDet : Nat) : Py (List Nat) :=
  let gs := v.map (fun x => |x| ^ 2)
  ((gs.insertionSort (· ≤ ·)).reverse.take nbDet).mapM (fun x => pyIndex gs x)

/-- postProcessing.py 840-842: the heights of the bars; `highests_det[ind]` is a dictionary access. -/
def highestCoeffs (v : List K) (nbDet : Nat) : Py (List K) := do
  let h ← highestsDet v nbDet
  (List.range nbDet).mapM (fun ind =>
    match h[ind]? with
    | some i => pyGet (v.map (fun x => |x| ^ 2)) i
    | none => .error .keyError)

end

/-! ### File names -/

/-- embedding.py 794-809 and 813, the file written by `save_data_embedding_blocks` (relative to `./initialComputations/`). -/
def savedBlocksFile (dyn neel neigh : Bool) (nsites nalpha nbeta : Int) (b : BoolInteractions) : List Char :=
  "Embedding_blocks/".toList ++ ("tJHam".toList ++ (if dyn then "-dyn".toList else []) ++ (if neel then "-neel".toList else []) ++
    (if neigh then "-neigh".toList else []) ++ "-".toList ++ pyFormat nsites ++ pyFormat nalpha ++ pyFormat nbeta ++
    (if b.full then "Full.json".toList
     else dirBool.flatMap (fun name =>
        match extensions.lookup name with
        | some ext => ext.toList
        | none => []) ++ ".json".toList))

/-- embedding.py 286-295 and 299, the file written by `save_data_peripheral_embedding` (relative to `./initialComputations/`). -/
def savedPeripheralFile (nsites nalpha nbeta : Int) (b : BoolInteractions) : List Char :=
  "Peripheral_embedding/".toList ++ loadName nsites nalpha nbeta b

/-- postProcessing.py 25-49: the attributes of `InputPlotting` that select files. -/
structure PlotOptions where
  neel : Bool
  stat : Bool
  dyn : Bool
  neigh : Bool

/-- postProcessing.py 86-121: the files (relative to `./initialComputations/`) that `generate_plots_configuration` opens. -/
def plotFiles (c : Config) (b : BoolInteractions) (o : PlotOptions) : List (List Char) :=
  let fileName := "tJHam-".toList ++ pyFormat c.nsites ++ pyFormat c.nalpha ++ pyFormat c.nbeta ++
    (if b.full then "Full.json".toList
     else dirBool.flatMap (fun name =>
        match extensions.lookup name with
        | some ext => if b.attr name then ext.toList else []
        | none => []) ++ ".json".toList)
  let fileNameEmb := "tJHam".toList ++ (if o.dyn then "-dyn".toList else []) ++ (if o.neel then "-neel".toList else []) ++
    (if o.neigh then "-neigh".toList else []) ++ "-".toList ++ pyFormat c.nsites ++ pyFormat c.nalpha ++ pyFormat c.nbeta ++
    (if b.full then "Full.json".toList
     else dirBool.flatMap (fun name =>
        match extensions.lookup name with
        | some ext => ext.toList
        | none => []) ++ ".json".toList)
  [fileName] ++ (if o.neel || o.stat || o.dyn then ["Embedding_blocks/".toList ++ fileNameEmb] else [])

/-- postProcessing.py 154-176, `generate_plots`: the files opened for all numbers of up spins. `nbh`, `nbv`, the sites restriction
and the type of the lattice are not handed on. -/
def plotSweepFiles (c : Config) (b : BoolInteractions) (o : PlotOptions) : Py (List (List (List Char))) :=
  (List.range (c.nsites + 1 - c.nholes)).mapM (fun nalpha => do
    let c' ← Config.init c.bond c.nholes (c.nsites - c.nholes - nalpha)
    return plotFiles c' b o)

/-! ### Spectrum against t/J -/

section
variable {K : Type} [Field K] [LinearOrder K]

/-- One curve: at each abscissa energy, multiplicity (a string) and degeneracy (`spectrums_tJ`, `spin_multiplicities_tJ`,
`degeneracies_tJ` at one index; the three lists always have the same length). -/
abbrev Curve (K : Type) := List (K × String × Nat)

/-- postProcessing.py 253-259: the last abscissa of the constant beginning of a curve. `ind` is the current one. -/
def constantPrefix : Nat → Curve K → Nat → Nat
  | 0, _, ind => ind
  | fuel + 1, c, ind =>
    match c[ind]?, c[ind + 1]? with
    | some p, some q => if p.2 = q.2 then constantPrefix fuel c (ind + 1) else ind
    | _, _ => ind

/-- postProcessing.py 266-267: the test that accepts a partner curve at the abscissa `ind`. The four entries are read first
(Python stops reading at the first difference; this matters only for curves of different lengths). -/
def exchangeable (a b : Curve K) (ind : Nat) : Py Bool := do
  let a0 ← pyGet a ind
  let a1 ← pyGet a (ind + 1)
  let b0 ← pyGet b ind
  let b1 ← pyGet b (ind + 1)
  return decide (a0.2.1 = b1.2.1 ∧ b0.2.1 = a1.2.1 ∧ a0.2.2 = b1.2.2 ∧ b0.2.2 = a1.2.2)

/-- postProcessing.py 263-268: the first partner from `new` on; the number of curves if there is none. -/
def findPartner (curves : List (Curve K)) (a : Curve K) (ind : Nat) : Nat → Nat → Py Nat
  | 0, new => .ok new
  | fuel + 1, new =>
    if new < curves.length then do
      let b ← pyGet curves new
      let e ← exchangeable a b ind
      if e then return new else findPartner curves a ind fuel (new + 1)
    else .ok new

/-- postProcessing.py 275-278: the test before an exchange. As written it asks that the slopes
of both curves vary less before the exchange than after it; `ind - 1` is -1 (the last abscissa) for `ind = 0`, but then
`ind > 1` is false anyway. -/
def sharper (a b : Curve K) (ind : Nat) : Py Bool := do
  let am ← pyGet a (ind - 1)
  let a0 ← pyGet a ind
  let ap ← pyGet a (ind + 1)
  let bm ← pyGet b (ind - 1)
  let b0 ← pyGet b ind
  let bp ← pyGet b (ind + 1)
  return decide (1 < ind ∧ |(|ap.1 - a0.1| - |a0.1 - am.1|)| < |(|bp.1 - a0.1| - |a0.1 - am.1|)| ∧
    |(|bp.1 - b0.1| - |b0.1 - bm.1|)| < |(|ap.1 - b0.1| - |b0.1 - bm.1|)|)

/-- postProcessing.py 248-290 (and 292-325 for the other Hamiltonian): the exchanges of ends of curves. `spectrum` is `ind_spectrum`. -/
def reorganise : Nat → List (Curve K) → Nat → Py (List (Curve K))
  | 0, _, _ => .error .nonTermination
  | fuel + 1, curves, spectrum =>
    if spectrum + 1 < curves.length then do
      let a ← pyGet curves spectrum
      let _ ← pyGet a 0
      let ind := constantPrefix a.length a 0
      if ind + 1 = a.length then reorganise fuel curves (spectrum + 1)
      else do
        let new ← findPartner curves a ind curves.length (spectrum + 1)
        if new < curves.length then do
          let b ← pyGet curves new
          let s ← sharper a b ind
          if s then do
            let curves ← pySet curves spectrum (a.take (ind + 1) ++ b.drop (ind + 1))
            let curves ← pySet curves new (b.take (ind + 1) ++ a.drop (ind + 1))
            reorganise fuel curves spectrum
          else reorganise fuel curves (spectrum + 1)
        else reorganise fuel curves (spectrum + 1)
    else .ok curves

end

end TJ
