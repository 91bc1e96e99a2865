/-
The density plots of postProcessing.py: what is given to the interpolation and where it is drawn, and the
attributes read before the picture is saved. The interpolation between the sites and the drawing are not modelled.
-/
import Verif.Model.PostProcessing
import Verif.Model.Observables

namespace TJ

section
variable {K : Type} [Field K] [LinearOrder K]

/-- `interp2d(x, y, z)` with `x = range(columns)`, `y = range(rows)` (postProcessing.py 566-570, 661-675), then `pcolormesh`
and `scatter` at the same coordinates: at the point with abscissa `x` and ordinate `y` the picture shows `z[y][x]`. -/
def NdArr.drawnAt (z : NdArr K) (x y : Nat) : K := z.e y x

/-- postProcessing.py 664-671: `z_alpha - z_beta`, entry by entry (`z_alpha[0]` raises `IndexError` without rows). The shapes are
those of `z_alpha`. -/
def chargeArray (zAlpha zBeta : NdArr K) : NdArr K := ⟨zAlpha.rows, zAlpha.cols, fun i j => zAlpha.e i j - zBeta.e i j⟩

/-- postProcessing.py 654-675: the three panels of `save_electron_probability_lattice` for the state number `nbState`; nothing
is drawn (`none`) when there is no such state. -/
def electronPanels (c : Config) (dets : List (List Nat)) (eigvects : List (List K)) (nbState : Nat) :
    Py (Option (NdArr K × NdArr K × NdArr K)) :=
  match eigvects[nbState]? with
  | none => .ok none
  | some v => do
    let a ← probabilityRectangular c dets v 1
    let b ← probabilityRectangular c dets v (-1)
    return some (a, b, chargeArray a b)

/-- postProcessing.py 713, 730: the name of the picture (from `./tJ-HamCsr/` on). -/
def electronFile (nsites nalpha nbeta : Int) (nbState : Nat) : List Char :=
  "tJ-H".toList ++ pyFormat nsites ++ "/SpinDistribution/".toList ++
    (if nbState = 0 then "GroundState".toList else "Excited".toList ++ pyFormat nbState) ++
    "/tJ-H".toList ++ pyFormat nsites ++ pyFormat nalpha ++ pyFormat nbeta ++ ".png".toList

/-- Reading an attribute of a `BoolInteractions` object: the constructor (initialComputations.py 24-41) stores seven of its eight
arguments, `bV_embedding` is not one of them. (The value of `b_spin_multipicities` is not part of `BoolInteractions` here, and it is
not read by these functions.) -/
def BoolInteractions.read (b : BoolInteractions) (name : String) : Py Bool :=
  if name ∈ ["bt", "bz", "bij", "bSD", "btN", "bV"] then .ok (b.attr name) else .error .attributeError

/-- postProcessing.py 595-611: the name of the picture of `save_hole_probability_lattice`. -/
def holeFile (nsites nalpha nbeta : Int) (b : BoolInteractions) : Py (List Char) := do
  let bt ← b.read "bt"
  let bz ← b.read "bz"
  let bij ← b.read "bij"
  let bSD ← b.read "bSD"
  let btN ← b.read "btN"
  let bV ← b.read "bV"
  let bVE ← b.read "bV_embedding"
  return "tJ-H".toList ++ pyFormat nsites ++ "/HolePresenceProbability/tJ-H".toList ++ pyFormat nsites ++ pyFormat nalpha ++ pyFormat nbeta ++
    (if bt && bz && bij && bSD && btN && bV && bVE then "Full.png".toList
     else dirBool.flatMap (fun name =>
        match (extensions ++ [("bV_embedding", "emb")]).lookup name with
        | some ext => if b.attr name then ext.toList else []
        | none => []) ++ ".png".toList)

/-- postProcessing.py 540-588: the panels of `save_hole_probability_lattice` with their cells in the grid. -/
def holePanels (c : Config) (dets : List (List Nat)) (eigvects : List (List K)) (nbSubplots : Nat) : Py (List ((Nat × Nat) × NdArr K)) := do
  let cells ← subplots nbSubplots eigvects.length
  (cells.zip eigvects).mapM (fun p => (probabilityRectangular c dets p.2 0).map (fun z => (p.1, z)))

/-- postProcessing.py 532-626, `save_hole_probability_lattice`: the panels and the name of the picture. -/
def holePicture (c : Config) (dets : List (List Nat)) (eigvects : List (List K)) (nbSubplots : Nat) (b : BoolInteractions) :
    Py (List ((Nat × Nat) × NdArr K) × List Char) := do
  let panels ← holePanels c dets eigvects nbSubplots
  let file ← holeFile c.nsites c.nalpha c.nbeta b
  return (panels, file)

end

end TJ
