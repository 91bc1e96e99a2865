/-
Model of `save_phase_space` (postProcessing.py 370-474) with the objects it changes and the pictures it saves.
-/
import Verif.Model.Phase
import Verif.Model.GeneratePlots
import Verif.Model.SmallLattice

namespace TJ

/-- A `Configuration` object (baseConstruction.py 15-50) whose attributes `nalpha` and `nbeta` can be changed after its construction:
`nb_conf` and `spin_number` are computed once by `__init__`. -/
structure ConfigObj where
  config : Config
  nbConf : Nat
  spinNumber : ℚ

/-- baseConstruction.py 31-37. -/
def ConfigObj.new (c : Config) : ConfigObj := ⟨c, c.nbConf, computeMs c.nalpha.toNat c.nbeta⟩

/-- postProcessing.py 403-404: `configuration.nalpha = nalpha`, `configuration.nbeta = nbeta`. The attribute `nalpha` is computed from `nbeta` in
`Config`, with the same value. -/
def ConfigObj.setSpins (o : ConfigObj) (nbeta : Nat) : ConfigObj := { o with config := { o.config with nbeta := nbeta } }

section
variable {K : Type} [Field K]

/-- postProcessing.py 421-422: the points `(iX, iY)` in the order of the loops. -/
def phaseGrid (nbT : Nat) : List (Nat × Nat) := (List.range nbT).flatMap (fun iX => (List.range nbT).map (fun iY => (iX, iY)))

/-- postProcessing.py 421-447: the values at the points, and the object `interactions`, whose attributes are changed at every point
(lines 424-430) before the Hamiltonian is built. -/
def phaseWalk (E : Env) (c : Config) (b : BoolInteractions) (dets : List (List Nat)) (nbState : Nat) :
    List (Nat × Nat) → Interactions K → Interactions K × Py (List (K × K))
  | [], I => (I, .ok [])
  | q :: qs, I =>
    match phasePoint E c I b dets nbState q.1 q.2 with
    | .error e => (phaseCouplings I q.1 q.2, .error e)
    | .ok z =>
      match phaseWalk E c b dets nbState qs (phaseCouplings I q.1 q.2) with
      | (I, .ok zs) => (I, .ok (z :: zs))
      | r => r

/-- `pcolormesh(x, y, Z, shading = 'auto')` (postProcessing.py 451, 460) with `nx` values in `x`, `ny` in `y` and an array of the given shape: the
sizes agree, or both axes have one value more; everything else raises `TypeError`. Before matplotlib 3.5 (`old`) each axis could have one
value more on its own. -/
def meshSizes (old : Bool) (nx ny rows cols : Nat) : Bool :=
  decide (nx = cols ∧ ny = rows) || decide (nx = cols + 1 ∧ ny = rows + 1) ||
    old && decide ((nx = cols ∨ nx = cols + 1) ∧ (ny = rows ∨ ny = rows + 1))

/-- postProcessing.py 418-419, 435-447: `Z[iY, iX]` for the values in the order of the loops, by rows. -/
def phaseRows (nbT : Nat) (z : List K) : List (List K) :=
  (List.range nbT).map (fun iY => (List.range nbT).map (fun iX => z.getD (iX * nbT + iY) 0))

/-- postProcessing.py 449-466: the two panels. Axes, colours and the colour bars are not modelled. -/
def drawPhase (old : Bool) (nbT nbV : Nat) (z : List (K × K)) : Py (Picture K) :=
  if meshSizes old nbV nbT nbT nbT then .ok (.phase (phaseRows nbT (z.map (·.1))) (phaseRows nbT (z.map (·.2)))) else .error .typeError

/-- What `save_phase_space` changes: the two objects of `data` and the files. -/
structure PhaseState (K : Type) where
  obj : ConfigObj
  couplings : Interactions K
  pics : Pictures K

/-- The directory of the phase diagrams. -/
def phaseDir (nsites : Int) : List Char := latticeDir nsites ++ "/PhaseDiagrams".toList

/-- postProcessing.py 400-474: the loop over the numbers of up spins. -/
def phaseRun (old : Bool) (E : Env) (b : BoolInteractions) (nbState nbT nbV : Nat) : List Nat → PhaseState K → PhaseState K × Except IoErr Unit
  | [], s => (s, .ok ())
  | a :: as, s =>
    let o := s.obj.setSpins (s.obj.config.nsites - s.obj.config.nholes - a)
    match constructBasis o.config with
    | .error e => (⟨o, s.couplings, s.pics⟩, .error (.py e))
    | .ok dets =>
      match phaseWalk E o.config b dets nbState (phaseGrid nbT) s.couplings with
      | (I, .error e) => (⟨o, I, s.pics⟩, .error (.py e))
      | (I, .ok z) =>
        match drawPhase old nbT nbV z with
        | .error e => (⟨o, I, s.pics⟩, .error (.py e))
        | .ok x =>
          match s.pics.savefig (phaseDir o.config.nsites) (pictureName o.config.nsites o.config.nalpha o.config.nbeta ".png".toList) x with
          | (p, .error e) => (⟨o, I, p⟩, .error e)
          | (p, .ok ()) => phaseRun old E b nbState nbT nbV as ⟨o, I, p⟩

/-- postProcessing.py 370-474, `save_phase_space`, with its effects. `nb_t = 0` (empty arrays) is not meant. -/
def savePhasePictures (old : Bool) (E : Env) (c : Config) (I : Interactions K) (b : BoolInteractions) (nbState nbT nbV : Nat) (p : Pictures K) :
    PhaseState K × Except IoErr Unit :=
  phaseRun old E b nbState nbT nbV (List.range (c.nsites + 1 - c.nholes)) ⟨.new c, I, p⟩

end

end TJ
