/-
Model of the spin operators of interactions.py (lines 556-740).

Vectors (`np.array` of shape (n,) or (n, 1)) are the lists of their coefficients, with
coefficients in a field; rounding errors are not modelled.
-/
import Verif.Model.Interactions
import Mathlib.Algebra.Order.Floor.Ring
import Mathlib.Analysis.Real.Sqrt

namespace TJ

/-- `vect[i] += x` on an array, `IndexError` outside. -/
def pyAddAt {K : Type} [Add K] (w : List K) (i : Nat) (x : K) : Py (List K) :=
  match w[i]? with
  | some y => .ok (w.set i (y + x))
  | none => .error .indexError

/-- Sum of two arrays of the same shape. -/
def vadd {K : Type} [Add K] (v w : List K) : List K := List.zipWith (· + ·) v w

/-- `np.dot(v.T, w)`. -/
def vdot {K : Type} [Add K] [Mul K] [Zero K] (v w : List K) : K := (List.zipWith (· * ·) v w).sum

/-- interactions.py 558-574, `compute_spin_z`. -/
def computeSpinZ {K : Type} [Field K] (c : Config) (v : List K) : K × List K :=
  let sz : K := ((c.nalpha : K) - (c.nbeta : K)) / 2
  (sz, v.map (fun x => sz * x))

/-- interactions.py 576-589, `compute_spins_z_two_bodies_det`. -/
def computeSpinsZTwoBodiesDet {K : Type} [Field K] (c : Config) (det : List Nat) (i j : Nat) : Py K := do
  let a ← getSpinSite c det i
  let b ← getSpinSite c det j
  pure (a.val * b.val)

/-- interactions.py 590-606, `compute_spins_z_two_bodies`. (The reinterpretation
`vect_return.dtype = np.float_` keeps the values of a float array.) -/
def computeSpinsZTwoBodies {K : Type} [Field K] (c : Config) (v : List K) (i j : Nat) : Py (List K) :=
  (List.range c.nbConf).foldlM (fun (w : List K) ind => do
    let x ← pyGet v ind
    let det ← getHashBasis c.nholes c.nalpha.toNat c.nbeta ind
    let s ← computeSpinsZTwoBodiesDet c det i j
    pySet w ind (x * s)) v

/-- interactions.py 608-637, `compute_S_plus_S_minus_det`; `none` is Python's `None`. The
hole sites are returned in the iteration order of the set. -/
def sPlusSMinusDet (S : SetSem) (c : Config) (det : List Nat) (sitePlus siteMinus : Nat) : Py (Option (List Nat)) := do
  let alpha ← getIndexesOf S c det 1
  let beta ← getIndexesOf S c det (-1)
  if sitePlus ∈ beta then
    if siteMinus ∈ alpha then do
      let alpha ← pyRemove alpha siteMinus
      let alpha := alpha ++ [sitePlus]
      let beta ← pyRemove beta sitePlus
      let beta := beta ++ [siteMinus]
      let holes ← getIndexesOf S c det 0
      pure (some (holes ++ pySort beta ++ pySort alpha))
    else pure none
  else pure none

/-- interactions.py 652-655, the body of the loop of `compute_S_plus_S_minus`; `if det:` is
false for `None` and for the empty list. -/
def sPlusSMinusStep {K : Type} [Add K] (S : SetSem) (c : Config) (v : List K) (sitePlus siteMinus : Nat)
    (w : List K) (ind : Nat) : Py (List K) := do
  let det ← getHashBasis c.nholes c.nalpha.toNat c.nbeta ind
  let r ← sPlusSMinusDet S c det sitePlus siteMinus
  match r with
  | none => pure w
  | some [] => pure w
  | some d => do
    let x ← pyGet v ind
    pyAddAt w (computeHashTable c d) x

/-- interactions.py 639-656, `compute_S_plus_S_minus`. -/
def sPlusSMinus {K : Type} [Add K] [Zero K] (S : SetSem) (c : Config) (v : List K) (sitePlus siteMinus : Nat) : Py (List K) :=
  (List.range c.nbConf).foldlM (sPlusSMinusStep S c v sitePlus siteMinus) (List.replicate v.length 0)

/-- interactions.py 671, the diagonal factor of `compute_S2`. -/
def s2Diag (K : Type) [Field K] (c : Config) : K :=
  let a : K := (c.nalpha : K)
  let b : K := (c.nbeta : K)
  (3 / 4) * (a + b) + (a * (a - 1) / 2 + b * (b - 1) / 2 - a * b) / 2

/-- interactions.py 673-674, the pairs (site_0, site_1) of the two loops of `compute_S2`. -/
def sitePairs (n : Nat) : List (Nat × Nat) :=
  ((List.range (n - 1)).map (fun s0 => (List.range' (s0 + 1) (n - (s0 + 1))).map (fun s1 => (s0, s1)))).flatten

/-- interactions.py 658-676, `compute_S2`. -/
def computeS2 {K : Type} [Field K] (S : SetSem) (c : Config) (v : List K) : Py (List K) :=
  (sitePairs c.nsites).foldlM (fun (w : List K) p => do
    let x ← sPlusSMinus S c v p.1 p.2
    let y ← sPlusSMinus S c v p.2 p.1
    pure (vadd w (vadd x y))) (v.map (fun x => s2Diag K c * x))

/-- interactions.py 678-694, `compute_S2_exp_val`; the norm is only used squared, or
compared with zero, so it is represented by its square. -/
def computeS2ExpVal {K : Type} [Field K] [DecidableEq K] (S : SetSem) (c : Config) (v : List K) : Py K :=
  let n2 := vdot v v
  if n2 ≠ 0 then do
    let w ← computeS2 S c v
    pure (vdot v w / n2)
  else .ok 0

/-- Python's `round(x, 0)`: nearest integer, ties to even. -/
noncomputable def pyRound (x : ℝ) : ℤ :=
  if Int.fract x < 1 / 2 then ⌊x⌋
  else if 1 / 2 < Int.fract x then ⌊x⌋ + 1
  else if Even ⌊x⌋ then ⌊x⌋ else ⌊x⌋ + 1

/-- A number or the string "-". -/
inductive SpinNumber
  | dash
  | num (s : ℝ)

/-- interactions.py 708-713: `np.roots([1, 1, -x])` and the choice of a root. numpy does
not specify the order of the roots: `swap` selects one of the two orders. Complex roots
cannot be compared with 0 (`TypeError`). -/
noncomputable def rootRounded (swap : Bool) (x : ℝ) : Py ℝ :=
  if 1 + 4 * x < 0 then .error .typeError
  else
    let r := (-1 + Real.sqrt (1 + 4 * x)) / 2
    let r' := (-1 - Real.sqrt (1 + 4 * x)) / 2
    let s1 := if swap then r' else r
    let s2 := if swap then r else r'
    if 0 ≤ s1 then .ok ((pyRound (2 * s1) : ℝ) / 2) else .ok ((pyRound (2 * s2) : ℝ) / 2)

/-- interactions.py 696-715, `compute_spin_number`. -/
noncomputable def computeSpinNumber (S : SetSem) (swap : Bool) (c : Config) (v : List ℝ) : Py SpinNumber :=
  match (do let x ← computeS2ExpVal S c v; rootRounded swap x) with
  | .ok s => .ok (.num s)
  | .error .indexError => .ok .dash
  | .error e => .error e

/-- interactions.py 717-740, `compute_spin_multiplicity` of a number; `none` is `None`. -/
def computeSpinMultiplicity {K : Type} [Field K] [LinearOrder K] (s : K) : Option String :=
  let mult := 2 * s + 1
  if mult = 1 then some "singlet"
  else if mult = 2 then some "doublet"
  else if mult = 3 then some "triplet"
  else if mult = 4 then some "quartet"
  else if mult = 5 then some "quintet"
  else if 5 < mult then some "multiplet"
  else none

end TJ
