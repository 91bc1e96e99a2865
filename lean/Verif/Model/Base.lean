/-
Model of /repo/baseConstruction.py, lines 1-405 and 787-951 (configuration, basis,
determinants, collinearity test, rotation, hashing) and of
`get_diagonal_second_neighbors` of /repo/latticeFunctions.py.
-/
import Verif.Model.Lattice
import Mathlib.Algebra.Notation.Defs

namespace TJ

/-- The three values returned by `get_spin_site` (baseConstruction.py 271-289):
`0`, `-1/2`, `1/2`. -/
inductive Occ where
  | hole | down | up
  deriving DecidableEq, Repr, Inhabited

/-- Twice the Python value of `get_spin_site`. -/
def Occ.twice : Occ → Int
  | .hole => 0
  | .down => -1
  | .up => 1

/-- baseConstruction.py 44: the accepted values of `lattice_type`. -/
inductive LatticeType where
  | periodic | clusters | peripheral
  deriving DecidableEq, Repr

/-- baseConstruction.py 11-50, `class Configuration`. Fields derived by `__init__`
(`nsites`, `nalpha`, `nb_conf`, ...) are functions below. `nholes` and `nbeta` are natural
numbers; the only function that checks their sign, `construct_basis`, is modelled for
all ints by `constructBasisInt`. After `__init__`, `sites_restriction` is always a pair. -/
structure Config where
  bond : NdMat
  nholes : Nat
  nbeta : Nat
  restr : List Nat × List Nat
  ltype : LatticeType
  nbh : Nat
  nbv : Nat
  nblocs : Nat

namespace Config

/-- baseConstruction.py 31. -/
def nsites (c : Config) : Nat := c.bond.rows

/-- baseConstruction.py 34; may be negative. -/
def nalpha (c : Config) : Int := (c.nsites : Int) - c.nholes - c.nbeta

/-- baseConstruction.py 37. -/
def nbConf (c : Config) : Nat := computeDimension c.nsites c.nalpha c.nbeta

/-- baseConstruction.py 15-50, `__init__`: normalisation of `sites_restriction`.
(`nholes/nsites` raises `ZeroDivisionError` for an empty lattice.) -/
def init (bond : NdMat) (nholes nbeta : Nat) (restr : RestrArg := .list [])
    (ltype : LatticeType := .periodic) (nbh nbv nblocs : Nat := 0) : Py Config :=
  if bond.rows = 0 then .error .zeroDivisionError
  else
    let r := match restr with
      | .list [] => (List.range bond.rows, List.range bond.rows)
      | .list l => (l, l)
      | .pair a b => (a, b)
    .ok ⟨bond, nholes, nbeta, r, ltype, nbh, nbv, nblocs⟩

end Config

/-! ### Basis -/

/-- `for x in xs: l.remove(x)` (baseConstruction.py 110-111, 118-119, 949-950). -/
def removeAll (l : List Nat) (xs : List Nat) : Py (List Nat) := xs.foldlM (fun l x => pyRemove l x) l

/-- `itertools.combinations(l, r)` for an int `r`: `ValueError` if `r` is negative. -/
def pyCombinations (l : List Nat) (r : Int) : Py (List (List Nat)) :=
  if r < 0 then .error .valueError else .ok (combinations l r.toNat)

/-- baseConstruction.py 85-123, `construct_basis` (the list of determinants), for `nholes` and `nbeta`
any Python ints: 102-103 raise `ValueError` for negative `nholes`; `combinations` (105, 113) has its own test. -/
def constructBasisInt (nsites : Nat) (nholes nbeta : Int) : Py (List (List Nat)) := do
  if nholes < 0 then throw .valueError
  let possibleHoles ← pyCombinations (List.range nsites) nholes
  let perHoles ← possibleHoles.mapM (fun sitesHoles => do
    let sitesElectrons ← removeAll (List.range nsites) sitesHoles
    let possibleBeta ← pyCombinations sitesElectrons nbeta
    possibleBeta.mapM (fun sitesBeta => do
      let sitesAlpha ← removeAll sitesElectrons sitesBeta
      return sitesHoles ++ sitesBeta ++ sitesAlpha))
  return perHoles.flatten

/-- baseConstruction.py 85-123, `construct_basis` for a configuration. -/
def constructBasis (c : Config) : Py (List (List Nat)) := constructBasisInt c.nsites c.nholes c.nbeta

/-! ### Determinants -/

/-- `vect.sort()` on a list of sites (the sorted list is unique, so the algorithm does not
matter). -/
def pySort (l : List Nat) : List Nat := l.insertionSort (· ≤ ·)

/-- `det[0:nholes]`, `det[nholes:nholes+nbeta]`, `det[nholes+nbeta:]`
(baseConstruction.py 193-197, 214-218). -/
def holesOf (c : Config) (det : List Nat) : List Nat := det.take c.nholes
@[inherit_doc holesOf]
def betaOf (c : Config) (det : List Nat) : List Nat := (det.drop c.nholes).take c.nbeta
@[inherit_doc holesOf]
def alphaOf (c : Config) (det : List Nat) : List Nat := det.drop (c.nholes + c.nbeta)

/-- baseConstruction.py 173-199, `get_indexes_of`; `target` selects the component of
`sites_restriction` (`false` = 0, `true` = 1). -/
def getIndexesOf (S : SetSem) (c : Config) (det : List Nat) (spin : Int) (target : Bool := false) :
    Py (List Nat) :=
  let r := if target then c.restr.2 else c.restr.1
  if spin = 0 then .ok (S.inter (holesOf c det) r)
  else if spin = -1 then .ok (S.inter (betaOf c det) r)
  else if spin = 1 then .ok (S.inter (alphaOf c det) r)
  else .error .valueError

/-- baseConstruction.py 201-220, `reorder_basis_element`. -/
def reorder (c : Config) (det : List Nat) : List Nat :=
  pySort (holesOf c det) ++ pySort (betaOf c det) ++ pySort (alphaOf c det)

/-- baseConstruction.py 222-243, `extend_determinant`. -/
def extendDeterminant (S : SetSem) (c1 c2 : Config) (det1 det2 : List Nat) : Py (List Nat) := do
  let h1 ← getIndexesOf S c1 det1 0
  let h2 ← getIndexesOf S c2 det2 0
  let b1 ← getIndexesOf S c1 det1 (-1)
  let b2 ← getIndexesOf S c2 det2 (-1)
  let a1 ← getIndexesOf S c1 det1 1
  let a2 ← getIndexesOf S c2 det2 1
  let n1 := c1.nsites
  return (h1 ++ h2.map (· + n1)) ++ (b1 ++ b2.map (· + n1)) ++ (a1 ++ a2.map (· + n1))

/-- baseConstruction.py 255-264: the configuration built by `reverse_spins`. `nalpha` is
passed as `nbeta`; a negative `nalpha` (no determinant exists then) is truncated to 0. -/
def Config.flip (c : Config) : Config :=
  { c with nbeta := c.nalpha.toNat }

/-- baseConstruction.py 245-266, `reverse_spins`. -/
def reverseSpins (S : SetSem) (c : Config) (det : List Nat) : Py (Config × List Nat) := do
  let h ← getIndexesOf S c det 0
  let a ← getIndexesOf S c det 1
  let b ← getIndexesOf S c det (-1)
  return (c.flip, reorder c.flip (h ++ a ++ b))

/-- baseConstruction.py 137-149, `reverse_spins_basis`. -/
def reverseSpinsBasis (S : SetSem) (c : Config) (dets : List (List Nat)) :
    Py (Config × List (List Nat)) := do
  let d0 ← pyGet dets 0
  let r0 ← reverseSpins S c d0
  let ds ← dets.mapM (fun det => do
    let r ← reverseSpins S c det
    return r.2)
  return (r0.1, ds)

/-- baseConstruction.py 271-289, `get_spin_site`. -/
def getSpinSite (c : Config) (det : List Nat) (site : Nat) : Py Occ := do
  let i ← pyIndex det site
  if i < c.nholes then return .hole
  else if i < c.nholes + c.nbeta then return .down
  else return .up

/-! ### Collinearity test -/

/-- Interpreter and library behaviour that is not determined by the source: set
iteration order, and the outcome of the relabelling search of `is_bond_linear` for
lattices of type 'clusters' (baseConstruction.py 365-399): `transferIsOne C P row col`
says whether `round(transfer_matrix[row, col], 10) == 1` at the end of the search for the
bond matrices `C` (clusters) and `P` (periodic). The search itself is modelled in
`Verif/Model/Clusters.lean`. -/
structure Env extends SetSem where
  transferIsOne : NdMat → NdMat → Nat → Nat → Bool

/-- baseConstruction.py 303-318: checks of `is_bond_linear` and determination of
(site_1, site_2, site_3), site_2 being the middle one. Out-of-range sites raise
`IndexError` (numpy). -/
def linearPrologue (bond : NdMat) (s1 s2 s3 : Nat) : Py (Nat × Nat × Nat) :=
  if s1 = s2 ∨ s1 = s3 ∨ s2 = s3 then .error .valueError
  else if ¬ (s1 < bond.rows ∧ s2 < bond.rows ∧ s3 < bond.rows) then .error .indexError
  else if bond.e s1 s2 = 0 ∧ bond.e s1 s3 = 0 then .error .valueError
  else if bond.e s1 s2 = 0 ∧ bond.e s2 s3 = 0 then .error .valueError
  else if bond.e s1 s3 = 0 ∧ bond.e s2 s3 = 0 then .error .valueError
  else
    let sites := [s1, s2, s3]
    match sites.filter (fun s => (sites.map (fun o => bond.e s o)).sum = 2) with
    | [] => .error .indexError
    | m :: _ =>
      match sites.filter (fun s => s ≠ m) with
      | [a, b] => .ok (min a b, m, max a b)
      | _ => .error .valueError

/-- `abs(a - b)` on sites. -/
def absDiff (a b : Nat) : Nat := (a - b) + (b - a)

/-- baseConstruction.py 303-325: `is_bond_linear` for `lattice_type == 'periodic'`. -/
def isBondLinearPeriodic (bond : NdMat) (s1 s2 s3 : Nat) : Py Bool := do
  let p ← linearPrologue bond s1 s2 s3
  return decide (absDiff p.2.2 p.2.1 = absDiff p.2.1 p.1)

/-- baseConstruction.py 343-344, 349-350: the last site is on the lower or upper border. -/
def onLowerOrUpper (nsites w h s3 : Nat) : Bool :=
  decide ((nsites ≤ s3 ∧ s3 < nsites + w) ∨ (nsites + (w + h) ≤ s3 ∧ s3 < nsites + (2 * w + h)))

/-- baseConstruction.py 291-405, `is_bond_linear`. -/
def isBondLinear (E : Env) (c : Config) (s1 s2 s3 : Nat) : Py Bool :=
  match c.ltype with
  | .periodic => isBondLinearPeriodic c.bond s1 s2 s3
  | .peripheral => do
    let p ← linearPrologue c.bond s1 s2 s3
    let site1 := p.1
    let site2 := p.2.1
    let site3 := p.2.2
    let nsites := c.nbh * c.nbv * (c.nblocs ^ 2)
    if site1 < nsites ∧ site2 < nsites ∧ site3 < nsites then do
      let P ← buildRectangularBondMatrix c.nbh c.nbv c.nblocs
      isBondLinearPeriodic P site1 site2 site3
    else if nsites ≤ site1 ∧ nsites ≤ site2 ∧ nsites ≤ site3 then return true
    else if ([site1, site2, site3].filter (fun s => nsites ≤ s)).length = 2 then return false
    else
      let vertical := onLowerOrUpper nsites (c.nbh * c.nblocs) (c.nbv * c.nblocs) site3
      if absDiff site2 site1 = 1 then return !vertical
      else return vertical
  | .clusters => do
    let p ← linearPrologue c.bond s1 s2 s3
    let P ← buildRectangularBondMatrix c.nbh c.nbv c.nblocs
    let find := fun (s : Nat) =>
      pyGet ((List.range c.nsites).filter (fun row => E.transferIsOne c.bond P row s)) 0
    let n1 ← find p.1
    let n2 ← find p.2.1
    let n3 ← find p.2.2
    isBondLinearPeriodic P n1 n2 n3

/-- latticeFunctions.py 291-312, `get_diagonal_second_neighbors`. -/
def getDiagonalSecondNeighbors (E : Env) (c : Config) (site : Nat) : Py (List Nat) := do
  let neighbors ← getNeighbors E.toSetSem site c.bond (.list [])
  let non2 := site :: neighbors
  let diag ← neighbors.foldlM (fun (diag : List Nat) neigh => do
    let nn ← getNeighbors E.toSetSem neigh c.bond (.pair c.restr.1 c.restr.2)
    (E.diff nn non2).foldlM (fun (diag : List Nat) s => do
      if s ∉ diag then
        let lin ← isBondLinear E c site neigh s
        if lin then return diag else return diag ++ [s]
      else return diag) diag) []
  return E.ofList diag

/-! ### Symmetry -/

/-- baseConstruction.py 805-806, 810-811: the site arithmetic of `rotate_determinant`
for one and three quarter turns (Python ints, hence `Int`: on non-square lattices the
result can be negative). -/
def rot1 (w h : Nat) (site : Nat) : Int :=
  (w : Int) * ((h : Int) - 1 - (site % w : Nat)) + (site / w : Nat)
@[inherit_doc rot1]
def rot3 (w h : Nat) (site : Nat) : Int :=
  ((site % w : Nat) : Int) * (h : Int) + (w : Int) - 1 - (site / w : Nat)

/-- `vect.sort()` on Python ints. -/
def pySortInt (l : List Int) : List Int := l.insertionSort (· ≤ ·)

/-- `reorder_basis_element` on a list of Python ints. -/
def reorderInt (c : Config) (det : List Int) : List Int :=
  pySortInt (det.take c.nholes) ++ pySortInt ((det.drop c.nholes).take c.nbeta)
    ++ pySortInt (det.drop (c.nholes + c.nbeta))

/-- baseConstruction.py 789-814, `rotate_determinant` (`nb_rot` any Python int, `%` is
the Python modulo). `site % 0` would raise `ZeroDivisionError` in Python; the model is
used with `nbh * nblocs_side ≥ 1`. -/
def rotateDeterminant (nbRot : Int) (c : Config) (det : List Nat) : List Int :=
  let w := c.nbh * c.nblocs
  let h := c.nbv * c.nblocs
  let nsites := c.nbh * c.nbv * (c.nblocs ^ 2)
  if nbRot.emod 4 = 1 then reorderInt c (det.map (rot1 w h))
  else if nbRot.emod 4 = 2 then reorderInt c (det.map (fun (site : Nat) => (nsites : Int) - 1 - (site : Int)))
  else if nbRot.emod 4 = 3 then reorderInt c (det.map (rot3 w h))
  else det.map (fun (s : Nat) => (s : Int))

/-! ### Hashing -/

/-- baseConstruction.py 819-830, `project_hash`. -/
def projectHash (listH listB : List Nat) : List Nat :=
  listB.map (fun b => (listH.map (fun h => if h ≤ b then 1 else 0)).sum)

/-- baseConstruction.py 832-856, `get_distance_hash`; the two nested loops over `ind_i`,
`ind_j` walk through consecutive elements of `list_b1`. -/
def getDistanceHash (nsites : Nat) (listH listB : List Nat) : Nat :=
  if listB = [] then 0
  else
    let nbeta := listB.length
    let listBh := projectHash listH listB
    let listB1 : List Int := List.zipWith (fun (b bh : Nat) => (b : Int) - (bh : Int)) listB listBh
    let free : Int := (nsites : Int) - listH.length
    let d0 := ((rangeInt 0 (listB1.getD 0 0)).map
      (fun ind => pyComb (free - ind - 1) ((nbeta : Int) - 1))).sum
    let d1 := ((List.range' 1 (nbeta - 1)).map (fun i =>
      ((rangeInt (listB1.getD (i - 1) 0 + 1) (listB1.getD i 0)).map
        (fun j => pyComb (free - j - 1) ((nbeta : Int) - i - 1))).sum)).sum
    d0 + d1

/-- baseConstruction.py 858-875, `compute_hash_table`. -/
def computeHashTable (c : Config) (det : List Nat) : Nat :=
  let listH := holesOf c det
  let listB := betaOf c det
  getDistanceHash c.nsites [] listH * pyComb ((c.nsites : Int) - c.nholes) c.nbeta
    + getDistanceHash c.nsites listH listB

/-- baseConstruction.py 125-135, `get_index_in_basis`. -/
def getIndexInBasis (c : Config) (det : List Nat) : Nat := computeHashTable c (reorder c det)

/-- baseConstruction.py 901-902: the inner `while nsites + rank - list_b[rank] == 0`
of `get_target_hash`. Python's negative `rank` is represented by the number
`p = len(list_b) + rank + 1` of elements up to and including position `rank`;
`p = 0` means that `list_b[rank]` raises `IndexError`. Returns the position. -/
def findRank (nsites : Nat) (listB : List Nat) : Nat → Py Nat
  | 0 => .error .indexError
  | p + 1 =>
    match listB[p]? with
    | none => .error .indexError
    | some x =>
      if (nsites : Int) + ((p : Int) - listB.length) - x = 0 then findRank nsites listB p
      else .ok p

/-- baseConstruction.py 904-905: `for ind_j in range(rank+1, 0): list_b[ind_j] =
list_b[ind_j-1] + 1`, i.e. the elements after position `p` become consecutive. -/
def fillAfter (listB : List Nat) (p : Nat) : List Nat :=
  (List.range' (p + 1) (listB.length - (p + 1))).foldl
    (fun l j => l.set j (l.getD (j - 1) 0 + 1)) listB

/-- baseConstruction.py 890-906: the outer `while ind_temp > 0` loop of
`get_target_hash` (`fuel` bounds the number of iterations; `ind` is enough). -/
def targetLoop (nsites : Nat) : Nat → Nat → List Nat → Py (List Nat)
  | _, 0, listB => .ok listB
  | 0, _ + 1, _ => .error .nonTermination
  | fuel + 1, indTemp, listB =>
    let last := listB.length - 1
    let x := listB.getD last 0
    let rest : Int := (nsites : Int) - 1 - x
    if rest > 0 then
      if (indTemp : Int) ≤ rest then .ok (listB.set last (x + indTemp))
      else targetLoop nsites fuel (indTemp - rest.toNat) (listB.set last (nsites - 1))
    else
      match findRank nsites listB listB.length with
      | .error e => .error e
      | .ok p =>
        targetLoop nsites fuel (indTemp - 1) (fillAfter (listB.set p (listB.getD p 0 + 1)) p)

/-- baseConstruction.py 877-907, `get_target_hash`. -/
def getTargetHash (nsites size ind : Nat) : Py (List Nat) :=
  let listB := List.range size
  if size ≠ 0 then targetLoop nsites ind ind listB else .ok listB

/-- baseConstruction.py 909-926, `fusion_hash`. -/
def fusionHash (listH listB : List Nat) : List Nat :=
  listH ++ listB.map (fun b => listH.foldl (fun b h => b + (if h ≤ b then 1 else 0)) b)

/-- baseConstruction.py 928-951, `get_hash_basis`. `ind // 0` raises
`ZeroDivisionError`. -/
def getHashBasis (nholes nalpha nbeta ind : Nat) : Py (List Nat) := do
  let nsites := nholes + nalpha + nbeta
  let m := pyComb ((nsites : Int) - nholes) nbeta
  if m = 0 then .error .zeroDivisionError
  else
    let listH ← getTargetHash nsites nholes (ind / m)
    let listB ← getTargetHash (nsites - nholes) nbeta (ind % m)
    let listHB := fusionHash listH listB
    let listA ← removeAll (List.range nsites) listHB
    return listHB ++ listA

/-- `l[i] = x` on an array, `IndexError` outside. -/
def pySet {α : Type _} (l : List α) (i : Nat) (x : α) : Py (List α) :=
  if i < l.length then .ok (l.set i x) else .error .indexError

/-- baseConstruction.py 151-168, `reverse_spins_vect` on a column vector, given as the
list of its coefficients. -/
def reverseSpinsVect {K : Type _} [Zero K] (S : SetSem) (c : Config) (dets : List (List Nat)) (v : List K) :
    Py (List K) :=
  dets.zipIdx.foldlM (fun (w : List K) p => do
    let r ← reverseSpins S c p.1
    let x ← pyGet v p.2
    pySet w (getIndexInBasis r.1 r.2) x) (List.replicate v.length 0)

end TJ
