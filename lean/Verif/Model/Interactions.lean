/-
Model of /repo/interactions.py, lines 1-553 (terms of the Hamiltonian), and of
/repo/hamiltonianConstruction.py. Coefficients live in an arbitrary field `K`.
-/
import Verif.Model.Base
import Mathlib.Algebra.Field.Defs

namespace TJ

/-- interactions.py 13-40, `class Interactions`. -/
structure Interactions (K : Type) where
  t : K
  J : K
  Jhpar : K
  Jhper : K
  hSDpar : K
  hSDper : K
  tNNN : K
  tnNNN : K
  VNN : K
  VNNNper : K

/-- initialComputations.py 20-41, `class BoolInteractions`. -/
structure BoolInteractions where
  bt : Bool
  bz : Bool
  bij : Bool
  bSD : Bool
  btN : Bool
  bV : Bool
  deriving DecidableEq, Repr

/-- The restriction pair of a configuration as an argument of the lattice functions. -/
def Config.restrArg (c : Config) : RestrArg := .pair c.restr.1 c.restr.2

/-! ### Hopping -/

/-- interactions.py 72-73 and 139-141: `temp = copy(det)` with the contents of two
positions exchanged (both code variants write site `b` at the position of `a` and site
`a` at the position of `b`), then `reorder_basis_element`. -/
def swapped (c : Config) (det : List Nat) (a b : Nat) : Py (List Nat) := do
  let i ← pyIndex det a
  let j ← pyIndex det b
  return reorder c ((det.set i b).set j a)

/-- interactions.py 47-75, `compute_hopping_integral`. -/
def computeHopping (S : SetSem) (c : Config) (det : List Nat) : Py (List (List Nat)) :=
  if c.nholes > 0 then do
    let holes ← getIndexesOf S c det 0
    let per ← holes.mapM (fun a => do
      let nbrs ← getNeighbors S a c.bond c.restrArg
      (nbrs.filter (fun b => b ∉ holes)).mapM (fun b => swapped c det a b))
    return per.flatten
  else .ok []

/-- interactions.py 133-146: the loop body for one hole, one neighbour and one electron
next to the neighbour; the state is (visited pairs, collinear images, other images). -/
def nextHopStep (E : Env) (c : Config) (det : List Nat) (a m : Nat)
    (st : List (Nat × Nat) × List (List Nat) × List (List Nat)) (b : Nat) :
    Py (List (Nat × Nat) × List (List Nat) × List (List Nat)) := do
  let _ ← pyIndex det a
  let _ ← pyIndex det b
  if (a, b) ∈ st.1 then return st
  else
    let im ← swapped c det a b
    let lin ← isBondLinear E c b m a
    if lin then return (st.1 ++ [(a, b)], st.2.1 ++ [im], st.2.2)
    else return (st.1 ++ [(a, b)], st.2.1, st.2.2 ++ [im])

/-- interactions.py 101-145, `compute_next_hopping_integral`: (collinear images, other
images). -/
def computeNextHopping (E : Env) (c : Config) (det : List Nat) : Py (List (List Nat) × List (List Nat)) :=
  if c.nholes > 0 then do
    let holes ← getIndexesOf E.toSetSem c det 0
    let st ← holes.foldlM (fun st a => do
      let nbrs ← getNeighbors E.toSetSem a c.bond (.list [])
      nbrs.foldlM (fun st m => do
        let ups ← getIndexesOf E.toSetSem c det 1 true
        let downs ← getIndexesOf E.toSetSem c det (-1) true
        let nn ← getNeighbors E.toSetSem m c.bond c.restrArg
        (E.inter (ups ++ downs) nn).foldlM (nextHopStep E c det a m) st) st)
      (([], [], []) : List (Nat × Nat) × List (List Nat) × List (List Nat))
    return (st.2.1, st.2.2)
  else .ok ([], [])

/-! ### Spin interactions -/

/-- The Python value of `get_spin_site`: 0, -1/2 or 1/2. -/
def Occ.val {K : Type} [Field K] : Occ → K
  | .hole => 0
  | .down => -1 / 2
  | .up => 1 / 2

/-- The three cases of the coupling of a bond (interactions.py 209-224, 277-293): a hole
next to the bond and aligned with it, another hole next to the bond, no hole next to it. -/
inductive BondClass where
  | par | per | undoped
  deriving DecidableEq, Repr

/-- The coupling of a class. -/
def Interactions.coupling {K : Type} (I : Interactions K) : BondClass → K
  | .par => I.Jhpar
  | .per => I.Jhper
  | .undoped => I.J

/-- interactions.py 205-224: class of a bond in `compute_static_spin_interaction`. -/
def staticClass (E : Env) (c : Config) (det : List Nat) (bond : Nat × Nat) : Py BondClass := do
  let ind0 := min bond.1 bond.2
  let ind1 := max bond.1 bond.2
  let nb0 ← getNeighbors E.toSetSem ind0 c.bond (.list [])
  let nb1 ← getNeighbors E.toSetSem ind1 c.bond (.list [])
  let holes ← getIndexesOf E.toSetSem c det 0
  let hole0 := E.inter (nb0.filter (fun s => s ≠ ind1)) holes
  let hole1 := E.inter (nb1.filter (fun s => s ≠ ind0)) holes
  let lins ← (hole0 ++ hole1).mapM (fun h => isBondLinear E c ind1 ind0 h)
  if (hole0 ≠ [] ∨ hole1 ≠ []) ∧ true ∈ lins then return .par
  else if hole0 ≠ [] ∨ (hole1 ≠ [] ∧ true ∉ lins) then return .per
  else return .undoped

/-- interactions.py 200-224: contribution of one bond to `sz` (zero if the bond carries a
hole). `spin_0 * spin_1 != 0` is tested on twice the spins. -/
def staticBond {K : Type} [Field K] (E : Env) (c : Config) (I : Interactions K) (det : List Nat) (bond : Nat × Nat) :
    Py K := do
  let s0 ← getSpinSite c det bond.1
  let s1 ← getSpinSite c det bond.2
  if s0.twice * s1.twice ≠ 0 then
    let cl ← staticClass E c det bond
    return I.coupling cl * (s0.val * s1.val - 1 / 4 * 1)
  else return 0

/-- interactions.py 179-222, `compute_static_spin_interaction`. -/
def computeStatic {K : Type} [Field K] (E : Env) (c : Config) (I : Interactions K) (det : List Nat) : Py K := do
  let bonds ← buildBondList E.toSetSem c.bond c.restrArg
  bonds.foldlM (fun sz bond => do
    let x ← staticBond E c I det bond
    return sz + x) 0

/-- interactions.py 273-293: class of a bond in `compute_spin_flip` (index differences). -/
def flipClass (S : SetSem) (c : Config) (det : List Nat) (bond : Nat × Nat) : Py BondClass := do
  let ind0 := min bond.1 bond.2
  let ind1 := max bond.1 bond.2
  let nb0 ← getNeighbors S ind0 c.bond (.list [])
  let nb1 ← getNeighbors S ind1 c.bond (.list [])
  let holes ← getIndexesOf S c det 0
  let hole0 := S.inter nb0 holes
  let hole1 := S.inter nb1 holes
  if (hole0 ≠ [] ∨ hole1 ≠ []) ∧
      ind1 - ind0 ∈ hole0.map (fun h => absDiff ind0 h) ++ hole1.map (fun h => absDiff ind1 h) then return .par
  else if hole0 ≠ [] ∨ hole1 ≠ [] then return .per
  else return .undoped

/-- interactions.py 266-293: what one bond adds to the lists of images: the class of the
bond and the image, nothing if the spins are not opposite. `spin_0 * spin_1 == -1/4` is
tested on twice the spins. -/
def flipBond (S : SetSem) (c : Config) (det : List Nat) (bond : Nat × Nat) : Py (List (BondClass × List Nat)) := do
  let s0 ← getSpinSite c det bond.1
  let s1 ← getSpinSite c det bond.2
  if s0.twice * s1.twice = -1 then
    let im ← swapped c det bond.1 bond.2
    let cl ← flipClass S c det bond
    return [(cl, im)]
  else return []

/-- interactions.py 245-292, `compute_spin_flip`: (collinear hole, orthogonal hole,
undoped). The three lists are the images of each class in the order of the loop. -/
def computeFlip (S : SetSem) (c : Config) (det : List Nat) :
    Py (List (List Nat) × List (List Nat) × List (List Nat)) := do
  let bonds ← buildBondList S c.bond c.restrArg
  let per ← bonds.mapM (flipBond S c det)
  let of := fun (cl : BondClass) => (per.flatten.filter (fun p => p.1 = cl)).map Prod.snd
  return (of .par, of .per, of .undoped)

/-! ### Singlet displacement -/

/-- interactions.py 364-382: the two images for the hole `a`, the inner electron `m` and
the outer electron `b`, with the answer of the collinearity test. -/
def sdImages (E : Env) (c : Config) (det : List Nat) (a m b : Nat) : Py (Bool × List Nat × List Nat) := do
  let i ← pyIndex det a
  let j ← pyIndex det m
  let k ← pyIndex det b
  let temp1 := ((det.set i b).set j a).set k m
  let temp2 := ((det.set i b).set j m).set k a
  let lin ← isBondLinear E c b m a
  return (lin, reorder c temp1, reorder c temp2)

/-- interactions.py 330-385, `compute_singlet_displacement`: (collinear pairs, other
pairs). `get_indexes_of` is called with `-2 * spin_site`. -/
def computeSD (E : Env) (c : Config) (det : List Nat) :
    Py (List (List Nat × List Nat) × List (List Nat × List Nat)) := do
  let holes ← getIndexesOf E.toSetSem c det 0
  let per ← holes.mapM (fun a => do
    let neigh ← getNeighbors E.toSetSem a c.bond c.restrArg
    let ups ← getIndexesOf E.toSetSem c det 1 true
    let downs ← getIndexesOf E.toSetSem c det (-1) true
    let per ← (E.inter (ups ++ downs) neigh).mapM (fun m => do
      let s ← getSpinSite c det m
      let next ← getNeighbors E.toSetSem m c.bond c.restrArg
      let opp ← getIndexesOf E.toSetSem c det (- s.twice) true
      (E.inter opp next).mapM (fun b => sdImages E c det a m b))
    return per.flatten)
  let l := per.flatten
  return ((l.filter (fun p => p.1)).map Prod.snd, (l.filter (fun p => !p.1)).map Prod.snd)

/-! ### Hole repulsion -/

/-- interactions.py 436-445: the pairs found for each hole (the last one is skipped,
`sites_holes[:-1]`); `sites_holes[ind_hole:]` is the list of the remaining holes
including the current one. Result: numbers of bond pairs and diagonal pairs. -/
def repulsionLoop (E : Env) (c : Config) : List Nat → Py (Nat × Nat)
  | [] => .ok (0, 0)
  | [_] => .ok (0, 0)
  | a :: b :: rest => do
    let nbrs ← getNeighbors E.toSetSem a c.bond c.restrArg
    let diag ← getDiagonalSecondNeighbors E c a
    let tail ← repulsionLoop E c (b :: rest)
    return ((E.inter nbrs (a :: b :: rest)).length + tail.1, (E.inter diag (a :: b :: rest)).length + tail.2)

/-- interactions.py 415-446, `compute_hole_repulsion`. -/
def computeRepulsion {K : Type} [Field K] (E : Env) (c : Config) (I : Interactions K) (det : List Nat) : Py K :=
  if c.nholes > 1 then do
    let holes ← getIndexesOf E.toSetSem c det 0
    let p ← repulsionLoop E c holes
    return (p.1 : K) * I.VNN + (p.2 : K) * I.VNNNper
  else .ok 0

/-- interactions.py 468-481, `compute_energy`. -/
def computeEnergy {K : Type} [Field K] (E : Env) (c : Config) (I : Interactions K) (det : List Nat) : Py K := do
  let x ← computeStatic E c I det
  let y ← computeRepulsion E c I det
  return x + y

/-! ### Dynamic interactions -/

/-- `d[key] = x` if the key is absent, `d[key] += x` otherwise (interactions.py 533-537,
541-552). A dictionary is a list of (key, value) in insertion order. -/
def dictAdd {K : Type} [Add K] (d : List (List Nat × K)) (key : List Nat) (x : K) : List (List Nat × K) :=
  if key ∈ d.map Prod.fst then d.map (fun p => if p.1 = key then (p.1, p.2 + x) else p) else d ++ [(key, x)]

/-- `d.get(key)`. -/
def dictGet {K : Type} (d : List (List Nat × K)) (key : List Nat) : Option K :=
  (d.find? (fun p => p.1 = key)).map Prod.snd

/-- interactions.py 515-529, hamiltonianConstruction.py 57-74: a term is added only if its
switch is on. -/
def selected {α : Type} (on : Bool) (term : Py (List α)) : Py (List α) := if on then term else .ok []

/-- interactions.py 485-553, `compute_dynamic_interactions` (the dictionary; the printing
on lines 521-523 is left out). -/
def computeDynamic {K : Type} [Field K] (E : Env) (c : Config) (I : Interactions K) (b : BoolInteractions)
    (det : List Nat) : Py (List (List Nat × K)) := do
  let e1 ← selected b.bt (computeHopping E.toSetSem c det >>= fun l => pure [(l, I.t)])
  let e2 ← selected b.btN (computeNextHopping E c det >>= fun p => pure [(p.1, I.tnNNN), (p.2, I.tNNN)])
  let e3 ← selected b.bij (computeFlip E.toSetSem c det >>= fun p =>
      pure [(p.1, I.Jhpar), (p.2.1, I.Jhper), (p.2.2, I.J)])
  let e4 ← selected b.bSD (computeSD E c det >>= fun p => pure [(p.1, I.hSDpar), (p.2, I.hSDper)])
  let d := (e1 ++ e2 ++ e3).foldl (fun d (e : List (List Nat) × K) => e.1.foldl (fun d im => dictAdd d im e.2) d) []
  return e4.foldl (fun d (e : List (List Nat × List Nat) × K) =>
    e.1.foldl (fun d im => dictAdd (dictAdd d im.1 e.2) im.2 (- e.2)) d) d

/-! ### Hamiltonian -/

/-- hamiltonianConstruction.py 6-20, `class HamiltonianCOO`: the three lists `data`, `row`,
`col`, always appended together (`add_ham_coo` 81-104), as one list of triples
(value, row, column). -/
abbrev Coo (K : Type) := List (K × Nat × Nat)

/-- A loop `for ind_vect, vect in enumerate(determinants)` whose body appends triples. -/
def forDets {K : Type} (dets : List (List Nat)) (body : Nat → List Nat → Py (Coo K)) : Py (Coo K) := do
  let l ← dets.zipIdx.mapM (fun p => body p.2 p.1)
  return l.flatten

/-- One call of `add_ham_coo(ham, x, row, get_index_in_basis(configuration, im))` per image. -/
def addImages {K : Type} (c : Config) (row : Nat) (x : K) (images : List (List Nat)) : Coo K :=
  images.map (fun im => (x, row, getIndexInBasis c im))

/-- interactions.py 77-98, `add_hopping_integral` (the triples appended to `ham`). -/
def addHopping {K : Type} (S : SetSem) (c : Config) (dets : List (List Nat)) (I : Interactions K) : Py (Coo K) :=
  if c.nholes > 0 then
    forDets dets (fun i det => do
      let images ← computeHopping S c det
      return addImages c i I.t images)
  else .ok []

/-- interactions.py 149-175, `add_next_hopping_integral`. -/
def addNextHopping {K : Type} (E : Env) (c : Config) (dets : List (List Nat)) (I : Interactions K) : Py (Coo K) :=
  if c.nholes > 0 then
    forDets dets (fun i det => do
      let p ← computeNextHopping E c det
      return addImages c i I.tnNNN p.1 ++ addImages c i I.tNNN p.2)
  else .ok []

/-- interactions.py 227-242, `add_static_spin_interaction`. -/
def addStatic {K : Type} [Field K] (E : Env) (c : Config) (dets : List (List Nat)) (I : Interactions K) : Py (Coo K) :=
  forDets dets (fun i det => do
    let sz ← computeStatic E c I det
    return [(sz, i, i)])

/-- interactions.py 296-325, `add_spin_flip`. -/
def addFlip {K : Type} [Field K] (S : SetSem) (c : Config) (dets : List (List Nat)) (I : Interactions K) : Py (Coo K) :=
  forDets dets (fun i det => do
    let p ← computeFlip S c det
    return addImages c i (I.Jhpar / 2) p.1 ++ addImages c i (I.Jhper / 2) p.2.1 ++ addImages c i (I.J / 2) p.2.2)

/-- The two calls of `add_ham_coo` for a pair of images (interactions.py 404-411). -/
def addPairs {K : Type} [Neg K] (c : Config) (row : Nat) (x : K) (images : List (List Nat × List Nat)) : Coo K :=
  images.flatMap (fun im => [(x, row, getIndexInBasis c im.1), (- x, row, getIndexInBasis c im.2)])

/-- interactions.py 385-411, `add_singlet_displacement`. -/
def addSD {K : Type} [Field K] (E : Env) (c : Config) (dets : List (List Nat)) (I : Interactions K) : Py (Coo K) :=
  forDets dets (fun i det => do
    let p ← computeSD E c det
    return addPairs c i I.hSDpar p.1 ++ addPairs c i I.hSDper p.2)

/-- interactions.py 449-463, `add_hole_repulsion`. -/
def addRepulsion {K : Type} [Field K] (E : Env) (c : Config) (dets : List (List Nat)) (I : Interactions K) :
    Py (Coo K) :=
  forDets dets (fun i det => do
    let x ← computeRepulsion E c I det
    return [(x, i, i)])

/-- A scipy sparse matrix: dimension and stored triples. -/
structure SpMat (K : Type) where
  dim : Nat
  coo : Coo K

/-- The entry of a sparse matrix: duplicates are summed by `tocsr`. -/
def SpMat.entry {K : Type} [AddCommMonoid K] (M : SpMat K) (i j : Nat) : K :=
  ((M.coo.filter (fun p => p.2.1 = i ∧ p.2.2 = j)).map (fun p => p.1)).sum

/-- `sp.coo_matrix((data, (row, col)), shape=(dim, dim)).tocsr()`
(hamiltonianConstruction.py 75-77); an index outside the shape raises `ValueError`. -/
def cooMatrix {K : Type} (dim : Nat) (l : Coo K) : Py (SpMat K) :=
  if l.all (fun p => p.2.1 < dim ∧ p.2.2 < dim) then .ok ⟨dim, l⟩ else .error .valueError

/-- hamiltonianConstruction.py 22-77, `build_hamiltonian`. The arguments
`sites_restriction` and `verbose` are kept to show that they are not used; the basis is
given by its determinants (`basis.configuration` is the same configuration in all calls). -/
def buildHamiltonian {K : Type} [Field K] (E : Env) (c : Config) (I : Interactions K) (dets : List (List Nat))
    (b : BoolInteractions) (_sitesRestriction : List Nat := []) (_verbose : Bool := false) : Py (SpMat K) := do
  let dim := computeDimension c.nsites c.nalpha c.nbeta
  let h1 ← selected b.bt (addHopping E.toSetSem c dets I)
  let h2 ← selected b.bz (addStatic E c dets I)
  let h3 ← selected b.bij (addFlip E.toSetSem c dets I)
  let h4 ← selected b.bSD (addSD E c dets I)
  let h5 ← selected b.btN (addNextHopping E c dets I)
  let h6 ← selected b.bV (addRepulsion E c dets I)
  cooMatrix dim (h1 ++ h2 ++ h3 ++ h4 ++ h5 ++ h6)

end TJ
