/-
Model of the display functions, of the probabilities and of the dominant determinants
(baseConstruction.py 408-785, initialComputations.py 316-336). Vectors are lists of
coefficients in an ordered field; rounding is not modelled.
-/
import Verif.Model.Spin

namespace TJ

/-! ### Display -/

/-- The objects passed as `configuration` to the display functions: some callers pass a
`Basis` (baseConstruction.py 445, 784), which has only the attributes `configuration` and
`determinants` (baseConstruction.py 68-81). -/
inductive PyObj
  | config (c : Config)
  | basis (c : Config) (dets : List (List Nat))

/-- Reading an attribute of class `Configuration` (`nbeta`, `nholes`, `nbh`, ...):
`AttributeError` on a `Basis`. -/
def PyObj.asConfig : PyObj → Py Config
  | .config c => .ok c
  | .basis _ _ => .error .attributeError

/-- baseConstruction.py 422-429, one of the two while loops: `ind_site` runs through
`start, ..., start + number - 1`. -/
def displayLoop (vect : List Nat) (sym : Char) (start number : Nat) (p : List Char) : Py (List Char) :=
  (List.range' start number).foldlM (fun (p : List Char) i => do
    let s ← pyGet vect i
    pySet p s sym) p

/-- baseConstruction.py 410-430, `get_displayable_determinant`. -/
def displayDeterminant (o : PyObj) (vect : List Nat) : Py (List Char) := do
  let c ← o.asConfig
  let p ← displayLoop vect '0' 0 c.nholes (vect.map (fun _ => '+'))
  displayLoop vect '-' c.nholes c.nbeta p

/-- baseConstruction.py 432-446, `get_displayable_basis`: the argument `basis` itself is
passed to `get_displayable_determinant`. -/
def displayBasis (c : Config) (dets : List (List Nat)) : Py (List (List Char)) :=
  dets.mapM (fun det => displayDeterminant (.basis c dets) det)

/-- baseConstruction.py 468-473 and copies: the symbol of a site. -/
def symbol (c : Config) (vect : List Nat) (site : Nat) : Py Char := do
  let s ← getSpinSite c vect site
  if s.twice = 1 then return '↑'
  else if s.twice = -1 then return '↓'
  else return '0'

/-- baseConstruction.py 466-479: a row of sites, left to right, starting at site `first`;
the sites of a row are joined by `--`. The last site is appended separately, with `last`
after it. (`w ≥ 1` in all uses.) -/
def displayRow (c : Config) (vect : List Nat) (first w : Nat) (last : List Char) : Py (List Char) := do
  let cells ← (List.range (w - 1)).mapM (fun x => do
    let ch ← symbol c vect (first + x)
    return [ch, '-', '-'])
  let ch ← symbol c vect (first + w - 1)
  return cells.flatten ++ ch :: last

/-- baseConstruction.py 480-482: the vertical bonds between two rows. -/
def bondRow (w : Nat) : List Char := (List.replicate (w - 1) ['|', ' ', ' ']).flatten ++ ['|', '\n']

/-- baseConstruction.py 448-497, `get_displayable_rectangular_lattice`. The rows are written
from the top (`ind_v` decreasing to 1), then row 0 without a newline. -/
def displayRectangular (o : PyObj) (vect : List Nat) : Py (List Char) := do
  let c ← o.asConfig
  let w := c.nblocs * c.nbh
  let h := c.nblocs * c.nbv
  let upper ← ((List.range' 1 (h - 1)).reverse).mapM (fun y => do
    let row ← displayRow c vect (y * w) w ['\n']
    return row ++ bondRow w)
  let bottom ← displayRow c vect 0 w []
  return upper.flatten ++ bottom

/-- baseConstruction.py 518-532, 543-556, 578-590, 599-613: sites joined by `--`. -/
def displaySites (c : Config) (vect : List Nat) (sites : List Nat) : Py (List Char) := do
  let cells ← sites.mapM (fun s => do
    let ch ← symbol c vect s
    return [ch, '-', '-'])
  return cells.flatten

/-- baseConstruction.py 535-564: a row of the block above the last one, with the sites of the left
and of the right surrounding lattice, and the bonds below it. -/
def displayOuterRow (c : Config) (vect : List Nat) (nsites w y : Nat) : Py (List Char) := do
  let left ← symbol c vect (2 * (c.nbh + c.nbv) * c.nblocs - 1 - y + nsites)
  let row ← displaySites c vect ((List.range (w - 1)).map (fun x => y * c.nblocs * c.nbh + x))
  let final ← symbol c vect (y * c.nblocs * c.nbh + c.nblocs * c.nbh - 1)
  let right ← symbol c vect (y + c.nbh * c.nblocs + nsites)
  return [left, ' ', ' '] ++ row ++ [final, ' ', ' '] ++ [right, '\n'] ++ ['|', ' ', ' '] ++
    (List.replicate w ['|', ' ', ' ']).flatten ++ ['|', '\n']

/-- baseConstruction.py 499-615, `get_displayable_outer_embedding_lattice`. (All index
subtractions are between positive numbers with `nbh`, `nbv`, `nblocs_side` at least 1.) -/
def displayOuter (o : PyObj) (vect : List Nat) : Py (List Char) := do
  let c ← o.asConfig
  let nsites := c.nbh * c.nbv * c.nblocs ^ 2
  let upper ← displaySites c vect
    ((List.range' ((c.nbh + c.nbv) * c.nblocs + 1) ((2 * c.nbh + c.nbv) * c.nblocs - 1 - (c.nbh + c.nbv) * c.nblocs)).reverse.map
      (fun i => nsites + i))
  let upperEnd ← symbol c vect ((c.nbh + c.nbv) * c.nblocs + nsites)
  let rows ← ((List.range' 1 (c.nblocs * c.nbv - 1)).reverse).mapM (displayOuterRow c vect nsites (c.nblocs * c.nbh))
  let left ← symbol c vect (2 * (c.nbh + c.nbv) * c.nblocs - 1 + nsites)
  let row ← displaySites c vect (List.range (c.nblocs * c.nbh - 1))
  let rowEnd ← symbol c vect (c.nblocs * c.nbh - 1)
  let right ← symbol c vect (c.nbh * c.nblocs + nsites)
  let lower ← displaySites c vect ((List.range (c.nbh * c.nblocs - 1)).map (fun i => nsites + i))
  let lowerEnd ← symbol c vect (c.nbh * c.nblocs - 1 + nsites)
  return [' ', ' ', ' '] ++ upper ++ [upperEnd, '\n', '\n'] ++ rows.flatten ++ [left, ' ', ' '] ++ row ++
    [rowEnd, ' ', ' '] ++ [right, '\n', '\n', ' ', ' ', ' '] ++ lower ++ [lowerEnd]

/-- baseConstruction.py 634-648: splitting of a text at newlines, character by character;
the state is (finished lines, current line). -/
def splitLines (text : List Char) : List (List Char) :=
  let st := text.foldl (fun (st : List (List Char) × List Char) ch =>
    if ch ≠ '\n' then (st.1, st.2 ++ [ch]) else (st.1 ++ [st.2], [])) ([], [])
  st.1 ++ [st.2]

/-- baseConstruction.py 617-651, `get_displayable_neighbor`. -/
def displayNeighbor (oA oB : PyObj) (vectA vectB : List Nat) : Py (List Char) := do
  let a ← displayRectangular oA vectA
  let b ← displayRectangular oB vectB
  return (List.zipWith (fun la lb => la ++ [' '] ++ lb ++ ['\n']) (splitLines a) (splitLines b)).flatten

/-! ### Probabilities -/

/-- baseConstruction.py 656-685, `get_probability_spin_lattice`. `np.linalg.norm(vect) ** 2`
is the sum of the squares. (For a zero vector numpy returns `nan`; the model returns
`x / 0`, and the theorems exclude this case.) -/
def probabilitySpin {K : Type} [Field K] [LinearOrder K] (c : Config) (dets : List (List Nat)) (v : List K)
    (spin : Int) (reverse : Bool := false) : Py (List K) :=
  if spin ∉ [-1, 0, 1] then .error .valueError
  else
    let spin := if reverse then - spin else spin
    (List.range c.nsites).mapM (fun site => do
      let p ← dets.zipIdx.foldlM (fun (p : K) (d : List Nat × Nat) => do
        let x ← pyGet v d.2
        let s ← getSpinSite c d.1 site
        return p + |x| ^ 2 * (if s.twice = spin then 1 else 0)) 0
      return p / vdot v v)

/-- baseConstruction.py 688-703, `get_spins_probabilitites_lattice`: a dictionary with the
keys -1, 0, 1. -/
def spinsProbabilities {K : Type} [Field K] [LinearOrder K] (c : Config) (dets : List (List Nat)) (v : List K)
    (reverse : Bool := false) : Py (List (Int × List K)) :=
  [-1, 0, 1].mapM (fun spin => do
    let p ← probabilitySpin c dets v spin reverse
    return (spin, p))

/-- A two-dimensional array of numbers: `rows`, `cols` and the entries. -/
structure NdArr (K : Type) where
  rows : Nat
  cols : Nat
  e : Nat → Nat → K

/-- `A[r, c] = x`, `IndexError` outside the shape. -/
def NdArr.setEntry {K : Type} (A : NdArr K) (r c : Nat) (x : K) : Py (NdArr K) :=
  if r < A.rows ∧ c < A.cols then .ok ⟨A.rows, A.cols, fun i j => if i = r ∧ j = c then x else A.e i j⟩
  else .error .indexError

/-- baseConstruction.py 706-736, `get_probability_spin_rectangular_lattice`. -/
def probabilityRectangular {K : Type} [Field K] [LinearOrder K] (c : Config) (dets : List (List Nat)) (v : List K)
    (spin : Int) : Py (NdArr K) :=
  if spin ∉ [-1, 0, 1] then .error .valueError
  else if c.ltype ≠ .periodic then .error .valueError
  else
    let w := c.nblocs * c.nbh
    let h := c.nblocs * c.nbv
    (List.range h).foldlM (fun (A : NdArr K) y =>
      (List.range w).foldlM (fun (A : NdArr K) x => do
        let p ← probabilitySpin c dets v spin
        let q ← pyGet p (y * c.nblocs * c.nbh + x)
        A.setEntry (h - 1 - y) x (q / vdot v v)) A) ⟨h, w, fun _ _ => 0⟩

/-! ### Dominant determinants -/

/-- `sorted(l, reverse=True)` on numbers. -/
def sortedDesc {K : Type} [LinearOrder K] (l : List K) : List K := l.insertionSort (fun x y => y ≤ x)

/-- baseConstruction.py 739-770, `get_dominant_determinants` (for `ndet ≥ 0`). -/
def dominantDeterminants {K : Type} [Field K] [LinearOrder K] (c : Config) (v : List K) (ndet : Nat) :
    Py (List K × List (List Nat)) := do
  let a := v.map (fun x => |x|)
  let r ← ((sortedDesc a).take (min ndet v.length)).mapM (fun y => do
    let i ← pyIndex a y
    let x ← pyGet v i
    let d ← getHashBasis c.nholes c.nalpha.toNat c.nbeta i
    return (x, d))
  return (r.map Prod.fst, r.map Prod.snd)

/-- baseConstruction.py 772-785, `get_displayable_dominant_determinants`: the argument
`basis` itself is passed to the display function. -/
def displayDominant {K : Type} [Field K] [LinearOrder K] (c : Config) (dets : List (List Nat)) (v : List K) (ndet : Nat) :
    Py (List K × List (List Char)) := do
  let r ← dominantDeterminants c v ndet
  let l ← r.2.mapM (fun det => displayRectangular (.basis c dets) det)
  return (r.1, l)

/-- initialComputations.py 331-332: `while amplitudes[index] != amplitude or index in
indices_memory: index += 1`, with a bound on the number of steps (past the end of the list
`amplitudes[index]` raises `IndexError`). -/
def searchIndex {K : Type} [DecidableEq K] (a : List K) (y : K) (mem : List Nat) : Nat → Nat → Py Nat
  | 0, _ => .error .nonTermination
  | fuel + 1, index =>
    match a[index]? with
    | none => .error .indexError
    | some x => if x ≠ y ∨ index ∈ mem then searchIndex a y mem fuel (index + 1) else .ok index

/-- initialComputations.py 316-336, `get_most_dominant_determinants` (for `nb_det ≥ 0`). The
returned dictionary has the keys (index, coefficient), in insertion order; all keys are
different because all indices are. -/
def mostDominant {K : Type} [Field K] [LinearOrder K] (dets : List (List Nat)) (v : List K) (nbDet : Nat) :
    Py (List ((Nat × K) × List Nat)) := do
  let a := v.map (fun x => |x|)
  let st ← ((a.insertionSort (· ≤ ·)).reverse.take nbDet).foldlM
    (fun (st : List Nat × List ((Nat × K) × List Nat)) y => do
      let i ← searchIndex a y st.1 (a.length + 1) 0
      let x ← pyGet v i
      let d ← pyGet dets i
      return (st.1 ++ [i], st.2 ++ [((i, x), d)])) ([], [])
  return st.2

end TJ
