/-
Model of what /repo/main.py executes when it is run, and of `embedding_neel` (/repo/embedding.py) with the files that it reads and writes.
-/
import Verif.Model.Embedding
import Verif.Model.Csr
import Verif.Model.Initial
import Verif.Model.Files
import Verif.Model.Observables

namespace TJ

variable {K : Type}

/-- embedding.py 143, `ham_block.tocoo(copy=True)` for compressed rows of shape `dim` times `dim`: the triples row after row, duplicates and
zeros are kept. -/
def Csr.toCoo (dim : Nat) (M : Csr K) : SpMat K := ⟨dim, (List.range dim).flatMap (fun i => (M.row i).map (fun p => (p.2, i, p.1)))⟩

/-- embedding.py 85, `eigvects[:,[0]]` of a two-dimensional array given by rows. An array without rows has one dimension only, rows of
different lengths do not form an array: both raise here `IndexError`. -/
def firstColumn (rows : List (List K)) : Py (List K) :=
  if rows = [] then .error .indexError else rows.mapM (fun r => pyGet r 0)

/-- `eigvects.tolist()` of an array with `n` rows whose columns are given (embedding.py 314). -/
def rowsOf [Zero K] (n : Nat) (cols : List (List K)) : List (List K) := (List.range n).map (fun i => cols.map (fun v => v.getD i 0))

/-- `a[i, j] = x` on a two-dimensional array given by rows; `IndexError` outside. -/
def setEntry (a : List (List K)) (i j : Nat) (x : K) : Py (List (List K)) :=
  match a[i]? with
  | some row => if j < row.length then .ok (a.set i (row.set j x)) else .error .indexError
  | none => .error .indexError

/-- main.py 454-456, 485-487: an initial guess made of determinants, one per column; the array is given by rows. -/
def guessMatrix [Zero K] [One K] (c : Config) (width : Nat) (guesses : List (List Nat)) : Py (List (List K)) :=
  guesses.zipIdx.foldlM (fun a p => setEntry a (computeHashTable c p.1) p.2 1) (List.replicate c.nbConf (List.replicate width 0))

/-- main.py 447-453: the determinants of the guess for four holes on 16 sites. -/
def guesses16 : List (List Nat) := [
  [0, 2, 12, 14, 1, 3, 4, 6, 9, 11, 5, 7, 8, 10, 13, 15],
  [0, 2, 9, 11, 1, 3, 4, 6, 12, 14, 5, 7, 8, 10, 13, 15],
  [5, 7, 12, 14, 1, 3, 4, 6, 9, 11, 0, 2, 8, 10, 13, 15],
  [1, 3, 13, 15, 4, 6, 9, 11, 12, 14, 0, 2, 5, 7, 8, 10],
  [1, 3, 8, 10, 4, 6, 9, 11, 12, 14, 0, 2, 5, 7, 13, 15],
  [4, 6, 13, 15, 1, 3, 9, 11, 12, 14, 0, 2, 5, 7, 8, 10]]

/-- main.py 478-484: the determinants of the guess for two holes on 18 sites. -/
def guesses18 : List (List Nat) := [
  [4, 13, 1, 3, 5, 7, 9, 11, 15, 17, 0, 2, 6, 8, 10, 12, 14, 16],
  [4, 13, 0, 2, 6, 8, 10, 12, 14, 16, 1, 3, 5, 7, 9, 11, 15, 17],
  [8, 9, 1, 3, 5, 7, 11, 13, 15, 17, 0, 2, 4, 6, 10, 12, 14, 16],
  [8, 9, 0, 2, 4, 6, 10, 12, 14, 16, 1, 3, 5, 7, 11, 13, 15, 17],
  [6, 11, 0, 2, 4, 8, 10, 12, 14, 16, 1, 3, 5, 7, 9, 13, 15, 17],
  [6, 11, 1, 3, 5, 7, 9, 13, 15, 17, 0, 2, 4, 8, 10, 12, 14, 16]]

variable [Field K] [LinearOrder K]

/-- embedding.py 248-262: the object that `embedding_neel` returns. The Hamiltonian is the one that was loaded, there are no spins
(davidson.py 276, 290) and no times. -/
def neelData (D : Data K) (L : Loaded K) (r : NeelResult K) : DataComputations K :=
  ⟨D.config, D.interactions, D.diag, D.bools, D.spinMult, L.determinants, L.ham, ⟨r.eigvals, [], rowsOf L.hamDim r.eigvects⟩, none⟩

/-- embedding.py 19-262, `embedding_neel` with its files: lines 65-85 load the results of the isolated block, the iterations are
`embeddingNeel`, lines 250-251 and 258-259 print the lowest energies of both (which may raise `IndexError`), lines 252 and 261 save.
`solve` stands for `modified_davidson_algorithm`. -/
def neelOnDisk (E : Env) (sqrt : K → K) (solve : Solver K) (fuel : Nat) (fs : FileSys K) (D : Data K) (tol : K) (maxIter : Nat) :
    FileSys K × Except IoErr (DataComputations K) :=
  match fs.load (loadName D.config.nsites D.config.nalpha D.config.nbeta D.bools) with
  | .error e => (fs, .error e)
  | .ok L =>
    match (do
      let gs ← firstColumn L.eigenstates.eigvects
      let r ← embeddingNeel E sqrt solve fuel D.interactions D.config L.determinants (L.ham.toCoo L.hamDim) [gs] tol maxIter
      let _ ← pyGet L.eigenstates.eigvals 0
      let _ ← pyGet r.eigvals 0
      return r : Py (NeelResult K)) with
    | .error e => (fs, .error (.py e))
    | .ok r =>
      match savePeripheral fs (neelData D L r) with
      | (fs, .ok ()) => (fs, .ok (neelData D L r))
      | (fs, .error e) => (fs, .error e)

/-- What main.py prints at the end: the two energies of line 534, and for each of the most dominant determinants its position, its
coefficient and the picture of the lattice (lines 535-537). -/
structure MainReport (K : Type) where
  isolated : K
  embedded : K
  dominant : List ((Nat × K) × List Char)
  deriving DecidableEq

/-- main.py 534-537. Both energies are `H1888.eigenstates.eigvals[0]`. -/
def mainReport (c : Config) (H : DataComputations K) (nbDet : Nat) : Py (MainReport K) := do
  let isolated ← pyGet H.eigenstates.eigvals 0
  let embedded ← pyGet H.eigenstates.eigvals 0
  let v ← firstColumn H.eigenstates.eigvects
  let dom ← mostDominant H.determinants v nbDet
  let texts ← dom.mapM (fun x => do
    let t ← displayRectangular (.config c) x.2
    return (x.1, t))
  return ⟨isolated, embedded, texts⟩

/-- main.py 504, 533-537: a file is loaded (its content is not used), the block of `D` is embedded, the report is printed. The definitions of
lattices, guesses and interactions above have no other effect, since each group of names is overwritten by the next one and none of the
initial guesses is handed on. -/
def mainRun (E : Env) (sqrt : K → K) (solve : Solver K) (fuel : Nat) (fs : FileSys K) (name : List Char) (D : Data K) (tol : K) (maxIter nbDet : Nat) :
    FileSys K × Except IoErr (MainReport K) :=
  match fs.load name with
  | .error e => (fs, .error e)
  | .ok _ =>
    match neelOnDisk E sqrt solve fuel fs D tol maxIter with
    | (fs, .error e) => (fs, .error e)
    | (fs, .ok H) =>
      match mainReport D.config H nbDet with
      | .error e => (fs, .error (.py e))
      | .ok rep => (fs, .ok rep)

end TJ
