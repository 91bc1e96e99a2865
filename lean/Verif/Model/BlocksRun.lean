/-
Model of `embedding_blocks` (/repo/embedding.py) with the files that it reads and writes.
-/
import Verif.Model.MainRun

namespace TJ

variable {K : Type}

/-- embedding.py 396-406: the file loaded by `embedding_blocks` (relative to `./initialComputations/`), with or without Néel embedding
beforehand. -/
def blocksStart (neel : Bool) (nsites nalpha nbeta : Int) (b : BoolInteractions) : List Char :=
  if neel then "Peripheral_embedding/".toList ++ loadName nsites nalpha nbeta b else loadName nsites nalpha nbeta b

section
variable [Field K] [LinearOrder K]

/-- embedding.py 752: the object that `embedding_blocks` returns. The Hamiltonian is the dressed one, as compressed rows (line 724); there
are no spins (davidson.py 276, 290) and no times. -/
def blocksData (srt : List (Nat × K) → List (Nat × K)) (D : Data K) (L : Loaded K) (r : BlockResult K) : DataComputations K :=
  ⟨D.config, D.interactions, D.diag, D.bools, D.spinMult, L.determinants, r.ham.toCsr srt, ⟨r.eigvals, [], rowsOf L.hamDim r.eigvects⟩, none⟩

/-- embedding.py 341-766, `embedding_blocks` with its files: lines 396-419 load the results of the isolated block or of the Néel embedding,
the iterations are `embeddingBlocks`, line 755 saves after convergence. Without convergence nothing is saved and `None` is returned.
`solver gs` stands for `modified_davidson_algorithm` with the initial guess `gs` (lines 742-744), `srt` for the order of the entries within a row.
-/
def blocksOnDisk (E : Env) (sqrt : K → K) (srt : List (Nat × K) → List (Nat × K)) (solver : List K → Solver K) (fuel : Nat) (fs : FileSys K)
    (D : Data K) (neel : Bool) (o : BlockOptions K) (tol : K) (maxIter : Nat) : FileSys K × Except IoErr (Option (DataComputations K)) :=
  match fs.load (blocksStart neel D.config.nsites D.config.nalpha D.config.nbeta D.bools) with
  | .error e => (fs, .error e)
  | .ok L =>
    match (do
      let gs ← firstColumn L.eigenstates.eigvects
      embeddingBlocks E sqrt (solver gs) fuel D.interactions D.config o L.determinants (L.ham.toCoo L.hamDim) L.eigenstates.eigvals [gs] tol maxIter :
        Py (BlockResult K ⊕ List (BlockStep K))) with
    | .error e => (fs, .error (.py e))
    | .ok (.inr _) => (fs, .ok none)
    | .ok (.inl r) =>
      match saveBlocks fs (blocksData srt D L r) o.dynamic neel o.neighbor with
      | (fs, .ok ()) => (fs, .ok (some (blocksData srt D L r)))
      | (fs, .error e) => (fs, .error e)

end

end TJ
