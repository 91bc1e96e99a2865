/-
Model of the files written and read by /repo/initialComputations.py and /repo/embedding.py. All paths are relative to
`./initialComputations/`.
-/
import Verif.Model.IO
import Verif.Model.PostProcessing

namespace TJ

/-- The exceptions that a function with file access can raise: `OSError` or one of the others. -/
inductive IoErr
  | os
  | py (e : PyErr)
  deriving DecidableEq

variable {K : Type}

/-- The directory `./initialComputations`: whether it exists, its subdirectories, the content of each file (`some none` is an empty
file, `none` no file). Permissions and full disks are not modelled. -/
structure FileSys (K : Type) where
  root : Bool
  dirs : List (List Char)
  file : List Char → Option (Option (PyVal K))

/-- A new content of one file. -/
def FileSys.put (fs : FileSys K) (path : List Char) (x : Option (PyVal K)) : FileSys K :=
  { fs with file := fun p => if p = path then some x else fs.file p }

/-- `with open(dir/path, "w") as savefile: savefile.write(json.dumps(v))`: opening empties the file, before `v` is evaluated and
dumped (initialComputations.py 179-197, embedding.py 299-316, 813-830). A missing directory raises `FileNotFoundError`, an `OSError`. -/
def writeJson (fs : FileSys K) (dirOk : Bool) (path : List Char) (v : Py (PyVal K)) : FileSys K × Except IoErr Unit :=
  if fs.root && dirOk then
    match v with
    | .ok v => (fs.put path (some v), .ok ())
    | .error e => (fs.put path none, .error (.py e))
  else (fs, .error .os)

/-- `os.mkdir` of a subdirectory of `./initialComputations`. -/
def FileSys.mkdir (fs : FileSys K) (dir : List Char) : FileSys K × Except IoErr Unit :=
  if fs.root && !fs.dirs.contains dir then ({ fs with dirs := dir :: fs.dirs }, .ok ()) else (fs, .error .os)

/-- embedding.py 298-336, 812-850: `try` to write; `except OSError` make the directory and write again. -/
def saveIn (fs : FileSys K) (dir path : List Char) (v : Py (PyVal K)) : FileSys K × Except IoErr Unit :=
  match writeJson fs (fs.dirs.contains dir) path v with
  | (fs, .error .os) =>
    match fs.mkdir dir with
    | (fs, .ok ()) => writeJson fs (fs.dirs.contains dir) path v
    | (fs, .error e) => (fs, .error e)
  | r => r

/-- embedding.py 300-316, 814-830: `diagonalization.__dict__` contains the initial guess; `json.dumps` raises `TypeError` on an array. -/
def guessJson (g : Option (List (List K))) : Py (PyVal K) :=
  match g with
  | none => .ok .none
  | some _ => .error .typeError

/-- embedding.py 300-316, 814-830: the saved value; there is no key "times". -/
def embeddingContent [Field K] (d : DataComputations K) : Py (PyVal K) := do
  let guess ← guessJson d.diag.guess
  return .dict [
    ("configuration", d.config.toJson),
    ("interactions", d.interactions.toJson),
    ("diagonalization", .dict [("nb_val", .int d.diag.nbVal), ("stp", .int d.diag.stp), ("tol", .float d.diag.tol),
      ("dim_max", .int d.diag.dimMax), ("initial_guess", guess)]),
    ("bool_interactions", .dict [("bt", .bool d.bools.bt), ("bz", .bool d.bools.bz), ("bij", .bool d.bools.bij),
      ("bSD", .bool d.bools.bSD), ("btN", .bool d.bools.btN), ("bV", .bool d.bools.bV), ("b_spin_multipicities", .bool d.spinMult)]),
    ("determinants", .list (d.determinants.map natList)),
    ("hamiltonian", .dict [("data", .list (d.ham.data.map .float)), ("indices", natList d.ham.indices), ("indptr", natList d.ham.indptr)]),
    ("eigenstates", .dict [("eigvals", .list (d.eigenstates.eigvals.map .float)), ("spins", .list (d.eigenstates.spins.map spinVal)),
      ("eigvects", .list (d.eigenstates.eigvects.map (fun r => .list (r.map .float))))])]

/-- embedding.py 264-339, `save_data_peripheral_embedding`. -/
def savePeripheral [Field K] (fs : FileSys K) (d : DataComputations K) : FileSys K × Except IoErr Unit :=
  saveIn fs "Peripheral_embedding".toList (savedPeripheralFile d.config.nsites d.config.nalpha d.config.nbeta d.bools) (embeddingContent d)

/-- embedding.py 768-849, `save_data_embedding_blocks`. -/
def saveBlocks [Field K] (fs : FileSys K) (d : DataComputations K) (dyn neel neigh : Bool) : FileSys K × Except IoErr Unit :=
  saveIn fs "Embedding_blocks".toList (savedBlocksFile dyn neel neigh d.config.nsites d.config.nalpha d.config.nbeta d.bools) (embeddingContent d)

/-- initialComputations.py 141-197, `save_data` on the file system; the second component is the `DataComputations` object after the
call: its initial guess is gone (line 165). -/
def saveDataFs [Field K] (fs : FileSys K) (d : DataComputations K) : FileSys K × DataComputations K × Except IoErr Unit :=
  let r := writeJson fs true (saveName d.config.nsites d.config.nalpha d.config.nbeta d.bools) ((saveData d).map (·.2))
  (r.1, { d with diag := { d.diag with guess := none } }, r.2)

/-- initialComputations.py 253-262, `load_data` on the file system: a missing file raises `FileNotFoundError`, an empty one
`JSONDecodeError`, a `ValueError`. -/
def FileSys.load (fs : FileSys K) (path : List Char) : Except IoErr (Loaded K) :=
  match fs.file path with
  | none => .error .os
  | some none => .error (.py .valueError)
  | some (some v) => (loadData v).mapError .py

end TJ
