/-
Model of /repo/initialComputations.py: file names, saving, loading, the sweep over the spin sectors;
and of the file names of /repo/embedding.py and /repo/postProcessing.py.
-/
import Verif.Model.Interactions
import Mathlib.Algebra.Field.Defs

namespace TJ

/-! ### File names -/

/-- `format` of a Python int: decimal digits, with a sign for negative values. -/
def pyFormat (z : Int) : List Char :=
  if 0 ≤ z then Nat.toDigits 10 z.toNat else '-' :: Nat.toDigits 10 (-z).toNat

/-- The attributes of a `BoolInteractions` object in the order of `dir()`, that is sorted by code point
(initialComputations.py 35-41; the attributes that begin with `__` are no keys of `extensions`). -/
def dirBool : List String := ["bSD", "bV", "b_spin_multipicities", "bij", "bt", "btN", "bz"]

/-- initialComputations.py 172, the dictionary `extensions`. -/
def extensions : List (String × String) := [("bt", "t"), ("bij", "J"), ("bSD", "SD"), ("btN", "tN"), ("bV", "V")]

/-- `getattr(bool_interactions, name)` for the names that are keys of `extensions`. -/
def BoolInteractions.attr (b : BoolInteractions) (name : String) : Bool :=
  if name = "bt" then b.bt else if name = "bij" then b.bij else if name = "bSD" then b.bSD
  else if name = "btN" then b.btN else if name = "bV" then b.bV else false

/-- initialComputations.py 169: `bt and bz and bij and bSD and btN and bV`. -/
def BoolInteractions.full (b : BoolInteractions) : Bool := b.bt && b.bz && b.bij && b.bSD && b.btN && b.bV

/-- initialComputations.py 168-176, the file name of `save_data`; the same code in postProcessing.py 88-97 (`generate_plots_configuration`). -/
def saveName (nsites nalpha nbeta : Int) (b : BoolInteractions) : List Char :=
  "tJHam-".toList ++ pyFormat nsites ++ pyFormat nalpha ++ pyFormat nbeta ++
    (if b.full then "Full.json".toList
     else dirBool.flatMap (fun name =>
        match extensions.lookup name with
        | some ext => if b.attr name then ext.toList else []
        | none => []) ++ ".json".toList)

/-- embedding.py 66-74 (`embedding_neel`), 396-404 (`embedding_blocks`), 287-295
(`save_data_peripheral_embedding`): the value of the attribute is not tested. -/
def loadName (nsites nalpha nbeta : Int) (b : BoolInteractions) : List Char :=
  "tJHam-".toList ++ pyFormat nsites ++ pyFormat nalpha ++ pyFormat nbeta ++
    (if b.full then "Full.json".toList
     else dirBool.flatMap (fun name =>
        match extensions.lookup name with
        | some ext => ext.toList
        | none => []) ++ ".json".toList)

/-! ### Python values and JSON -/

/-- The Python values that occur in a saved file. -/
inductive PyVal (K : Type) where
  | none
  | bool (b : Bool)
  | int (z : Int)
  | float (x : K)
  | str (s : String)
  | list (l : List (PyVal K))
  | tuple (l : List (PyVal K))
  | dict (d : List (String × PyVal K))

variable {K : Type}

mutual
/-- `json.loads(json.dumps(v))`: tuples come back as lists, everything else unchanged (the text format itself
is not modelled; Python prints floats so that they are read back exactly). -/
def jsonRT : PyVal K → PyVal K
  | .none => .none
  | .bool b => .bool b
  | .int z => .int z
  | .float x => .float x
  | .str s => .str s
  | .list l => .list (jsonRTs l)
  | .tuple l => .list (jsonRTs l)
  | .dict d => .dict (jsonRTd d)
@[inherit_doc jsonRT]
def jsonRTs : List (PyVal K) → List (PyVal K)
  | [] => []
  | v :: l => jsonRT v :: jsonRTs l
@[inherit_doc jsonRT]
def jsonRTd : List (String × PyVal K) → List (String × PyVal K)
  | [] => []
  | (k, v) :: l => (k, jsonRT v) :: jsonRTd l
end

/-- `v[key]` of a dictionary. -/
def PyVal.get (v : PyVal K) (key : String) : Py (PyVal K) :=
  match v with
  | .dict d => match d.lookup key with
    | some x => .ok x
    | Option.none => .error .keyError
  | _ => .error .typeError

/-- `key in v.keys()`. -/
def PyVal.hasKey (v : PyVal K) (key : String) : Bool :=
  match v with
  | .dict d => (d.lookup key).isSome
  | _ => false

/-- `f(**v)` for a function with parameters `names`, of which `optional` have defaults: the values of the
parameters that are given. Unexpected and missing arguments raise `TypeError`. -/
def PyVal.kwargs (v : PyVal K) (names optional : List String) : Py (List (String × PyVal K)) :=
  match v with
  | .dict d =>
    if d.all (fun p => names.contains p.1) && names.all (fun n => optional.contains n || (d.lookup n).isSome) then .ok d
    else .error .typeError
  | _ => .error .typeError

/-- Typed views of values. Python does not check types here; a value of another type would raise at its first
use, the model raises at once. -/
def PyVal.asNat : PyVal K → Py Nat
  | .int z => if 0 ≤ z then .ok z.toNat else .error .valueError
  | _ => .error .typeError
@[inherit_doc PyVal.asNat]
def PyVal.asInt : PyVal K → Py Int
  | .int z => .ok z
  | _ => .error .typeError
@[inherit_doc PyVal.asNat]
def PyVal.asFloat : PyVal K → Py K
  | .float x => .ok x
  | _ => .error .typeError
@[inherit_doc PyVal.asNat]
def PyVal.asBool : PyVal K → Py Bool
  | .bool b => .ok b
  | _ => .error .typeError
@[inherit_doc PyVal.asNat]
def PyVal.asList {α : Type} (f : PyVal K → Py α) : PyVal K → Py (List α)
  | .list l => l.mapM f
  | _ => .error .typeError

/-- `d[key]` for the dictionary of keyword arguments. -/
def kwGet (d : List (String × PyVal K)) (key : String) : Py (PyVal K) :=
  match d.lookup key with
  | some x => .ok x
  | none => .error .typeError

/-- `a.tolist()` of a two-dimensional array. -/
def NdMat.tolist (m : NdMat) : PyVal K :=
  .list ((List.range m.rows).map (fun i => .list ((List.range m.cols).map (fun j => .int (m.e i j)))))

/-- `np.array(l)` of a list of lists: rows of different lengths raise `ValueError`. -/
def npArray (l : List (List Int)) : Py NdMat :=
  match l with
  | [] => .ok ⟨0, 0, fun _ _ => 0⟩
  | r :: _ => if l.all (fun r' => r'.length == r.length) then .ok ⟨l.length, r.length, fun i j => (l.getD i []).getD j 0⟩
    else .error .valueError

/-! ### The saved objects -/

/-- The values of `lattice_type` (baseConstruction.py 44). -/
def LatticeType.name : LatticeType → String
  | .periodic => "periodic"
  | .clusters => "clusters"
  | .peripheral => "peripheral"

/-- A list of non-negative integers. -/
def natList (l : List Nat) : PyVal K := .list (l.map (fun (n : Nat) => .int n))

/-- baseConstruction.py 51-59, `__to_json__`: the attributes in the order of their definition in
`__init__`; `bond_matrix` as nested lists; `sites_restriction` is a tuple. -/
def Config.toJson [Field K] (c : Config) : PyVal K := .dict [
  ("bond_matrix", c.bond.tolist),
  ("nsites", .int c.nsites),
  ("nholes", .int c.nholes),
  ("nbeta", .int c.nbeta),
  ("nalpha", .int c.nalpha),
  ("spin_number", .float (((c.nalpha : K) - (c.nbeta : K)) / 2)),
  ("doping", .float ((c.nholes : K) / (c.nsites : K))),
  ("nb_conf", .int c.nbConf),
  ("sites_restriction", .tuple [natList c.restr.1, natList c.restr.2]),
  ("lattice_type", .str c.ltype.name),
  ("nbh", .int c.nbh),
  ("nbv", .int c.nbv),
  ("nblocs_side", .int c.nblocs)]

/-- interactions.py 31-40, `Interactions.__dict__`. -/
def Interactions.toJson (I : Interactions K) : PyVal K := .dict [
  ("t", .float I.t), ("J", .float I.J), ("Jhpar", .float I.Jhpar), ("Jhper", .float I.Jhper), ("hSDpar", .float I.hSDpar),
  ("hSDper", .float I.hSDper), ("tNNN", .float I.tNNN), ("tnNNN", .float I.tnNNN), ("VNN", .float I.VNN),
  ("VNNNper", .float I.VNNNper)]

/-- davidson.py 13-31, `class Diagonalization`; the initial guess as rows. -/
structure Diagonalization (K : Type) where
  nbVal : Nat
  stp : Nat
  tol : K
  dimMax : Nat
  guess : Option (List (List K))

/-- initialComputations.py 43-56, `class Times`. -/
structure Times (K : Type) where
  tbasis : K
  thamiltonian : K
  teigenstates : K

/-- The three arrays of a `csr_matrix`. -/
structure Csr (K : Type) where
  data : List K
  indices : List Nat
  indptr : List Nat

/-- davidson.py 33-46, `class Eigenstates`; the array of eigenvectors by rows. A spin number is a number or the string "-"
(interactions.py 696-715), here `none`. -/
structure Eigenstates (K : Type) where
  eigvals : List K
  spins : List (Option K)
  eigvects : List (List K)

/-- A spin number as a value. -/
def spinVal : Option K → PyVal K
  | none => .str "-"
  | some x => .float x

@[inherit_doc PyVal.asNat]
def PyVal.asSpin : PyVal K → Py (Option K)
  | .str s => if s = "-" then .ok Option.none else .error .typeError
  | .float x => .ok (some x)
  | _ => .error .typeError

/-- initialComputations.py 58-81, `class Data`, `class DataComputations`; `spinMult` is the attribute
`b_spin_multipicities` of the `BoolInteractions` object. -/
structure DataComputations (K : Type) where
  config : Config
  interactions : Interactions K
  diag : Diagonalization K
  bools : BoolInteractions
  spinMult : Bool
  determinants : List (List Nat)
  ham : Csr K
  eigenstates : Eigenstates K
  times : Option (Times K)

/-- initialComputations.py 141-197, `save_data`: the file name and the saved value. `times.__dict__` raises
`AttributeError` for `times = None`. (`initial_guess` is set to `None` before saving.) -/
def saveData [Field K] (d : DataComputations K) : Py (List Char × PyVal K) :=
  match d.times with
  | none => .error .attributeError
  | some times => .ok (saveName d.config.nsites d.config.nalpha d.config.nbeta d.bools, .dict [
    ("configuration", d.config.toJson),
    ("interactions", d.interactions.toJson),
    ("diagonalization", .dict [("nb_val", .int d.diag.nbVal), ("stp", .int d.diag.stp), ("tol", .float d.diag.tol),
      ("dim_max", .int d.diag.dimMax), ("initial_guess", .none)]),
    ("bool_interactions", .dict [("bt", .bool d.bools.bt), ("bz", .bool d.bools.bz), ("bij", .bool d.bools.bij),
      ("bSD", .bool d.bools.bSD), ("btN", .bool d.bools.btN), ("bV", .bool d.bools.bV), ("b_spin_multipicities", .bool d.spinMult)]),
    ("determinants", .list (d.determinants.map natList)),
    ("hamiltonian", .dict [("data", .list (d.ham.data.map .float)), ("indices", natList d.ham.indices), ("indptr", natList d.ham.indptr)]),
    ("eigenstates", .dict [("eigvals", .list (d.eigenstates.eigvals.map .float)), ("spins", .list (d.eigenstates.spins.map spinVal)),
      ("eigvects", .list (d.eigenstates.eigvects.map (fun r => .list (r.map .float))))]),
    ("times", .dict [("tbasis", .float times.tbasis), ("thamiltonian", .float times.thamiltonian), ("teigenstates", .float times.teigenstates)])])

/-- A `Configuration` object after `recover_results`: `sites_restriction` is whatever was in the file. -/
structure LoadedConfig (K : Type) where
  bond : NdMat
  nholes : Nat
  nbeta : Nat
  restr : PyVal K
  ltype : LatticeType
  nbh : Nat
  nbv : Nat
  nblocs : Nat

/-- The result of `recover_results`. -/
structure Loaded (K : Type) where
  config : LoadedConfig K
  interactions : Interactions K
  diag : Diagonalization K
  bools : BoolInteractions
  spinMult : Bool
  determinants : List (List Nat)
  ham : Csr K
  hamDim : Nat
  eigenstates : Eigenstates K
  times : Option (Times K)

/-- `v[key]` if the key is present, else a default. -/
def attrOr {α : Type} (v : PyVal K) (key : String) (f : PyVal K → Py α) (dflt : α) : Py α :=
  if v.hasKey key then v.get key >>= f else .ok dflt

/-- initialComputations.py 218-223: the configuration is built with the default lattice type, then the four
attributes found in the file are set. -/
def recoverConfig (v : PyVal K) : Py (LoadedConfig K) := do
  let rows ← (← v.get "bond_matrix").asList (PyVal.asList PyVal.asInt)
  let bond ← npArray rows
  let nholes ← (← v.get "nholes").asNat
  let nbeta ← (← v.get "nbeta").asNat
  let c ← Config.init bond nholes nbeta
  let restr ← attrOr v "sites_restriction" .ok (.tuple [natList c.restr.1, natList c.restr.2])
  let nbh ← attrOr v "nbh" PyVal.asNat c.nbh
  let nbv ← attrOr v "nbv" PyVal.asNat c.nbv
  let nblocs ← attrOr v "nblocs_side" PyVal.asNat c.nblocs
  return ⟨c.bond, c.nholes, c.nbeta, restr, c.ltype, nbh, nbv, nblocs⟩

/-- `Interactions(**v)`. -/
def recoverInteractions (v : PyVal K) : Py (Interactions K) := do
  let d ← v.kwargs ["t", "J", "Jhpar", "Jhper", "hSDpar", "hSDper", "tNNN", "tnNNN", "VNN", "VNNNper"] []
  return ⟨← (← kwGet d "t").asFloat, ← (← kwGet d "J").asFloat, ← (← kwGet d "Jhpar").asFloat, ← (← kwGet d "Jhper").asFloat,
    ← (← kwGet d "hSDpar").asFloat, ← (← kwGet d "hSDper").asFloat, ← (← kwGet d "tNNN").asFloat, ← (← kwGet d "tnNNN").asFloat,
    ← (← kwGet d "VNN").asFloat, ← (← kwGet d "VNNNper").asFloat⟩

/-- `Diagonalization(**v)`; `initial_guess` is `None` in every saved file. -/
def recoverDiag (v : PyVal K) : Py (Diagonalization K) := do
  let d ← v.kwargs ["nb_val", "stp", "tol", "dim_max", "initial_guess"] ["initial_guess"]
  return ⟨← (← kwGet d "nb_val").asNat, ← (← kwGet d "stp").asNat, ← (← kwGet d "tol").asFloat, ← (← kwGet d "dim_max").asNat, none⟩

/-- `BoolInteractions(**v)`. -/
def recoverBools (v : PyVal K) : Py (BoolInteractions × Bool) := do
  let d ← v.kwargs ["bt", "bz", "bij", "bSD", "btN", "bV", "bV_embedding", "b_spin_multipicities"] ["bV_embedding", "b_spin_multipicities"]
  let m ← attrOr (.dict d) "b_spin_multipicities" PyVal.asBool true
  return (⟨← (← kwGet d "bt").asBool, ← (← kwGet d "bz").asBool, ← (← kwGet d "bij").asBool, ← (← kwGet d "bSD").asBool,
    ← (← kwGet d "btN").asBool, ← (← kwGet d "bV").asBool⟩, m)

/-- `Times(**v)`. -/
def recoverTimes (v : PyVal K) : Py (Times K) := do
  let d ← v.kwargs ["tbasis", "thamiltonian", "teigenstates"] []
  return ⟨← (← kwGet d "tbasis").asFloat, ← (← kwGet d "thamiltonian").asFloat, ← (← kwGet d "teigenstates").asFloat⟩

/-- `f(**v)` for a function with the parameters `names` and `**kwargs`: `TypeError` if an argument is missing. -/
def PyVal.required (v : PyVal K) (names : List String) : Py Unit :=
  if names.all (fun n => v.hasKey n) then .ok () else .error .typeError

/-- initialComputations.py 233-234 and 247-248, `sp.csr_matrix((data, indices, indptr), shape=(dim, dim))`: the checks of the constructor
(`check_format` without the full check), which raise `ValueError`, and its `prune`, which drops what lies behind the last pointer. -/
def csrMatrix (dim : Nat) (M : Csr K) : Py (Csr K) :=
  let n := M.indptr.getD dim 0
  if M.indptr.length = dim + 1 ∧ M.indptr.head? = some 0 ∧ M.indices.length = M.data.length ∧ n ≤ M.indices.length then
    .ok ⟨M.data.take n, M.indices.take n, M.indptr⟩
  else .error .valueError

/-- initialComputations.py 199-250, `recover_results(**v)`. -/
def recoverResults (v : PyVal K) : Py (Loaded K) := do
  v.required ["configuration", "interactions", "diagonalization", "bool_interactions", "determinants", "hamiltonian", "eigenstates"]
  let conf ← v.get "configuration"
  let config ← recoverConfig conf
  let interactions ← recoverInteractions (← v.get "interactions")
  let diag ← recoverDiag (← v.get "diagonalization")
  let bools ← recoverBools (← v.get "bool_interactions")
  let dets ← (← v.get "determinants").asList (PyVal.asList PyVal.asNat)
  let h ← v.get "hamiltonian"
  let data ← (← h.get "data").asList PyVal.asFloat
  let indices ← (← h.get "indices").asList PyVal.asNat
  let indptr ← (← h.get "indptr").asList PyVal.asNat
  let dim ← (← conf.get "nb_conf").asNat
  let ham ← csrMatrix dim ⟨data, indices, indptr⟩
  let e ← v.get "eigenstates"
  let eigvals ← (← e.get "eigvals").asList PyVal.asFloat
  let spins ← (← e.get "spins").asList PyVal.asSpin
  let eigvects ← (← e.get "eigvects").asList (PyVal.asList PyVal.asFloat)
  let times ← attrOr v "times" (fun t => some <$> recoverTimes t) none
  return ⟨config, interactions, diag, bools.1, bools.2, dets, ham, dim, ⟨eigvals, spins, eigvects⟩, times⟩

/-- initialComputations.py 253-262, `load_data` on a file with content `v`. -/
def loadData (v : PyVal K) : Py (Loaded K) := recoverResults (jsonRT v)

/-! ### Use of a loaded configuration -/

/-- `set(v)` for a list or tuple of integers; members that are lists are not hashable. -/
def PyVal.toSet : PyVal K → Py (List Nat)
  | .list l => l.mapM (fun x => match x with
    | .int z => if 0 ≤ z then .ok z.toNat else .error .valueError
    | _ => .error .typeError)
  | .tuple l => l.mapM (fun x => match x with
    | .int z => if 0 ≤ z then .ok z.toNat else .error .valueError
    | _ => .error .typeError)
  | _ => .error .typeError

/-- baseConstruction.py 173-199, `get_indexes_of`, on a loaded configuration: the component of the restriction is
selected only if it is a tuple. -/
def LoadedConfig.getIndexesOf (S : SetSem) (c : LoadedConfig K) (det : List Nat) (spin : Int) (target : Bool := false) :
    Py (List Nat) := do
  let restr ← match c.restr with
    | .tuple l => pyGet l (if target then 1 else 0)
    | v => .ok v
  if spin = 0 then return S.inter (det.take c.nholes) (← restr.toSet)
  else if spin = -1 then return S.inter ((det.drop c.nholes).take c.nbeta) (← restr.toSet)
  else if spin = 1 then return S.inter (det.drop (c.nholes + c.nbeta)) (← restr.toSet)
  else .error .valueError

/-! ### The sweep -/

/-- initialComputations.py 265-291, `perform_configurations_computations`: the configurations for which
`perform_initial_computations` and `save_data` are called. `lattice_type` is not handed on. -/
def sweepConfigs (c : Config) : Py (List Config) :=
  (List.range (c.nsites + 1 - c.nholes)).mapM (fun nalpha =>
    Config.init c.bond c.nholes (c.nsites - c.nholes - nalpha) (.pair c.restr.1 c.restr.2) .periodic c.nbh c.nbv c.nblocs)

end TJ
