/-
Properties C54-C57: saving, loading, file names, the sweep over spin sectors.
-/
import Verif.Lemmas.IO
import Verif.Spec.Csr
import Verif.Lemmas.HamLin
import Verif.Props.Linear
import Verif.Props.Interactions
import Verif.Props.Basis
import Mathlib.Tactic.IntervalCases
import Mathlib.Data.Nat.Choose.Sum

namespace TJ

/-! ### C54 -/

section
variable {K : Type} [Field K]

omit [Field K] in
/-- Arrays of the right lengths are taken as they are. -/
theorem csrMatrix_shape {dim : Nat} {M : Csr K} (h : CsrShape dim M.data M.indices M.indptr) : csrMatrix dim M = .ok M := by
  have hn : M.indptr.getD dim 0 = M.data.length := by rw [List.getD_eq_getElem?_getD, h.last]; rfl
  unfold csrMatrix
  dsimp only
  rw [hn, if_pos ⟨h.pointers, by rw [List.head?_eq_getElem?]; exact h.first, h.columns, h.columns.ge⟩, List.take_length, ← h.columns, List.take_length]

omit [Field K] in
/-- The arrays that pass the checks, without what is behind the last pointer, have the right lengths. -/
theorem csrMatrix_ok {dim : Nat} {M M' : Csr K} (h : csrMatrix dim M = .ok M') : CsrShape dim M'.data M'.indices M'.indptr := by
  unfold csrMatrix at h
  dsimp only at h
  split_ifs at h with hc
  obtain ⟨h1, h2, h3, h4⟩ := hc
  obtain rfl := Except.ok.inj h
  have h5 : M.indptr[dim]? = some (M.indptr.getD dim 0) := by
    rw [List.getD_eq_getElem?_getD, List.getElem?_eq_getElem (by omega)]
    rfl
  refine ⟨h1, by rw [← List.head?_eq_getElem?]; exact h2, ?_, by simp [h3]⟩
  rw [h5, List.length_take, min_eq_left (by omega)]

/-- Reading back what `save_data` writes: everything but the arrays of the Hamiltonian, which have to pass the checks of `csr_matrix`. -/
theorem saved_load (d : DataComputations K) (t : Times K) (ht : d.times = some t) (hn : d.config.nsites ≠ 0) :
    ∃ (name : List Char) (v : PyVal K) (m : NdMat), saveData d = .ok (name, v) ∧ m.rows = d.config.bond.rows ∧ m.cols = d.config.bond.cols ∧
      (∀ i < d.config.bond.rows, ∀ j < d.config.bond.cols, m.e i j = d.config.bond.e i j) ∧
      loadData v = (csrMatrix d.config.nbConf d.ham).map (fun ham => ⟨⟨m, d.config.nholes, d.config.nbeta,
        .list [natList d.config.restr.1, natList d.config.restr.2], .periodic, d.config.nbh, d.config.nbv, d.config.nblocs⟩, d.interactions,
        { d.diag with guess := none }, d.bools, d.spinMult, d.determinants, ham, d.config.nbConf, d.eigenstates, some t⟩) := by
  obtain ⟨m, m1, m2, m3, m4⟩ := npArray_tolist d.config.bond hn
  have hdets : ∀ l : List (List Nat), jsonRT (.list (l.map natList) : PyVal K) = .list (l.map natList) := jsonRT_list_map _ jsonRT_natList
  have hrows : ∀ l : List (List K), jsonRT (.list (l.map (fun r => .list (r.map .float))) : PyVal K) = .list (l.map (fun r => .list (r.map .float))) :=
    jsonRT_list_map _ jsonRT_floats
  have hdets' : ∀ l : List (List Nat), PyVal.asList (PyVal.asList PyVal.asNat) (.list (l.map natList) : PyVal K) = .ok l := by
    intro l
    have := asList_map (natList : List Nat → PyVal K) (PyVal.asList PyVal.asNat) id asNat_natList l
    rwa [List.map_id] at this
  have hrows' : ∀ l : List (List K), PyVal.asList (PyVal.asList PyVal.asFloat) (.list (l.map (fun r => .list (r.map .float))) : PyVal K) = .ok l := by
    intro l
    have := asList_map (fun r => .list (r.map .float)) (PyVal.asList PyVal.asFloat) id (asFloat_list (K := K)) l
    rwa [List.map_id] at this
  unfold saveData
  rw [ht]
  refine ⟨_, _, m, rfl, m2, m3, m4, ?_⟩
  have hconf : jsonRT (d.config.toJson : PyVal K) = .dict [
      ("bond_matrix", d.config.bond.tolist), ("nsites", .int d.config.nsites), ("nholes", .int d.config.nholes),
      ("nbeta", .int d.config.nbeta), ("nalpha", .int d.config.nalpha),
      ("spin_number", .float (((d.config.nalpha : K) - (d.config.nbeta : K)) / 2)),
      ("doping", .float ((d.config.nholes : K) / (d.config.nsites : K))), ("nb_conf", .int d.config.nbConf),
      ("sites_restriction", .list [natList d.config.restr.1, natList d.config.restr.2]), ("lattice_type", .str d.config.ltype.name),
      ("nbh", .int d.config.nbh), ("nbv", .int d.config.nbv), ("nblocs_side", .int d.config.nblocs)] := by
    simp [Config.toJson, jsonRT, jsonRTd, jsonRTs, jsonRT_tolist, jsonRT_natList]
  have hint : jsonRT (d.interactions.toJson) = d.interactions.toJson := by
    simp [Interactions.toJson, jsonRT, jsonRTd]
  have hcfg : recoverConfig (jsonRT (d.config.toJson : PyVal K)) = .ok ⟨m, d.config.nholes, d.config.nbeta,
      .list [natList d.config.restr.1, natList d.config.restr.2], .periodic, d.config.nbh, d.config.nbv, d.config.nblocs⟩ := by
    rw [hconf]
    unfold recoverConfig
    refine bind_ok rfl ?_
    refine bind_ok (asInt_tolist _) ?_
    refine bind_ok m1 ?_
    refine bind_ok rfl ?_
    refine bind_ok (a := d.config.nholes) (by simp [PyVal.asNat]) ?_
    refine bind_ok rfl ?_
    refine bind_ok (a := d.config.nbeta) (by simp [PyVal.asNat]) ?_
    have hinit : Config.init m d.config.nholes d.config.nbeta =
        .ok ⟨m, d.config.nholes, d.config.nbeta, (List.range m.rows, List.range m.rows), .periodic, 0, 0, 0⟩ := by
      unfold Config.init
      rw [if_neg (by rw [m2]; exact hn)]
    refine bind_ok hinit ?_
    refine bind_ok rfl ?_
    refine bind_ok (a := d.config.nbh) rfl ?_
    refine bind_ok (a := d.config.nbv) rfl ?_
    refine bind_ok (a := d.config.nblocs) rfl ?_
    rfl
  have hnb : (jsonRT (d.config.toJson : PyVal K)).get "nb_conf" = .ok (.int d.config.nbConf) := by rw [hconf]; rfl
  have htop : jsonRT (.dict [
    ("configuration", d.config.toJson),
    ("interactions", d.interactions.toJson),
    ("diagonalization", .dict [("nb_val", .int d.diag.nbVal), ("stp", .int d.diag.stp), ("tol", .float d.diag.tol),
      ("dim_max", .int d.diag.dimMax), ("initial_guess", .none)]),
    ("bool_interactions", .dict [("bt", .bool d.bools.bt), ("bz", .bool d.bools.bz), ("bij", .bool d.bools.bij),
      ("bSD", .bool d.bools.bSD), ("btN", .bool d.bools.btN), ("bV", .bool d.bools.bV), ("b_spin_multipicities", .bool d.spinMult)]),
    ("determinants", .list (d.determinants.map natList)),
    ("hamiltonian", .dict [("data", .list (d.ham.data.map .float)), ("indices", natList d.ham.indices), ("indptr", natList d.ham.indptr)]),
    ("eigenstates", .dict [("eigvals", .list (d.eigenstates.eigvals.map .float)), ("spins", .list (d.eigenstates.spins.map spinVal)),
      ("eigvects", .list (d.eigenstates.eigvects.map (fun r => .list (r.map .float))))]),
    ("times", .dict [("tbasis", .float t.tbasis), ("thamiltonian", .float t.thamiltonian), ("teigenstates", .float t.teigenstates)])]) =
    .dict [
    ("configuration", jsonRT d.config.toJson),
    ("interactions", d.interactions.toJson),
    ("diagonalization", .dict [("nb_val", .int d.diag.nbVal), ("stp", .int d.diag.stp), ("tol", .float d.diag.tol),
      ("dim_max", .int d.diag.dimMax), ("initial_guess", .none)]),
    ("bool_interactions", .dict [("bt", .bool d.bools.bt), ("bz", .bool d.bools.bz), ("bij", .bool d.bools.bij),
      ("bSD", .bool d.bools.bSD), ("btN", .bool d.bools.btN), ("bV", .bool d.bools.bV), ("b_spin_multipicities", .bool d.spinMult)]),
    ("determinants", .list (d.determinants.map natList)),
    ("hamiltonian", .dict [("data", .list (d.ham.data.map .float)), ("indices", natList d.ham.indices), ("indptr", natList d.ham.indptr)]),
    ("eigenstates", .dict [("eigvals", .list (d.eigenstates.eigvals.map .float)), ("spins", .list (d.eigenstates.spins.map spinVal)),
      ("eigvects", .list (d.eigenstates.eigvects.map (fun r => .list (r.map .float))))]),
    ("times", .dict [("tbasis", .float t.tbasis), ("thamiltonian", .float t.thamiltonian), ("teigenstates", .float t.teigenstates)])] := by
    rw [jsonRT]
    simp only [jsonRTd, hint, hdets, hrows, jsonRT_natList, jsonRT_floats]
    simp only [jsonRT, jsonRTd, jsonRT_natList, jsonRTs_eq, List.map_map]
    simp [Function.comp_def, jsonRT, jsonRTs_eq, jsonRT_spin]
  unfold loadData
  rw [htop]
  generalize jsonRT (d.config.toJson : PyVal K) = conf at hcfg hnb
  unfold recoverResults
  refine bind_ok rfl ?_
  refine bind_ok rfl ?_
  refine bind_ok hcfg ?_
  refine bind_ok rfl ?_
  refine bind_ok (a := d.interactions) rfl ?_
  refine bind_ok rfl ?_
  refine bind_ok (a := { d.diag with guess := none }) rfl ?_
  refine bind_ok rfl ?_
  refine bind_ok (a := (d.bools, d.spinMult)) rfl ?_
  refine bind_ok rfl ?_
  refine bind_ok (hdets' _) ?_
  refine bind_ok rfl ?_
  refine bind_ok rfl ?_
  refine bind_ok (asFloat_list _) ?_
  refine bind_ok rfl ?_
  refine bind_ok (asNat_natList _) ?_
  refine bind_ok rfl ?_
  refine bind_ok (asNat_natList _) ?_
  refine bind_ok hnb ?_
  refine bind_ok (a := d.config.nbConf) rfl ?_
  show (csrMatrix d.config.nbConf d.ham >>= _) = _
  rcases csrMatrix d.config.nbConf d.ham with e | ham
  · rfl
  refine bind_ok (a := ham) rfl ?_
  refine bind_ok rfl ?_
  refine bind_ok rfl ?_
  refine bind_ok (asFloat_list _) ?_
  refine bind_ok rfl ?_
  refine bind_ok (asSpin_list _) ?_
  refine bind_ok rfl ?_
  refine bind_ok (hrows' _) ?_
  refine bind_ok (a := some t) rfl ?_
  rfl

/-- C54, part: the bond matrix, the counts, the block sizes, interactions, switches, determinants, Hamiltonian,
eigenstates and times load back unchanged; the initial guess is dropped. The lattice type becomes `periodic` and
the restriction a list of two lists instead of a tuple; see the following theorems. The arrays of the Hamiltonian have to fit the number of
configurations, otherwise the file cannot be loaded (`C54_bad_arrays`). -/
theorem C54_roundtrip_partial (d : DataComputations K) (t : Times K) (ht : d.times = some t) (hn : d.config.nsites ≠ 0)
    (hh : CsrShape d.config.nbConf d.ham.data d.ham.indices d.ham.indptr) :
    ∃ name v L, saveData d = .ok (name, v) ∧ loadData v = .ok L ∧
      L.config.bond.rows = d.config.bond.rows ∧ L.config.bond.cols = d.config.bond.cols ∧
      (∀ i < d.config.bond.rows, ∀ j < d.config.bond.cols, L.config.bond.e i j = d.config.bond.e i j) ∧
      L.config.nholes = d.config.nholes ∧ L.config.nbeta = d.config.nbeta ∧ L.config.nbh = d.config.nbh ∧ L.config.nbv = d.config.nbv ∧
      L.config.nblocs = d.config.nblocs ∧ L.config.ltype = .periodic ∧
      L.config.restr = .list [natList d.config.restr.1, natList d.config.restr.2] ∧
      L.interactions = d.interactions ∧ L.diag = { d.diag with guess := none } ∧ L.bools = d.bools ∧ L.spinMult = d.spinMult ∧
      L.determinants = d.determinants ∧ L.ham = d.ham ∧ L.hamDim = d.config.nbConf ∧ L.eigenstates = d.eigenstates ∧ L.times = some t := by
  obtain ⟨name, v, m, h1, m2, m3, m4, h2⟩ := saved_load d t ht hn
  rw [csrMatrix_shape hh] at h2
  exact ⟨name, v, _, h1, h2, m2, m3, m4, rfl, rfl, rfl, rfl, rfl, rfl, rfl, rfl, rfl, rfl, rfl, rfl, rfl, rfl, rfl, rfl⟩

/-- C54, error branch: arrays of a Hamiltonian that do not fit the number of configurations are written, but the file cannot be loaded. -/
theorem C54_bad_arrays (d : DataComputations K) (t : Times K) (ht : d.times = some t) (hn : d.config.nsites ≠ 0)
    (hh : d.ham.indptr.length ≠ d.config.nbConf + 1 ∨ d.ham.indptr[0]? ≠ some 0 ∨ d.ham.indices.length ≠ d.ham.data.length ∨
      ∃ n, d.ham.indptr[d.config.nbConf]? = some n ∧ d.ham.data.length < n) :
    ∃ name v, saveData d = .ok (name, v) ∧ loadData v = .error .valueError := by
  obtain ⟨name, v, m, h1, m2, m3, m4, h2⟩ := saved_load d t ht hn
  refine ⟨name, v, h1, ?_⟩
  have : csrMatrix d.config.nbConf d.ham = .error .valueError := by
    unfold csrMatrix
    dsimp only
    rw [if_neg]
    rintro ⟨c1, c2, c3, c4⟩
    rw [List.head?_eq_getElem?] at c2
    rcases hh with h | h | h | ⟨n, h, h'⟩
    · exact h c1
    · exact h c2
    · exact h c3
    · rw [List.getD_eq_getElem?_getD, h, c3] at c4
      exact absurd c4 (by simpa using h')
  rw [this] at h2
  exact h2

omit [Field K] in
/-- C54: whatever the file, the arrays of a Hamiltonian that was loaded fit its dimension. -/
theorem C54_loaded_shape (v : PyVal K) (L : Loaded K) (h : loadData v = .ok L) : CsrShape L.hamDim L.ham.data L.ham.indices L.ham.indptr := by
  unfold loadData recoverResults at h
  repeat obtain ⟨_, hx, h⟩ := bind_eq_ok.1 h
  obtain rfl := Except.ok.inj h
  exact csrMatrix_ok (by assumption)

omit [Field K] in
/-- C54, error branch: a file without one of the seven parts cannot be loaded. -/
theorem C54_missing_part (d : List (String × PyVal K)) (part : String)
    (hp : part ∈ ["configuration", "interactions", "diagonalization", "bool_interactions", "determinants", "hamiltonian", "eigenstates"])
    (h : ∀ p ∈ d, p.1 ≠ part) : loadData (.dict d) = .error .typeError := by
  have hk : ∀ l : List (String × PyVal K), (∀ p ∈ l, p.1 ≠ part) → List.lookup part (jsonRTd l) = none := by
    intro l hl
    induction l with
    | nil => rfl
    | cons p l ih =>
      obtain ⟨k, v⟩ := p
      have : (part == k) = false := beq_eq_false_iff_ne.2 (Ne.symm (hl (k, v) List.mem_cons_self))
      rw [jsonRTd, List.lookup, this]
      exact ih fun q hq => hl q (List.mem_cons_of_mem _ hq)
  unfold loadData recoverResults
  rw [jsonRT]
  have : (PyVal.dict (jsonRTd d)).required ["configuration", "interactions", "diagonalization", "bool_interactions", "determinants",
      "hamiltonian", "eigenstates"] = .error .typeError := by
    unfold PyVal.required
    rw [if_neg]
    intro hall
    have := List.all_eq_true.1 hall part hp
    unfold PyVal.hasKey at this
    dsimp only at this
    rw [hk d h] at this
    cases this
  rw [this]
  rfl

/-- C54 fails: the lattice type is not restored. -/
theorem C54_lattice_type_lost (d : DataComputations K) (t : Times K) (ht : d.times = some t) (hn : d.config.nsites ≠ 0)
    (hh : CsrShape d.config.nbConf d.ham.data d.ham.indices d.ham.indptr)
    (hl : d.config.ltype ≠ .periodic) : ∃ name v L, saveData d = .ok (name, v) ∧ loadData v = .ok L ∧ L.config.ltype ≠ d.config.ltype := by
  obtain ⟨name, v, L, h1, h2, _, _, _, _, _, _, _, _, h3, _⟩ := C54_roundtrip_partial d t ht hn hh
  exact ⟨name, v, L, h1, h2, by rw [h3]; exact Ne.symm hl⟩

/-- C54 fails: `get_indexes_of`, used by all interactions, raises `TypeError` on every loaded configuration and every
determinant, while it succeeds on the original one. -/
theorem C54_restriction_unusable (d : DataComputations K) (t : Times K) (ht : d.times = some t) (hn : d.config.nsites ≠ 0)
    (hh : CsrShape d.config.nbConf d.ham.data d.ham.indices d.ham.indptr)
    (S : SetSem) (det : List Nat) (spin : Int) (hs : spin = 0 ∨ spin = 1 ∨ spin = -1) (target : Bool) :
    ∃ name v L, saveData d = .ok (name, v) ∧ loadData v = .ok L ∧ L.config.getIndexesOf S det spin target = .error .typeError ∧
      ∃ l, getIndexesOf S d.config det spin target = .ok l := by
  obtain ⟨name, v, L, h1, h2, _, _, _, _, _, _, _, _, _, h3, _⟩ := C54_roundtrip_partial d t ht hn hh
  refine ⟨name, v, L, h1, h2, ?_, ?_⟩
  · unfold LoadedConfig.getIndexesOf
    rw [h3]
    rcases hs with rfl | rfl | rfl <;> rfl
  · rcases hs with rfl | rfl | rfl <;> exact ⟨_, rfl⟩

end

/-- A saved run on a peripheral lattice: one hole among up spins. -/
def exSaved : DataComputations ℚ :=
  ⟨periConf 1 1 2 1 0, exI, ⟨2, 100, 1 / 1000, 20, some [[1], [2]]⟩, ⟨true, true, true, true, true, false⟩, true,
    (List.range 12).map (fun h => h :: (List.range 12).filter (fun s => s ≠ h)),
    ⟨(List.range 12).map (fun i => (i : ℚ) + 1), List.range 12, List.range 13⟩, ⟨[-1], [some 0], (List.range 12).map (fun i => [if i = 0 then 1 else 0])⟩,
    some ⟨1, 2, 3⟩⟩

theorem exSaved_shape : CsrShape exSaved.config.nbConf exSaved.ham.data exSaved.ham.indices exSaved.ham.indptr := by
  have h : exSaved.config.nbConf = 12 := by decide +kernel
  rw [h]
  exact ⟨by decide +kernel, by decide +kernel, by decide +kernel, by decide +kernel⟩

/-- A file with nothing but the basis. -/
example : loadData (.dict [("determinants", .list [natList [0, 1]])] : PyVal ℚ) = .error .typeError :=
  C54_missing_part _ "hamiltonian" (by decide) (by decide)

example : exSaved.times = some ⟨1, 2, 3⟩ ∧ exSaved.config.nsites ≠ 0 ∧ exSaved.config.ltype ≠ .periodic := by
  refine ⟨rfl, ?_, ?_⟩ <;> decide

/-- A dimension that does not fit: the arrays of two rows among twelve. -/
example : ∃ name v, saveData { exSaved with ham := ⟨[1, 2], [0, 1], [0, 1, 2]⟩ } = .ok (name, v) ∧ loadData v = .error .valueError :=
  C54_bad_arrays _ _ rfl (show exSaved.config.nsites ≠ 0 by decide) (.inl (by decide +kernel))

/-- The last pointer is beyond the end. -/
example : ∃ name v, saveData { exSaved with ham := ⟨[1], [0], List.range 13⟩ } = .ok (name, v) ∧ loadData v = .error .valueError :=
  C54_bad_arrays _ _ rfl (show exSaved.config.nsites ≠ 0 by decide) (.inr (.inr (.inr ⟨12, by decide +kernel, by decide⟩)))

example : ∃ name v L, saveData exSaved = .ok (name, v) ∧ loadData v = .ok L ∧ CsrShape L.hamDim L.ham.data L.ham.indices L.ham.indptr := by
  obtain ⟨name, v, L, h1, h2, _⟩ := C54_roundtrip_partial exSaved _ rfl (by decide) exSaved_shape
  exact ⟨name, v, L, h1, h2, C54_loaded_shape v L h2⟩

/-! ### C55 -/

/-- What follows the digits. -/
def nameSuffix (b : BoolInteractions) : List Char :=
  if b.full then "Full.json".toList
  else dirBool.flatMap (fun name =>
    match extensions.lookup name with
    | some ext => if b.attr name then ext.toList else []
    | none => []) ++ ".json".toList

theorem saveName_eq (a b c : Nat) (s : BoolInteractions) : saveName a b c s =
    "tJHam-".toList ++ ((Nat.toDigits 10 a ++ (Nat.toDigits 10 b ++ Nat.toDigits 10 c)) ++ nameSuffix s) := by
  unfold saveName nameSuffix
  rw [pyFormat_nat, pyFormat_nat, pyFormat_nat]
  simp only [List.append_assoc]
  rfl

/-- The switches that a file name distinguishes: all but `bz`, and `bz` when all others are on. -/
def SameSwitches (s s' : BoolInteractions) : Prop :=
  s.bt = s'.bt ∧ s.bij = s'.bij ∧ s.bSD = s'.bSD ∧ s.btN = s'.btN ∧ s.bV = s'.bV ∧ (s.bz = s'.bz ∨ ¬ (s.bt ∧ s.bij ∧ s.bSD ∧ s.btN ∧ s.bV))

instance (s s' : BoolInteractions) : Decidable (SameSwitches s s') := by unfold SameSwitches; infer_instance

theorem nameSuffix_facts : ∀ s : BoolInteractions, (∀ c, (nameSuffix s).head? = some c → c.isDigit = false) ∧
    ∀ s' : BoolInteractions, nameSuffix s = nameSuffix s' ↔ SameSwitches s s' := by
  have key : ∀ bt bz bij bSD btN bV : Bool, (nameSuffix ⟨bt, bz, bij, bSD, btN, bV⟩).head?.all (fun c => !c.isDigit) = true ∧
      ∀ bt' bz' bij' bSD' btN' bV' : Bool, nameSuffix ⟨bt, bz, bij, bSD, btN, bV⟩ = nameSuffix ⟨bt', bz', bij', bSD', btN', bV'⟩ ↔
        SameSwitches ⟨bt, bz, bij, bSD, btN, bV⟩ ⟨bt', bz', bij', bSD', btN', bV'⟩ := by decide +kernel
  rintro ⟨bt, bz, bij, bSD, btN, bV⟩
  obtain ⟨k1, k2⟩ := key bt bz bij bSD btN bV
  refine ⟨?_, ?_⟩
  · intro c hc
    rw [hc] at k1
    simpa using k1
  · rintro ⟨bt', bz', bij', bSD', btN', bV'⟩
    exact k2 bt' bz' bij' bSD' btN' bV'

/-- The digits and the suffix can be read off a file name. -/
theorem saveName_split {a b c a' b' c' : Nat} {s s' : BoolInteractions} (h : saveName a b c s = saveName a' b' c' s') :
    Nat.toDigits 10 a ++ (Nat.toDigits 10 b ++ Nat.toDigits 10 c) = Nat.toDigits 10 a' ++ (Nat.toDigits 10 b' ++ Nat.toDigits 10 c') ∧
      SameSwitches s s' := by
  rw [saveName_eq, saveName_eq] at h
  have h := List.append_cancel_left h
  have hd : ∀ a b c : Nat, ∀ x ∈ Nat.toDigits 10 a ++ (Nat.toDigits 10 b ++ Nat.toDigits 10 c), x.isDigit = true := by
    intro a b c x hx
    rcases List.mem_append.1 hx with hx | hx
    · exact toDigits_isDigit hx
    · rcases List.mem_append.1 hx with hx | hx <;> exact toDigits_isDigit hx
  obtain ⟨h1, h2⟩ := digits_split (hd a b c) (hd a' b' c') (nameSuffix_facts s).1 (nameSuffix_facts s').1 h
  exact ⟨h1, ((nameSuffix_facts s).2 s').1 h2⟩

/-- C55, part: on lattices with at most 9 sites, two runs have the same file name exactly if they have the same numbers of
sites, up and down spins and the same switches (up to `bz`, which is only visible when all others are on). -/
theorem C55_small_lattices_partial (n a b n' a' b' : Nat) (hn : n ≤ 9) (ha : a + b ≤ n) (hn' : n' ≤ 9) (ha' : a' + b' ≤ n')
    (s s' : BoolInteractions) : saveName n a b s = saveName n' a' b' s' ↔ n = n' ∧ a = a' ∧ b = b' ∧ SameSwitches s s' := by
  constructor
  · intro h
    obtain ⟨h1, h2⟩ := saveName_split h
    obtain ⟨h3, h1⟩ := List.append_inj h1 (by rw [toDigits_length_one (by omega), toDigits_length_one (by omega)])
    obtain ⟨h4, h5⟩ := List.append_inj h1 (by rw [toDigits_length_one (by omega), toDigits_length_one (by omega)])
    exact ⟨toDigits_inj h3, toDigits_inj h4, toDigits_inj h5, h2⟩
  · rintro ⟨rfl, rfl, rfl, h⟩
    rw [saveName_eq, saveName_eq, ((nameSuffix_facts s).2 s').2 h]

/-- Writing the digits of `r` after those of `q`. -/
theorem digits_append (q : Nat) (hq : 0 < q) : ∀ r, Nat.toDigits 10 (q * 10 ^ (Nat.log 10 r + 1) + r) = Nat.toDigits 10 q ++ Nat.toDigits 10 r := by
  intro r
  induction r using Nat.strong_induction_on with
  | _ r ih =>
    by_cases hr : r < 10
    · rw [Nat.log_of_lt hr, Nat.toDigits_of_base_le (by omega) (by omega), Nat.toDigits_of_lt_base hr]
      have e1 : (q * 10 ^ (0 + 1) + r) / 10 = q := by omega
      have e2 : (q * 10 ^ (0 + 1) + r) % 10 = r := by omega
      rw [e1, e2]
    · have hl : Nat.log 10 r = Nat.log 10 (r / 10) + 1 := Nat.log_of_one_lt_of_le (by omega) (by omega)
      have e0 : q * 10 ^ (Nat.log 10 r + 1) = 10 * (q * 10 ^ (Nat.log 10 (r / 10) + 1)) := by rw [hl, pow_succ]; ring
      have hpos : 0 < q * 10 ^ (Nat.log 10 (r / 10) + 1) := Nat.mul_pos hq (Nat.pow_pos (by omega))
      have e1 : (q * 10 ^ (Nat.log 10 r + 1) + r) / 10 = q * 10 ^ (Nat.log 10 (r / 10) + 1) + r / 10 := by rw [e0]; omega
      have e2 : (q * 10 ^ (Nat.log 10 r + 1) + r) % 10 = r % 10 := by rw [e0]; omega
      rw [Nat.toDigits_of_base_le (by omega) (by omega), e1, e2, ih (r / 10) (by omega), List.append_assoc,
        ← Nat.toDigits_of_base_le (by omega) (by omega)]

/-- The first digits of a number are the digits of a positive number. -/
theorem digits_prefix (v : List Char) : ∀ (x : Nat) (u : List Char), u ≠ [] → v ≠ [] → Nat.toDigits 10 x = u ++ v → ∃ q, 0 < q ∧ Nat.toDigits 10 q = u := by
  induction v using List.reverseRecOn with
  | nil => intro x u _ h; exact absurd rfl h
  | append_singleton v c ih =>
    intro x u hu _ h
    by_cases hx : x < 10
    · rw [Nat.toDigits_of_lt_base hx] at h
      have := congrArg List.length h
      have hu := List.length_pos_iff.2 hu
      simp at this
      omega
    · rw [Nat.toDigits_of_base_le (by omega) (by omega), ← List.append_assoc] at h
      obtain ⟨h1, _⟩ := List.append_inj' h rfl
      by_cases hv : v = []
      · subst hv
        exact ⟨x / 10, by omega, by simpa using h1⟩
      · exact ih _ u hu hv h1

/-- C55, exact extent for one lattice and any number of electrons: two runs share their file name exactly if the digits of a number `q` at the
end of the up spins of one of them are those at the front of the down spins of the other. -/
theorem C55_sweep_iff (n a b a' b' : Nat) (ha : a < a') (s : BoolInteractions) :
    saveName n a b s = saveName n a' b' s ↔
      0 < a ∧ ∃ q, 0 < q ∧ a' = a * 10 ^ (Nat.log 10 q + 1) + q ∧ b = q * 10 ^ (Nat.log 10 b' + 1) + b' := by
  constructor
  · intro hs
    obtain ⟨h1, _⟩ := saveName_split hs
    have h1 := List.append_cancel_left h1
    rcases List.append_eq_append_iff.1 h1 with ⟨w, h2, h3⟩ | ⟨w, h2, h3⟩
    · have hw : w ≠ [] := by
        rintro rfl
        rw [List.append_nil] at h2
        have := toDigits_inj h2
        omega
      obtain ⟨x, hx, hx'⟩ := digits_prefix w a' _ Nat.toDigits_ne_nil hw h2
      have := toDigits_inj hx'
      obtain ⟨q, hq, hq'⟩ := digits_prefix _ b w hw Nat.toDigits_ne_nil h3
      refine ⟨by omega, q, hq, toDigits_inj ?_, toDigits_inj ?_⟩
      · rw [digits_append a (by omega), h2, hq']
      · rw [digits_append q hq, h3, hq']
    · exfalso
      by_cases hw : w = []
      · subst hw
        rw [List.append_nil] at h2
        have := toDigits_inj h2
        omega
      · obtain ⟨q, hq, hq'⟩ := digits_prefix _ b' w hw Nat.toDigits_ne_nil h3
        have e : a = a' * 10 ^ (Nat.log 10 q + 1) + q := toDigits_inj (by
          obtain ⟨x, hx, hx'⟩ := digits_prefix w a _ Nat.toDigits_ne_nil hw h2
          have := toDigits_inj hx'
          rw [digits_append a' (by omega), h2, hq'])
        have := Nat.le_mul_of_pos_right a' (Nat.pow_pos (n := Nat.log 10 q + 1) (by omega : 0 < 10))
        omega
  · rintro ⟨ha, q, hq, e1, e2⟩
    rw [saveName_eq, saveName_eq]
    congr 2
    rw [e1, e2, digits_append a ha, digits_append q hq, List.append_assoc]

/-- The numbers `N` of electrons such that no two splits of `N` in up and down spins have the same digits: `N` is not
`a + qz = aq + z` for numbers `a`, `q > 0` and `z`, where `qz` and `aq` have the digits of both numbers side by side. -/
def DistinctNames (N : Nat) : Prop :=
  ∀ a q z, 0 < a → 0 < q → a + (q * 10 ^ (Nat.log 10 z + 1) + z) = N → a * 10 ^ (Nat.log 10 q + 1) + q + z ≠ N

/-- With at most 10 electrons. -/
theorem distinct_small {N : Nat} (h : N ≤ 10) : DistinctNames N := by
  intro a q z ha hq e _
  have : 10 ^ 1 ≤ 10 ^ (Nat.log 10 z + 1) := Nat.pow_le_pow_right (by omega) (by omega)
  have := Nat.mul_le_mul hq this
  omega

/-- C55, part: the runs of one sweep have different file names, on lattices of any size, if the number of electrons satisfies
`DistinctNames`, as the numbers up to 10 do (`distinct_small`). -/
theorem C55_sweep_partial (n a b a' b' : Nat) (he : DistinctNames (a + b)) (h : a + b = a' + b') (s : BoolInteractions)
    (hs : saveName n a b s = saveName n a' b' s) : a = a' ∧ b = b' := by
  rcases Nat.lt_trichotomy a a' with hlt | rfl | hlt
  · exfalso
    obtain ⟨h0, q, hq, e1, e2⟩ := (C55_sweep_iff n a b a' b' hlt s).1 hs
    exact he a q b' h0 hq (by omega) (by omega)
  · exact ⟨rfl, by omega⟩
  · exfalso
    obtain ⟨h0, q, hq, e1, e2⟩ := (C55_sweep_iff n a' b' a b hlt s).1 hs.symm
    exact he a' q b h0 hq (by omega) (by omega)

/-- C55, exact extent for a sweep with `N` electrons: all its file names are different exactly if `DistinctNames N`. -/
theorem C55_sweep_exact (n N : Nat) (s : BoolInteractions) :
    (∀ a b a' b', a + b = N → a' + b' = N → saveName n a b s = saveName n a' b' s → a = a' ∧ b = b') ↔ DistinctNames N := by
  constructor
  · intro h a q z ha hq e1 e2
    have hlt : a < a * 10 ^ (Nat.log 10 q + 1) + q := by
      have := Nat.le_mul_of_pos_right a (Nat.pow_pos (n := Nat.log 10 q + 1) (by omega : 0 < 10))
      omega
    have := h _ _ _ _ e1 e2 ((C55_sweep_iff n a _ _ z hlt s).2 ⟨ha, q, hq, rfl, rfl⟩)
    omega
  · intro h a b a' b' e1 e2 hs
    subst e1
    exact C55_sweep_partial n a b a' b' h (by omega) s hs

/-- C55 fails from 11 electrons on: in the sweep with `11 y + z` electrons (`1 ≤ y ≤ 9`, `z ≤ 9`) the runs with
`(nalpha, nbeta) = (11 y, z)` and `(y, 10 y + z)` have the same file name, for all numbers of sites and all switches. -/
theorem C55_collision (n y z : Nat) (hy : 1 ≤ y) (hy' : y ≤ 9) (hz : z ≤ 9) (s : BoolInteractions) :
    saveName n (11 * y : Nat) z s = saveName n y (10 * y + z : Nat) s ∧ 11 * y + z = y + (10 * y + z) ∧ 11 * y ≠ y := by
  refine ⟨?_, by omega, by omega⟩
  rw [saveName_eq, saveName_eq]
  congr 2
  have h1 : Nat.toDigits 10 (11 * y) = Nat.toDigits 10 y ++ Nat.toDigits 10 y := by
    interval_cases y <;> decide
  have h2 : Nat.toDigits 10 (10 * y + z) = Nat.toDigits 10 y ++ Nat.toDigits 10 z := by
    rw [Nat.toDigits_of_base_le (by omega) (by omega)]
    have e1 : (10 * y + z) / 10 = y := by omega
    have e2 : (10 * y + z) % 10 = z := by omega
    rw [e1, e2, Nat.toDigits_of_lt_base (show z < 10 by omega)]
  rw [h1, h2, List.append_assoc]

/-- C55 for the sweeps with at most 110 electrons: two of the runs have the same file name exactly if the number of electrons is `11 y + z`
with two digits `y`, `z` and `y` not 0. In particular from 11 electrons on, but not with 21 electrons. -/
theorem C55_sweep_sizes (n N : Nat) (hN : N ≤ 110) (s : BoolInteractions) :
    (∃ a b a' b', a + b = N ∧ a' + b' = N ∧ a < a' ∧ saveName n a b s = saveName n a' b' s) ↔
      ∃ y z, 1 ≤ y ∧ y ≤ 9 ∧ z ≤ 9 ∧ N = 11 * y + z := by
  constructor
  · rintro ⟨a, b, a', b', h1, h2, hlt, hs⟩
    obtain ⟨ha, q, hq, e1, e2⟩ := (C55_sweep_iff n a b a' b' hlt s).1 hs
    have hb : b' < 10 := by
      by_contra hc
      have hl : 1 ≤ Nat.log 10 b' := Nat.le_log_of_pow_le (by omega) (by omega)
      have h100 : 10 ^ 2 ≤ 10 ^ (Nat.log 10 b' + 1) := Nat.pow_le_pow_right (by omega) (by omega)
      have := Nat.mul_le_mul hq h100
      omega
    rw [Nat.log_of_lt hb] at e2
    have hq9 : q < 10 := by
      by_contra hc
      have hl : 1 ≤ Nat.log 10 q := Nat.le_log_of_pow_le (by omega) (by omega)
      have h100 : 10 ^ 2 ≤ 10 ^ (Nat.log 10 q + 1) := Nat.pow_le_pow_right (by omega) (by omega)
      obtain ⟨P, hP⟩ := Nat.exists_eq_add_of_le h100
      rw [hP, Nat.mul_add] at e1
      omega
    rw [Nat.log_of_lt hq9] at e1
    exact ⟨a, b', by omega, by omega, by omega, by omega⟩
  · rintro ⟨y, z, h1, h2, h3, rfl⟩
    exact ⟨y, 10 * y + z, 11 * y, z, by omega, by omega, by omega, (C55_collision n y z h1 h2 h3 s).1.symm⟩

example : ¬ ∃ y z, 1 ≤ y ∧ y ≤ 9 ∧ z ≤ 9 ∧ 21 = 11 * y + z := by omega
example : saveName 120 1 110 ⟨true, true, true, true, true, true⟩ = saveName 120 111 0 ⟨true, true, true, true, true, true⟩ :=
  (C55_sweep_iff 120 1 110 111 0 (by omega) _).2 ⟨by omega, 11, by omega, by decide, by decide⟩

/-- C55 fails for the switches: `bz` is not visible unless all others are on. -/
theorem C55_bz_invisible (n a b : Int) (s : BoolInteractions) (h : ¬ (s.bt ∧ s.bij ∧ s.bSD ∧ s.btN ∧ s.bV)) :
    saveName n a b { s with bz := true } = saveName n a b { s with bz := false } := by
  have := ((nameSuffix_facts { s with bz := true }).2 { s with bz := false }).2 ⟨rfl, rfl, rfl, rfl, rfl, Or.inr h⟩
  show "tJHam-".toList ++ pyFormat n ++ pyFormat a ++ pyFormat b ++ nameSuffix { s with bz := true } =
    "tJHam-".toList ++ pyFormat n ++ pyFormat a ++ pyFormat b ++ nameSuffix { s with bz := false }
  rw [this]

/-- A sweep on 12 sites with one hole: the run with 11 up spins overwrites the one with 1 up spin and 10 down spins. -/
example : saveName 12 11 0 ⟨true, true, true, true, true, true⟩ = "tJHam-12110Full.json".toList ∧
    saveName 12 1 10 ⟨true, true, true, true, true, true⟩ = "tJHam-12110Full.json".toList := by decide +kernel
example : saveName 18 8 8 ⟨true, true, true, true, true, false⟩ = "tJHam-1888SDJttN.json".toList := by decide +kernel

/-! ### C56 -/

/-- C56, exact extent: the name used by the embedding functions is the one used by `save_data` exactly if all five
encoded switches are on. -/
theorem C56_names_agree_iff_partial (n a b : Int) (s : BoolInteractions) :
    loadName n a b s = saveName n a b s ↔ s.bt ∧ s.bij ∧ s.bSD ∧ s.btN ∧ s.bV := by
  unfold loadName saveName
  rw [List.append_cancel_left_eq]
  have key : ∀ bt bz bij bSD btN bV : Bool, let s : BoolInteractions := ⟨bt, bz, bij, bSD, btN, bV⟩
      ((if s.full then "Full.json".toList
     else dirBool.flatMap (fun name =>
        match extensions.lookup name with
        | some ext => ext.toList
        | none => []) ++ ".json".toList) = (if s.full then "Full.json".toList
     else dirBool.flatMap (fun name =>
        match extensions.lookup name with
        | some ext => if s.attr name then ext.toList else []
        | none => []) ++ ".json".toList) ↔ s.bt ∧ s.bij ∧ s.bSD ∧ s.btN ∧ s.bV) := by decide +kernel
  obtain ⟨bt, bz, bij, bSD, btN, bV⟩ := s
  exact key bt bz bij bSD btN bV

/-- C56 fails without the hole repulsion. -/
theorem C56_wrong_file : saveName 9 4 4 ⟨true, true, true, true, true, false⟩ = "tJHam-944SDJttN.json".toList ∧
    loadName 9 4 4 ⟨true, true, true, true, true, false⟩ = "tJHam-944SDVJttN.json".toList := by decide +kernel

/-! ### C57 -/

/-- C57. The sweep visits every split of the electrons exactly once, on the given lattice; the dimensions add up to the
number of ways to place the holes and orient the other spins. -/
theorem C57_sweep (c : Config) (hn : c.nsites ≠ 0) (hh : c.nholes ≤ c.nsites) :
    ∃ cs, sweepConfigs c = .ok cs ∧
      cs.map (fun c' => (c'.nalpha, c'.nbeta)) =
        (List.range (c.nsites - c.nholes + 1)).map (fun (a : Nat) => ((a : Int), c.nsites - c.nholes - a)) ∧
      (∀ c' ∈ cs, c'.bond = c.bond ∧ c'.nholes = c.nholes ∧ c'.restr = c.restr ∧ c'.nbh = c.nbh ∧ c'.nbv = c.nbv ∧ c'.nblocs = c.nblocs) ∧
      (cs.map Config.nbConf).sum = c.nsites.choose c.nholes * 2 ^ (c.nsites - c.nholes) := by
  set f : Nat → Config := fun nalpha => ⟨c.bond, c.nholes, c.nsites - c.nholes - nalpha, c.restr, .periodic, c.nbh, c.nbv, c.nblocs⟩ with hf
  have hr : c.nsites + 1 - c.nholes = c.nsites - c.nholes + 1 := by omega
  refine ⟨(List.range (c.nsites - c.nholes + 1)).map f, ?_, ?_, ?_, ?_⟩
  · unfold sweepConfigs
    rw [hr]
    refine mapM_ok ?_
    intro a _
    unfold Config.init
    rw [if_neg (show ¬ c.bond.rows = 0 from hn)]
  · rw [List.map_map]
    refine List.map_congr_left ?_
    intro a ha
    have := List.mem_range.1 ha
    simp only [Function.comp_apply, hf, Prod.mk.injEq, and_true]
    show ((c.nsites : Int) - c.nholes - (c.nsites - c.nholes - a : Nat)) = a
    omega
  · intro c' hc'
    obtain ⟨a, _, rfl⟩ := List.mem_map.1 hc'
    exact ⟨rfl, rfl, rfl, rfl, rfl, rfl⟩
  · have h1 : (((List.range (c.nsites - c.nholes + 1)).map f).map Config.nbConf) =
        (List.range (c.nsites - c.nholes + 1)).map (fun a => c.nsites.choose c.nholes * (c.nsites - c.nholes).choose a) := by
      rw [List.map_map]
      refine List.map_congr_left ?_
      intro a ha
      have := List.mem_range.1 ha
      show computeDimension (c.nsites : Int) ((c.nsites : Int) - c.nholes - (c.nsites - c.nholes - a : Nat)) (c.nsites - c.nholes - a : Nat) = _
      unfold computeDimension
      dsimp only
      have e1 : ((c.nsites : Int) - ((c.nsites : Int) - c.nholes - (c.nsites - c.nholes - a : Nat)) - (c.nsites - c.nholes - a : Nat)) = (c.nholes : Int) := by
        omega
      have e2 : ((c.nsites : Int) - c.nholes - (c.nsites - c.nholes - a : Nat)) = (a : Int) := by omega
      have e3 : (c.nsites : Int) - c.nholes = ((c.nsites - c.nholes : Nat) : Int) := by omega
      rw [e1, e2, e3, pyComb_nat, pyComb_nat]
    have h2 : ∀ (g : Nat → Nat) (m : Nat), ((List.range m).map g).sum = ∑ i ∈ Finset.range m, g i := by
      intro g m
      induction m with
      | zero => rfl
      | succ m ih => rw [List.range_succ, List.map_append, List.sum_append, ih, Finset.sum_range_succ]; simp
    rw [h1, h2, ← Finset.mul_sum, Nat.sum_range_choose]

/-- The 3×3 lattice with two holes: eight sectors, 4608 determinants. -/
example : (rectConf 3 3 1 2 0).nsites ≠ 0 ∧ (rectConf 3 3 1 2 0).nholes ≤ (rectConf 3 3 1 2 0).nsites ∧
    (sweepConfigs (rectConf 3 3 1 2 0)).map (fun cs => (cs.length, (cs.map Config.nbConf).sum)) = .ok (8, 4608) := by decide +kernel

/-- C72 fails: the sweep replaces the lattice type, so sweeps over clusters or peripheral lattices treat them as periodic ones. -/
theorem C72_sweep_loses_lattice_type (c : Config) (hn : c.nsites ≠ 0) (hh : c.nholes ≤ c.nsites) (hl : c.ltype ≠ .periodic) :
    ∃ cs, sweepConfigs c = .ok cs ∧ cs ≠ [] ∧ ∀ c' ∈ cs, c'.ltype ≠ c.ltype := by
  set f : Nat → Config := fun nalpha => ⟨c.bond, c.nholes, c.nsites - c.nholes - nalpha, c.restr, .periodic, c.nbh, c.nbv, c.nblocs⟩ with hf
  have hr : c.nsites + 1 - c.nholes = c.nsites - c.nholes + 1 := by omega
  refine ⟨(List.range (c.nsites - c.nholes + 1)).map f, ?_, by simp, ?_⟩
  · unfold sweepConfigs
    rw [hr]
    refine mapM_ok ?_
    intro a _
    unfold Config.init
    rw [if_neg (show ¬ c.bond.rows = 0 from hn)]
  · intro c' hc'
    obtain ⟨a, _, rfl⟩ := List.mem_map.1 hc'
    exact Ne.symm hl

/-- C72, part: periodic lattices keep their type. -/
theorem C72_sweep_periodic_partial (c : Config) (hl : c.ltype = .periodic) (cs : List Config) (h : sweepConfigs c = .ok cs) :
    ∀ c' ∈ cs, c'.ltype = c.ltype := by
  intro c' hc'
  rw [hl]
  unfold sweepConfigs at h
  generalize List.range (c.nsites + 1 - c.nholes) = l at h
  induction l generalizing cs with
  | nil => rw [← Except.ok.inj h] at hc'; cases hc'
  | cons a l ih =>
    rw [List.mapM_cons] at h
    by_cases hn : c.bond.rows = 0
    · unfold Config.init at h
      rw [if_pos hn] at h
      cases h
    · rcases hm : l.mapM (fun nalpha => Config.init c.bond c.nholes (c.nsites - c.nholes - nalpha) (.pair c.restr.1 c.restr.2)
          .periodic c.nbh c.nbv c.nblocs) with e | cs'
      · rw [hm] at h
        unfold Config.init at h
        rw [if_neg hn] at h
        cases h
      · rw [hm] at h
        unfold Config.init at h
        rw [if_neg hn] at h
        rw [← Except.ok.inj h] at hc'
        rcases List.mem_cons.1 hc' with rfl | hc'
        · rfl
        · exact ih cs' hc' hm

/-- C72, exact condition: a sweep keeps the lattice type if and only if the lattice is periodic. -/
theorem C72_sweep_iff (c : Config) (hn : c.nsites ≠ 0) (hh : c.nholes ≤ c.nsites) :
    (∀ cs, sweepConfigs c = .ok cs → ∀ c' ∈ cs, c'.ltype = c.ltype) ↔ c.ltype = .periodic := by
  refine ⟨fun h => ?_, fun hl cs hcs => C72_sweep_periodic_partial c hl cs hcs⟩
  by_contra hl
  obtain ⟨cs, h1, h2, h3⟩ := C72_sweep_loses_lattice_type c hn hh hl
  obtain ⟨c', hc'⟩ := List.exists_mem_of_ne_nil cs h2
  exact h3 c' hc' (h cs h1 c' hc')

example : (rectConf 3 3 1 2 0).ltype = .periodic := rfl
example : (periConf 1 1 2 1 3).nsites ≠ 0 ∧ (periConf 1 1 2 1 3).nholes ≤ (periConf 1 1 2 1 3).nsites ∧
    (periConf 1 1 2 1 3).ltype ≠ .periodic := by decide +kernel

end TJ
