/-
Properties C89 and C90: files written by the embeddings, and the way from `save_data` to the embeddings.
-/
import Verif.Model.Files
import Verif.Props.IO
import Verif.Lemmas.HamLin

namespace TJ

section
variable {K : Type} [Field K]

/-- The loaded object carries the data that were saved. -/
structure SameData (L : Loaded K) (d : DataComputations K) : Prop where
  rows : L.config.bond.rows = d.config.bond.rows
  cols : L.config.bond.cols = d.config.bond.cols
  bond : ∀ i < d.config.bond.rows, ∀ j < d.config.bond.cols, L.config.bond.e i j = d.config.bond.e i j
  nholes : L.config.nholes = d.config.nholes
  nbeta : L.config.nbeta = d.config.nbeta
  nbh : L.config.nbh = d.config.nbh
  nbv : L.config.nbv = d.config.nbv
  nblocs : L.config.nblocs = d.config.nblocs
  interactions : L.interactions = d.interactions
  diag : L.diag = { d.diag with guess := none }
  bools : L.bools = d.bools
  spinMult : L.spinMult = d.spinMult
  determinants : L.determinants = d.determinants
  ham : L.ham = d.ham
  hamDim : L.hamDim = d.config.nbConf
  eigenstates : L.eigenstates = d.eigenstates

omit [Field K] in
theorem get_append {D : List (String × PyVal K)} {t : PyVal K} {k : String} (hk : (k == "times") = false) :
    (PyVal.dict (D ++ [("times", t)])).get k = (PyVal.dict D).get k := by
  have : List.lookup k (D ++ [("times", t)]) = List.lookup k D := by
    induction D with
    | nil => simp [List.lookup, hk]
    | cons p D ih =>
      rw [List.cons_append, List.lookup, List.lookup, ih]
  unfold PyVal.get
  dsimp only
  rw [this]

omit [Field K] in
theorem hasKey_append {D : List (String × PyVal K)} {t : PyVal K} {k : String} (hk : (k == "times") = false) :
    (PyVal.dict (D ++ [("times", t)])).hasKey k = (PyVal.dict D).hasKey k := by
  have := get_append (D := D) (t := t) hk
  unfold PyVal.get at this
  unfold PyVal.hasKey
  dsimp only at this ⊢
  cases h1 : List.lookup k (D ++ [("times", t)]) <;> cases h2 : List.lookup k D <;> simp_all

omit [Field K] in
theorem required_append {D : List (String × PyVal K)} {t : PyVal K} {names : List String} (hk : ∀ k ∈ names, (k == "times") = false) :
    (PyVal.dict (D ++ [("times", t)])).required names = (PyVal.dict D).required names := by
  have : names.all (fun n => (PyVal.dict (D ++ [("times", t)])).hasKey n) = names.all (fun n => (PyVal.dict D).hasKey n) := by
    induction names with
    | nil => rfl
    | cons a l ih =>
      rw [List.all_cons, List.all_cons, ih (fun k h => hk k (List.mem_cons_of_mem _ h)), hasKey_append (hk a List.mem_cons_self)]
  unfold PyVal.required
  rw [this]

/-- Without the times, everything else is read in the same way. -/
theorem recover_without_times {D : List (String × PyVal K)} {t : PyVal K} {L : Loaded K} (hD : (PyVal.dict D).hasKey "times" = false)
    (h : recoverResults (.dict (D ++ [("times", t)])) = .ok L) : recoverResults (.dict D) = .ok { L with times := none } := by
  have ht : ∀ f : PyVal K → Py (Option (Times K)), attrOr (.dict D) "times" f none = .ok none := by
    intro f
    unfold attrOr
    rw [hD]
    rfl
  unfold recoverResults at h ⊢
  rw [required_append (by decide), get_append rfl, get_append rfl, get_append rfl, get_append rfl, get_append rfl, get_append rfl, get_append rfl] at h
  rw [ht]
  obtain ⟨x0, b0, h⟩ := bind_eq_ok.1 h
  refine bind_ok b0 ?_
  obtain ⟨x1, b1, h⟩ := bind_eq_ok.1 h
  refine bind_ok b1 ?_
  obtain ⟨x2, b2, h⟩ := bind_eq_ok.1 h
  refine bind_ok b2 ?_
  obtain ⟨x3, b3, h⟩ := bind_eq_ok.1 h
  refine bind_ok b3 ?_
  obtain ⟨x4, b4, h⟩ := bind_eq_ok.1 h
  refine bind_ok b4 ?_
  obtain ⟨x5, b5, h⟩ := bind_eq_ok.1 h
  refine bind_ok b5 ?_
  obtain ⟨x6, b6, h⟩ := bind_eq_ok.1 h
  refine bind_ok b6 ?_
  obtain ⟨x7, b7, h⟩ := bind_eq_ok.1 h
  refine bind_ok b7 ?_
  obtain ⟨x8, b8, h⟩ := bind_eq_ok.1 h
  refine bind_ok b8 ?_
  obtain ⟨x9, b9, h⟩ := bind_eq_ok.1 h
  refine bind_ok b9 ?_
  obtain ⟨x10, b10, h⟩ := bind_eq_ok.1 h
  refine bind_ok b10 ?_
  obtain ⟨x11, b11, h⟩ := bind_eq_ok.1 h
  refine bind_ok b11 ?_
  obtain ⟨x12, b12, h⟩ := bind_eq_ok.1 h
  refine bind_ok b12 ?_
  obtain ⟨x13, b13, h⟩ := bind_eq_ok.1 h
  refine bind_ok b13 ?_
  obtain ⟨x14, b14, h⟩ := bind_eq_ok.1 h
  refine bind_ok b14 ?_
  obtain ⟨x15, b15, h⟩ := bind_eq_ok.1 h
  refine bind_ok b15 ?_
  obtain ⟨x16, b16, h⟩ := bind_eq_ok.1 h
  refine bind_ok b16 ?_
  obtain ⟨x17, b17, h⟩ := bind_eq_ok.1 h
  refine bind_ok b17 ?_
  obtain ⟨x18, b18, h⟩ := bind_eq_ok.1 h
  refine bind_ok b18 ?_
  obtain ⟨x19, b19, h⟩ := bind_eq_ok.1 h
  refine bind_ok b19 ?_
  obtain ⟨x20, b20, h⟩ := bind_eq_ok.1 h
  refine bind_ok b20 ?_
  obtain ⟨x21, b21, h⟩ := bind_eq_ok.1 h
  refine bind_ok b21 ?_
  obtain ⟨x22, b22, h⟩ := bind_eq_ok.1 h
  refine bind_ok b22 ?_
  obtain ⟨x23, b23, h⟩ := bind_eq_ok.1 h
  refine bind_ok b23 ?_
  obtain ⟨x24, b24, h⟩ := bind_eq_ok.1 h
  refine bind_ok b24 ?_
  obtain ⟨x25, b25, h⟩ := bind_eq_ok.1 h
  refine bind_ok b25 ?_
  obtain ⟨x26, b26, h⟩ := bind_eq_ok.1 h
  refine bind_ok b26 ?_
  obtain ⟨x27, b27, h⟩ := bind_eq_ok.1 h
  refine bind_ok b27 ?_
  obtain ⟨x28, b28, h⟩ := bind_eq_ok.1 h
  refine bind_ok rfl ?_
  obtain rfl := Except.ok.inj h
  rfl

/-- Reading back the value written by the embeddings. -/
theorem embedding_roundtrip (d : DataComputations K) (hg : d.diag.guess = none) (hn : d.config.nsites ≠ 0)
    (hh : CsrShape d.config.nbConf d.ham.data d.ham.indices d.ham.indptr) :
    ∃ v L, embeddingContent d = .ok v ∧ loadData v = .ok L ∧ SameData L d ∧ L.times = none := by
  -- `save_data` with times gives the same value with one more key at the end
  obtain ⟨name, v, L, h1, h2, a1, a2, a3, a4, a5, a6, a7, a8, a9, a10, a11, a12, a13, a14, a15, a16, a17, a18, a19⟩ :=
    C54_roundtrip_partial { d with times := some ⟨0, 0, 0⟩ } ⟨0, 0, 0⟩ rfl hn hh
  refine ⟨.dict [
    ("configuration", d.config.toJson),
    ("interactions", d.interactions.toJson),
    ("diagonalization", .dict [("nb_val", .int d.diag.nbVal), ("stp", .int d.diag.stp), ("tol", .float d.diag.tol),
      ("dim_max", .int d.diag.dimMax), ("initial_guess", .none)]),
    ("bool_interactions", .dict [("bt", .bool d.bools.bt), ("bz", .bool d.bools.bz), ("bij", .bool d.bools.bij),
      ("bSD", .bool d.bools.bSD), ("btN", .bool d.bools.btN), ("bV", .bool d.bools.bV), ("b_spin_multipicities", .bool d.spinMult)]),
    ("determinants", .list (d.determinants.map natList)),
    ("hamiltonian", .dict [("data", .list (d.ham.data.map .float)), ("indices", natList d.ham.indices), ("indptr", natList d.ham.indptr)]),
    ("eigenstates", .dict [("eigvals", .list (d.eigenstates.eigvals.map .float)), ("spins", .list (d.eigenstates.spins.map spinVal)),
      ("eigvects", .list (d.eigenstates.eigvects.map (fun r => .list (r.map .float))))])], { L with times := none }, ?_, ?_,
    ⟨a1, a2, a3, a4, a5, a6, a7, a8, a11, a12, a13, a14, a15, a16, a17, a18⟩, rfl⟩
  · unfold embeddingContent
    rw [hg]
    rfl
  obtain ⟨rfl, rfl⟩ := Prod.mk.inj (Except.ok.inj h1)
  unfold loadData at h2 ⊢
  rw [jsonRT] at h2 ⊢
  exact recover_without_times rfl h2

omit [Field K] in
/-- C54: whatever is on the disk, the arrays of a Hamiltonian that was loaded fit its dimension. -/
theorem load_shape {fs : FileSys K} {path : List Char} {L : Loaded K} (h : fs.load path = .ok L) :
    CsrShape L.hamDim L.ham.data L.ham.indices L.ham.indptr := by
  unfold FileSys.load at h
  split at h
  · cases h
  · cases h
  · rename_i v _
    cases hv : loadData v with
    | error e => rw [hv] at h; cases h
    | ok L' =>
      rw [hv] at h
      obtain rfl := Except.ok.inj h
      exact C54_loaded_shape v L' hv

/-! ### C89 -/

omit [Field K] in
theorem writeJson_ok {fs : FileSys K} {dirOk : Bool} {path : List Char} {v : PyVal K} (hr : fs.root = true) (hd : dirOk = true) :
    writeJson fs dirOk path (.ok v) = (fs.put path (some v), .ok ()) := by
  unfold writeJson
  rw [hr, hd]
  rfl

omit [Field K] in
theorem writeJson_error {fs : FileSys K} {dirOk : Bool} {path : List Char} {e : PyErr} (hr : fs.root = true) (hd : dirOk = true) :
    writeJson fs dirOk path (.error e) = (fs.put path none, .error (.py e)) := by
  unfold writeJson
  rw [hr, hd]
  rfl

omit [Field K] in
/-- The two ways to reach the file, with and without its directory. -/
theorem saveIn_eq {fs : FileSys K} (hr : fs.root = true) (dir path : List Char) (v : Py (PyVal K)) :
    ∃ fs' : FileSys K, fs'.root = true ∧ fs'.file = fs.file ∧ dir ∈ fs'.dirs ∧ (∀ x ∈ fs.dirs, x ∈ fs'.dirs) ∧
      saveIn fs dir path v = match v with
        | .ok v => (fs'.put path (some v), .ok ())
        | .error e => (fs'.put path none, .error (.py e)) := by
  by_cases hd : dir ∈ fs.dirs
  · have hc : fs.dirs.contains dir = true := by simpa using hd
    refine ⟨fs, hr, rfl, hd, fun _ h => h, ?_⟩
    unfold saveIn
    cases v with
    | ok v => rw [writeJson_ok hr hc]
    | error e => rw [writeJson_error hr hc]
  · have hc : fs.dirs.contains dir = false := by simpa using hd
    refine ⟨{ fs with dirs := dir :: fs.dirs }, hr, rfl, List.mem_cons_self, fun _ h => List.mem_cons_of_mem _ h, ?_⟩
    have h1 : writeJson fs (fs.dirs.contains dir) path v = (fs, .error .os) := by
      unfold writeJson
      rw [hc, hr]
      rfl
    have h2 : fs.mkdir dir = ({ fs with dirs := dir :: fs.dirs }, .ok ()) := by
      unfold FileSys.mkdir
      rw [hc, hr]
      rfl
    unfold saveIn
    rw [h1]
    dsimp only
    rw [h2]
    dsimp only
    have hc' : (dir :: fs.dirs).contains dir = true := by simp
    cases v with
    | ok v => exact writeJson_ok hr hc'
    | error e => exact writeJson_error hr hc'

/-- What both functions do, for a given subdirectory and file name. -/
theorem saveIn_content {fs : FileSys K} (hr : fs.root = true) (dir path : List Char) (d : DataComputations K) (hn : d.config.nsites ≠ 0) :
    (d.diag.guess = none → (saveIn fs dir path (embeddingContent d)).2 = .ok () ∧
      (CsrShape d.config.nbConf d.ham.data d.ham.indices d.ham.indptr → ∃ L, (saveIn fs dir path (embeddingContent d)).1.load path = .ok L ∧ SameData L d ∧ L.times = none) ∧
      ∀ p, p ≠ path → (saveIn fs dir path (embeddingContent d)).1.load p = fs.load p) ∧
    (d.diag.guess ≠ none → (saveIn fs dir path (embeddingContent d)).2 = .error (.py .typeError) ∧
      (saveIn fs dir path (embeddingContent d)).1.load path = .error (.py .valueError) ∧
      ∀ p, p ≠ path → (saveIn fs dir path (embeddingContent d)).1.load p = fs.load p) := by
  obtain ⟨fs', h1, h2, h3, h4, h5⟩ := saveIn_eq hr dir path (embeddingContent d)
  rw [h5]
  constructor
  · intro hg
    obtain ⟨v, e1⟩ : ∃ v, embeddingContent d = .ok v := by
      unfold embeddingContent
      rw [hg]
      exact ⟨_, rfl⟩
    rw [e1]
    refine ⟨rfl, fun hh => ?_, fun p hp => ?_⟩
    · obtain ⟨v', L, e1', e2, e3, e4⟩ := embedding_roundtrip d hg hn hh
      obtain rfl := Except.ok.inj (e1.symm.trans e1')
      refine ⟨L, ?_, e3, e4⟩
      unfold FileSys.load FileSys.put
      simp [e2, Except.mapError]
    · unfold FileSys.load FileSys.put
      simp [hp, h2]
  · intro hg
    have e : embeddingContent d = .error .typeError := by
      unfold embeddingContent
      cases h : d.diag.guess with
      | none => exact absurd h hg
      | some g => rfl
    rw [e]
    refine ⟨rfl, ?_, fun p hp => ?_⟩
    · unfold FileSys.load FileSys.put
      simp
    · unfold FileSys.load FileSys.put
      simp [hp, h2]

/-- C89, part: without an initial guess the results of the Néel embedding are written, can be loaded back, and no other file changes.
The full claim (with any initial guess) is false, see `C89_guess_empties_file`. -/
theorem C89_peripheral_partial (fs : FileSys K) (hr : fs.root = true) (d : DataComputations K) (hn : d.config.nsites ≠ 0) (hg : d.diag.guess = none)
    (hh : CsrShape d.config.nbConf d.ham.data d.ham.indices d.ham.indptr) :
    let path := savedPeripheralFile d.config.nsites d.config.nalpha d.config.nbeta d.bools
    (savePeripheral fs d).2 = .ok () ∧ (∃ L, (savePeripheral fs d).1.load path = .ok L ∧ SameData L d ∧ L.times = none) ∧
      ∀ p, p ≠ path → (savePeripheral fs d).1.load p = fs.load p :=
  ((saveIn_content hr _ _ d hn).1 hg).imp_right (And.imp_left fun h => h hh)

/-- C89, part: the same for the embedding in blocks. -/
theorem C89_blocks_partial (fs : FileSys K) (hr : fs.root = true) (d : DataComputations K) (hn : d.config.nsites ≠ 0) (hg : d.diag.guess = none)
    (hh : CsrShape d.config.nbConf d.ham.data d.ham.indices d.ham.indptr) (dyn neel neigh : Bool) :
    let path := savedBlocksFile dyn neel neigh d.config.nsites d.config.nalpha d.config.nbeta d.bools
    (saveBlocks fs d dyn neel neigh).2 = .ok () ∧ (∃ L, (saveBlocks fs d dyn neel neigh).1.load path = .ok L ∧ SameData L d ∧ L.times = none) ∧
      ∀ p, p ≠ path → (saveBlocks fs d dyn neel neigh).1.load p = fs.load p :=
  ((saveIn_content hr _ _ d hn).1 hg).imp_right (And.imp_left fun h => h hh)

/-- C89 fails: with any initial guess both functions raise `TypeError`, and leave an empty file that cannot be loaded, whatever it
contained before. -/
theorem C89_guess_empties_file (fs : FileSys K) (hr : fs.root = true) (d : DataComputations K) (hn : d.config.nsites ≠ 0) (hg : d.diag.guess ≠ none)
    (dyn neel neigh : Bool) :
    (savePeripheral fs d).2 = .error (.py .typeError) ∧
    (savePeripheral fs d).1.load (savedPeripheralFile d.config.nsites d.config.nalpha d.config.nbeta d.bools) = .error (.py .valueError) ∧
    (saveBlocks fs d dyn neel neigh).2 = .error (.py .typeError) ∧
    (saveBlocks fs d dyn neel neigh).1.load (savedBlocksFile dyn neel neigh d.config.nsites d.config.nalpha d.config.nbeta d.bools) =
      .error (.py .valueError) := by
  obtain ⟨a1, a2, _⟩ := (saveIn_content hr "Peripheral_embedding".toList (savedPeripheralFile d.config.nsites d.config.nalpha d.config.nbeta d.bools) d hn).2 hg
  obtain ⟨b1, b2, _⟩ := (saveIn_content hr "Embedding_blocks".toList
    (savedBlocksFile dyn neel neigh d.config.nsites d.config.nalpha d.config.nbeta d.bools) d hn).2 hg
  exact ⟨a1, a2, b1, b2⟩

/-! ### C90 -/

/-- C90, part: if all five encoded switches are on, the embedding functions load exactly what `save_data` wrote, and their own results
can then be saved with the same `Data` object, whatever the initial guess was. For other switches see `C90_other_switches`. -/
theorem C90_chain_partial (fs : FileSys K) (hr : fs.root = true) (d : DataComputations K) (t : Times K) (ht : d.times = some t) (hn : d.config.nsites ≠ 0)
    (hh : CsrShape d.config.nbConf d.ham.data d.ham.indices d.ham.indptr) (hs : d.bools.bt ∧ d.bools.bij ∧ d.bools.bSD ∧ d.bools.btN ∧ d.bools.bV) :
    (saveDataFs fs d).2.2 = .ok () ∧
    (∃ L, (saveDataFs fs d).1.load (loadName d.config.nsites d.config.nalpha d.config.nbeta d.bools) = .ok L ∧ SameData L d ∧ L.times = some t) ∧
    ∀ (vals : Eigenstates K) (ham : Csr K),
      (savePeripheral (saveDataFs fs d).1 { (saveDataFs fs d).2.1 with ham := ham, eigenstates := vals, times := none }).2 = .ok () := by
  obtain ⟨name, v, L, h1, h2, a1, a2, a3, a4, a5, a6, a7, a8, a9, a10, a11, a12, a13, a14, a15, a16, a17, a18, a19⟩ := C54_roundtrip_partial d t ht hn hh
  have hw : saveDataFs fs d = (fs.put (saveName d.config.nsites d.config.nalpha d.config.nbeta d.bools) (some v),
      { d with diag := { d.diag with guess := none } }, .ok ()) := by
    unfold saveDataFs
    rw [h1]
    have hv : Except.map (·.2) (Except.ok (name, v) : Py (List Char × PyVal K)) = .ok v := rfl
    rw [hv, writeJson_ok hr rfl]
  rw [hw]
  refine ⟨rfl, ⟨L, ?_, ⟨a1, a2, a3, a4, a5, a6, a7, a8, a11, a12, a13, a14, a15, a16, a17, a18⟩, a19⟩, fun vals ham => ?_⟩
  · rw [(C56_names_agree_iff_partial _ _ _ _).2 hs]
    unfold FileSys.load FileSys.put
    simp [h2, Except.mapError]
  · exact ((saveIn_content (fs := fs.put _ (some v)) hr _ _ { d with diag := { d.diag with guess := none }, ham := ham, eigenstates := vals, times := none } hn).1 rfl).1

/-- C90 fails: with another choice of switches the embedding functions do not see what `save_data` wrote; the file they load is the one
that was there before, and if there was none they raise `FileNotFoundError`. -/
theorem C90_other_switches (fs : FileSys K) (d : DataComputations K)
    (hs : ¬ (d.bools.bt ∧ d.bools.bij ∧ d.bools.bSD ∧ d.bools.btN ∧ d.bools.bV)) :
    (saveDataFs fs d).1.load (loadName d.config.nsites d.config.nalpha d.config.nbeta d.bools) =
      fs.load (loadName d.config.nsites d.config.nalpha d.config.nbeta d.bools) := by
  have hne : loadName d.config.nsites d.config.nalpha d.config.nbeta d.bools ≠ saveName d.config.nsites d.config.nalpha d.config.nbeta d.bools :=
    fun h => hs ((C56_names_agree_iff_partial _ _ _ _).1 h)
  unfold saveDataFs writeJson FileSys.load FileSys.put
  dsimp only
  split_ifs with h
  · cases (saveData d).map (·.2) <;> simp [hne]
  · rfl

end

/-- An empty directory `./initialComputations`. -/
def exFs : FileSys ℚ := ⟨true, [], fun _ => none⟩

example : exFs.root = true ∧ exSaved.config.nsites ≠ 0 ∧ exSaved.diag.guess ≠ none ∧ ({ exSaved.diag with guess := none } : Diagonalization ℚ).guess = none := by
  refine ⟨rfl, by decide, by simp [exSaved], rfl⟩

/-- With the guess: an error and an unreadable file, where there was a readable one. -/
example : (savePeripheral exFs { exSaved with diag := { exSaved.diag with guess := none } }).2 = .ok () ∧
    (savePeripheral (savePeripheral exFs { exSaved with diag := { exSaved.diag with guess := none } }).1 exSaved).2 = .error (.py .typeError) ∧
    (savePeripheral (savePeripheral exFs { exSaved with diag := { exSaved.diag with guess := none } }).1 exSaved).1.load
      (savedPeripheralFile 12 11 0 exSaved.bools) = .error (.py .valueError) := by
  have h : exSaved.config.nsites ≠ 0 := by decide
  have a := C89_peripheral_partial exFs rfl { exSaved with diag := { exSaved.diag with guess := none } } h rfl exSaved_shape
  have b := C89_guess_empties_file (savePeripheral exFs { exSaved with diag := { exSaved.diag with guess := none } }).1 rfl exSaved h
    (by simp [exSaved]) true true true
  exact ⟨a.1, b.1, b.2.1⟩

/-- The switches of the example are not all on: the embedding finds no file. -/
example : (saveDataFs exFs exSaved).2.2 = .ok () ∧
    (saveDataFs exFs exSaved).1.load (loadName 12 11 0 exSaved.bools) = .error .os :=
  ⟨rfl, C90_other_switches exFs exSaved (by decide)⟩

example : ∃ L, (saveDataFs exFs { exSaved with bools := ⟨true, true, true, true, true, true⟩ }).1.load (loadName 12 11 0 ⟨true, true, true, true, true, true⟩) =
    .ok L ∧ L.determinants = exSaved.determinants := by
  obtain ⟨_, ⟨L, h, hs, _⟩, _⟩ := C90_chain_partial exFs rfl { exSaved with bools := ⟨true, true, true, true, true, true⟩ } ⟨1, 2, 3⟩ rfl
    (show exSaved.config.nsites ≠ 0 by decide) exSaved_shape (by decide)
  exact ⟨L, h, hs.determinants⟩

end TJ
