/-
embedding_blocks with dynamical effects next to a neighbour with reversed spins (C139).
-/
import Verif.Lemmas.ReversedDynamic

namespace TJ

open Finset

section
variable {K : Type} [Field K] [LinearOrder K] [IsStrictOrderedRing K]

/-- C139. With holes and different numbers of up and down spins, no dressed Hamiltonian with dynamical effects is obtained next to a
neighbour with reversed spins: an exchange that conserves the particles has no entry in the register of perturbators. -/
theorem C139_no_dressing (E : Env) (I : Interactions K) (c : Config) (hc : RectConf c c.nbh c.nbv c.nblocs) (hf : c.Full)
    (hn : c.nholes + c.nbeta ≤ c.nsites) (hh : 1 ≤ c.nholes) (hab : c.nalpha ≠ c.nbeta) (dets : List (List Nat))
    (hb : constructBasis c = .ok dets) (su : BlockSetup) (hsu : blockSetup E.toSetSem c dets true = .ok su) (o : BlockOptions K)
    (ho : o.dynamic = true) (ham : SpMat K) (gs : List K) (en : K) (M : SpMat K) : blockDressed E I c su o dets ham gs en ≠ .ok M := by
  obtain ⟨hnB, hfB, hhB, hbB, hbasB, hmB⟩ := neighbour_mem hf hn hb hsu
  obtain ⟨x, hx, y, hy, hxy⟩ := facing_sites hc hsu
  rw [if_pos rfl] at hbB
  have hab' : c.nsites - c.nholes - c.nbeta ≠ c.nbeta := by unfold Config.nalpha at hab; omega
  -- the contents that are exchanged
  obtain ⟨spin, new, s1, s2, s3, s4⟩ : ∃ spin new : Occ,
      0 < (match spin with | .hole => c.nholes | .down => c.nbeta | .up => c.nsites - c.nholes - c.nbeta) ∧
      0 < (match new with | .hole => su.cB.nholes | .down => su.cB.nbeta | .up => c.nsites - su.cB.nholes - su.cB.nbeta) ∧
      new ≠ spin ∧ spin ≠ .down ∧ new ≠ .down := by
    by_cases h0 : c.nbeta = 0
    · refine ⟨.up, .hole, ?_, ?_, by simp, by simp, by simp⟩
      · show 0 < c.nsites - c.nholes - c.nbeta
        omega
      · show 0 < su.cB.nholes
        omega
    · refine ⟨.hole, .up, ?_, ?_, by simp, by simp, by simp⟩
      · show 0 < c.nholes
        omega
      · show 0 < c.nsites - su.cB.nholes - su.cB.nbeta
        omega
  obtain ⟨α, a1, a2, a3⟩ := exists_content hn ⟨x, hx⟩ spin s1
  obtain ⟨β, b1, b2, b3⟩ := exists_content (n := c.nsites) (h := su.cB.nholes) (b := su.cB.nbeta) (by omega) ⟨y, hy⟩ new s2
  obtain ⟨k, hk, hα⟩ := exists_conf hb hn a1 a2
  have hcan : Canonical c.nsites c.nholes c.nbeta dets[k] := by
    have e := hb
    rw [constructBasis_eq] at e
    obtain rfl := Except.ok.inj e
    exact canonical_of_mem_basisList (List.getElem_mem hk)
  have hA : getSpinSite c dets[k] x = .ok spin := by
    rw [getSpinSite_eq (hcan.1.mem.2 hx), ← a3, ← hα]
    rfl
  have hβ1 : cnt c.nsites β.ext .hole = su.cB.nholes := (β.cnt_ext _).trans b1
  have hβ2 : cnt c.nsites β.ext .down = su.cB.nbeta := (β.cnt_ext _).trans b2
  have hdB : detOf c.nsites β.ext ∈ su.detsB := (hmB _).2 (mem_basisList.2 ⟨_, hβ1, hβ2, rfl⟩)
  have hB : getSpinSite su.cB (detOf c.nsites β.ext) y = .ok new := by
    rw [getSpinSite_eq ((detOf_valid _ _).mem.2 hy)]
    congr 1
    exact (occ_detOf hβ1 hβ2 hy).trans ((β.ext_lt hy).trans b3)
  have hpos : 0 < su.cB.counts.get new := by
    cases new with
    | hole => show (0 : Int) < su.cB.nholes; simp only at s2; omega
    | down => exact absurd rfl s4.2
    | up =>
      show (0 : Int) < su.cB.nalpha
      unfold Config.nalpha
      simp only at s2
      omega
  have hkey : ((countsA c.nsites c.counts spin new).id, (countsB su.cB.nsites su.cB.counts c.counts spin new).id) ∉ memoryKeys c.counts := by
    have t1 : c.counts.nholes + c.counts.nbeta + c.counts.nalpha = c.nsites := by
      unfold Config.counts Config.nalpha
      simp only
      omega
    have t2 : su.cB.counts.nholes + su.cB.counts.nbeta + su.cB.counts.nalpha = c.nsites := by
      unfold Config.counts Config.nalpha
      simp only
      omega
    have t3 : su.cB.counts.nholes = c.counts.nholes := by
      unfold Config.counts
      simp only
      omega
    have t4 : su.cB.counts.nbeta ≠ c.counts.nbeta := by
      unfold Config.counts
      simp only
      omega
    rw [hnB, C62_reversed_key_error c.nsites c.counts su.cB.counts t1 t2 t3 t4 spin new s3, not_not,
      C62_conserved_iff c.nsites c.counts su.cB.counts t1 t2 t3 spin new s3]
    exact Or.inr s4
  intro e
  unfold blockDressed at e
  obtain ⟨pB, _, e⟩ := bind_eq_ok.1 e
  refine foldlM_stops (P := fun _ => True) (fun _ _ _ _ _ => trivial) _ _ _ trivial ⟨(dets[k], k), ?_, ?_⟩ e
  · rw [List.mem_zipIdx_iff_getElem?]
    simp [hk]
  · intro M M' _ e
    obtain ⟨_, _, e⟩ := bind_eq_ok.1 e
    obtain ⟨M1, _, e⟩ := bind_eq_ok.1 e
    rw [if_pos ho] at e
    exact blockDynamic_stops hc hsu o.neighbor o.threshold en gs hx hy hxy hA hdB hB s3 hpos hkey _ _ e

/-- C139. `embedding_blocks` with dynamical effects and reversed neighbours never returns for such a block, whatever the
diagonalisation, the starting vector and the number of iterations. -/
theorem C139_never_returns (E : Env) (sqrt : K → K) (solve : Solver K) (fuel : Nat) (I : Interactions K) (c : Config)
    (hc : RectConf c c.nbh c.nbv c.nblocs) (hf : c.Full) (hn : c.nholes + c.nbeta ≤ c.nsites) (hh : 1 ≤ c.nholes) (hab : c.nalpha ≠ c.nbeta)
    (dets : List (List Nat)) (hb : constructBasis c = .ok dets) (o : BlockOptions K) (ho : o.dynamic = true) (hr : o.reverse = true)
    (ham : SpMat K) (eigvals : List K) (eigvects : List (List K)) (tol : K) (maxIter : Nat) (r : BlockResult K ⊕ List (BlockStep K)) :
    embeddingBlocks E sqrt solve fuel I c o dets ham eigvals eigvects tol maxIter ≠ .ok r := by
  intro e
  unfold embeddingBlocks at e
  obtain ⟨gs, _, e⟩ := bind_eq_ok.1 e
  obtain ⟨e0, _, e⟩ := bind_eq_ok.1 e
  obtain ⟨su, hsu, e⟩ := bind_eq_ok.1 e
  rw [hr] at hsu
  cases maxIter with
  | zero => cases e
  | succ n =>
    unfold blockLoop at e
    obtain ⟨M, e1, _⟩ := bind_eq_ok.1 e
    exact C139_no_dressing E I c hc hf hn hh hab dets hb su hsu o ho ham gs e0 M e1

/-- C139. Without holes the dynamical effects change nothing: the dressed Hamiltonian is that of the static embedding, also next to
a neighbour with reversed spins (although the exchanges are then registered under numbers of particles that are not conserved). -/
theorem C139_no_holes (E : Env) (I : Interactions K) (c : Config) (hc : RectConf c c.nbh c.nbv c.nblocs) (hf : c.Full)
    (hn : c.nholes + c.nbeta ≤ c.nsites) (hh : c.nholes = 0) (dets : List (List Nat)) (hb : constructBasis c = .ok dets)
    (o : BlockOptions K) (su : BlockSetup) (hsu : blockSetup E.toSetSem c dets o.reverse = .ok su)
    (hg : GeomLattice E su.cE (twoPos (c.nbh * c.nblocs) (c.nbv * c.nblocs))) (ham : SpMat K) (gs : List K) (en : K) :
    blockDressed E I c su o dets ham gs en = blockDressed E I c su { o with dynamic := false } dets ham gs en := by
  cases ho : o.dynamic with
  | false => rw [show o = { o with dynamic := false } from by rw [← ho]]
  | true =>
    unfold blockDressed
    congr 1
    funext pB
    refine foldlM_congr_mem (fun M p hp => ?_)
    have hp' := List.mem_zipIdx hp
    have hd : ∀ M, blockDynamic E I c su o.neighbor o.threshold gs en p.1 M = .ok M := fun M =>
      blockDynamic_spins I hc hf hn hh hb hsu hg o.neighbor o.threshold gs en (by rw [hp'.2.2]; exact List.getElem_mem _) M
    simp only [ho, if_true, hd, Bool.false_eq_true, if_false]
    rfl

/-- C139. The exact condition: with dynamical effects a dressed Hamiltonian is obtained if and only if the spins of the neighbour
are not reversed, or there are as many up as down spins, or there are no holes. -/
theorem C139_returns_iff (E : Env) (I : Interactions K) (c : Config) (hc : RectConf c c.nbh c.nbv c.nblocs) (hf : c.Full)
    (hn : c.nholes + c.nbeta ≤ c.nsites) (dets : List (List Nat)) (hb : constructBasis c = .ok dets) (o : BlockOptions K)
    (ho : o.dynamic = true) (su : BlockSetup) (hsu : blockSetup E.toSetSem c dets o.reverse = .ok su)
    (hg : GeomLattice E su.cE (twoPos (c.nbh * c.nblocs) (c.nbv * c.nblocs)))
    (hsq : o.neighbor = false → c.nbh * c.nblocs = c.nbv * c.nblocs)
    (ham : SpMat K) (hd : ham.dim = dets.length) (hin : ∀ t ∈ ham.coo, t.2.1 < ham.dim ∧ t.2.2 < ham.dim) (gs : List K)
    (hgs : gs.length = dets.length) (en : K) :
    (∃ M, blockDressed E I c su o dets ham gs en = .ok M) ↔ (o.reverse = false ∨ c.nalpha = c.nbeta ∨ c.nholes = 0) := by
  constructor
  · rintro ⟨M, e⟩
    by_contra hno
    push Not at hno
    obtain ⟨h1, h2, h3⟩ := hno
    have h1 : o.reverse = true := by simpa using h1
    rw [h1] at hsu
    exact C139_no_dressing E I c hc hf hn (by omega) h2 dets hb su hsu o ho ham gs en M e
  · intro h
    have g := blockSetup_geom E.toSetSem hc hsu
    rcases h with h | h | h
    · obtain ⟨M, m, _⟩ := blockDressed_dynamic E I hc hf hn hb o ho (Or.inl h) hsu hg hsq ham hd hin gs hgs en
      exact ⟨M, m⟩
    · obtain ⟨M, m, _⟩ := blockDressed_dynamic E I hc hf hn hb o ho (Or.inr h) hsu hg hsq ham hd hin gs hgs en
      exact ⟨M, m⟩
    · rw [C139_no_holes E I c hc hf hn h dets hb o su hsu hg ham gs en]
      exact blockDressed_total E I g hg hb hn { o with dynamic := false } rfl hsq ham hd hin gs hgs en

end

/-- C139. From a file with the results of the isolated block (or, with `neel`, of the Néel embedding) the run ends with an exception
and changes no file. -/
theorem C139_files (E : Env) (sqrt : ℝ → ℝ) (srt : List (Nat × ℝ) → List (Nat × ℝ)) (solver : List ℝ → Solver ℝ) (fuel : Nat) (fs : FileSys ℝ) (D : Data ℝ)
    (hc : RectConf D.config D.config.nbh D.config.nbv D.config.nblocs) (hf : D.config.Full) (hn : D.config.nholes + D.config.nbeta ≤ D.config.nsites)
    (hh : 1 ≤ D.config.nholes) (hab : D.config.nalpha ≠ D.config.nbeta) (neel : Bool) (o : BlockOptions ℝ) (ho : o.dynamic = true)
    (hr : o.reverse = true) (dets : List (List Nat)) (hb : constructBasis D.config = .ok dets)
    (Ld : Loaded ℝ) (hload : fs.load (blocksStart neel D.config.nsites D.config.nalpha D.config.nbeta D.bools) = .ok Ld) (e0 : ℝ) (gs : List ℝ)
    (hst : StartFile D dets Ld e0 gs) (tol : ℝ) (maxIter : Nat) :
    ∃ e, blocksOnDisk E sqrt srt solver fuel fs D neel o tol maxIter = (fs, .error e) := by
  obtain ⟨_, _, hfirst, _, _, _, _, _⟩ := hst.facts hc hf hn hb
  unfold blocksOnDisk
  rw [hload]
  simp only [hfirst, hst.determinants]
  cases h : embeddingBlocks E sqrt (solver gs) fuel D.interactions D.config o dets (Ld.ham.toCoo Ld.hamDim) Ld.eigenstates.eigvals [gs] tol maxIter with
  | ok r => exact absurd h (C139_never_returns E sqrt _ fuel _ _ hc hf hn hh hab dets hb o ho hr _ _ _ tol maxIter r)
  | error e => exact ⟨.py e, by simp only [bind, Except.bind, h]⟩

/-! ### Concrete cases -/

/-- The dressed first row of a block next to one block. -/
def dressedRow (c : Config) (gs : List ℚ) (o : BlockOptions ℚ) : Py (List ℚ) := do
  let dets ← constructBasis c
  let su ← blockSetup SetSem.sorted c dets o.reverse
  let h ← blockDressed (besideEnv (c.nbh * c.nblocs) (c.nbv * c.nblocs)) exI c su o dets ⟨dets.length, []⟩ gs 3
  return (List.range h.dim).map (fun i => h.entry 0 i)

/-- One hole and one down spin raise `KeyError`; without holes the row is that of the static embedding, for two up spins next to two
down spins and for one down and two up spins next to one up and two down spins. -/
example : dressedRow (rectConf 2 1 1 1 1) [1, 1] ⟨true, true, true, 0⟩ = .error .keyError ∧
    dressedRow (rectConf 2 1 1 0 0) [1] ⟨true, true, true, 0⟩ = .ok [-1] ∧
    dressedRow (rectConf 3 1 1 0 1) [1, 1, 2] ⟨true, true, true, 0⟩ = .ok [-5 / 6, 0, 0] := by decide +kernel

/-- The hypotheses of `C139_no_dressing` and `C139_returns_iff`: one hole and one down spin on two sites. -/
example (su : BlockSetup) (hsu : blockSetup SetSem.sorted (rectConf 2 1 1 1 1) [[0, 1], [1, 0]] true = .ok su) (M : SpMat ℚ) :
    blockDressed (besideEnv 2 1) exI (rectConf 2 1 1 1 1) su ⟨true, true, true, 0⟩ [[0, 1], [1, 0]] ⟨2, []⟩ [1, 1] 3 ≠ .ok M :=
  C139_no_dressing (besideEnv 2 1) exI (rectConf 2 1 1 1 1) (rectConf_ok _ _ _ _ _ (by decide) (by decide) (by decide))
    (by unfold Config.Full; decide) (by decide) (by decide) (by decide) _ rfl su hsu _ rfl _ _ _ M
example (o : BlockOptions ℚ) (ho : o.dynamic = true) (hno : o.neighbor = true) (su : BlockSetup)
    (hsu : blockSetup SetSem.sorted (rectConf 2 1 1 1 1) [[0, 1], [1, 0]] o.reverse = .ok su) :
    (∃ M, blockDressed (besideEnv 2 1) exI (rectConf 2 1 1 1 1) su o [[0, 1], [1, 0]] ⟨2, []⟩ [1, 1] 3 = .ok M) ↔ o.reverse = false := by
  have := C139_returns_iff (besideEnv 2 1) exI (rectConf 2 1 1 1 1) (rectConf_ok _ _ _ _ _ (by decide) (by decide) (by decide))
    (by unfold Config.Full; decide) (by decide) [[0, 1], [1, 0]] rfl o ho su hsu
    (beside_geom _ (rectConf_ok _ _ _ _ _ (by decide) (by decide) (by decide)) _ _ su hsu) (by simp [hno]) ⟨2, []⟩ rfl (by simp) [1, 1] rfl 3
  rw [this]
  exact ⟨fun h => h.resolve_right (by decide), Or.inl⟩
/-- Two up spins next to two down spins. -/
example (su : BlockSetup) (hsu : blockSetup SetSem.sorted (rectConf 2 1 1 0 0) [[0, 1]] true = .ok su) (gs : List ℚ) :
    blockDressed (besideEnv 2 1) exI (rectConf 2 1 1 0 0) su ⟨true, true, true, 0⟩ [[0, 1]] ⟨1, []⟩ gs 3 =
      blockDressed (besideEnv 2 1) exI (rectConf 2 1 1 0 0) su ⟨false, true, true, 0⟩ [[0, 1]] ⟨1, []⟩ gs 3 :=
  C139_no_holes (besideEnv 2 1) exI (rectConf 2 1 1 0 0) (rectConf_ok _ _ _ _ _ (by decide) (by decide) (by decide))
    (by unfold Config.Full; decide) (by decide) rfl _ rfl ⟨true, true, true, 0⟩ su hsu
    (beside_geom _ (rectConf_ok _ _ _ _ _ (by decide) (by decide) (by decide)) _ _ su hsu) _ gs 3

/-- From the saved state of lowest energy of one hole, one down and four up spins the run ends with an exception, on one side or on
four. -/
example (nbr : Bool) : ∃ fs : FileSys ℝ, ∃ e, blocksOnDisk (besideEnv 3 2) Real.sqrt insertionRows
    (fun g => davidsonSolver (fun _ => realLib) 1 (some g) 1000 (1 / 1000) 0) 1 fs wideCase false ⟨true, nbr, true, 1 / 1000000⟩ (1 / 1000) 20 =
      (fs, .error e) := by
  have hf : wideCase.config.Full := by unfold Config.Full; decide +kernel
  have hc : RectConf wideCase.config 3 2 1 := rectConf_ok 3 2 1 1 1 (by omega) (by omega) (by omega)
  have hn : wideCase.config.nholes + wideCase.config.nbeta ≤ wideCase.config.nsites := by decide +kernel
  obtain ⟨dets, hb⟩ : ∃ dets, constructBasis wideCase.config = .ok dets := ⟨_, constructBasis_eq _⟩
  obtain ⟨d, Ld, e, gs, _, a2, a3, _⟩ := exists_saved (besideEnv 3 2) insertionRows insertionRows_sort emptyDir rfl wideCase (exactRuns 3).times hc hf hn
    (by decide +kernel) dets hb
  exact ⟨_, C139_files (besideEnv 3 2) Real.sqrt insertionRows _ 1 _ wideCase hc hf hn (by decide +kernel) (by decide +kernel) false ⟨true, nbr, true, 1 / 1000000⟩
    rfl rfl dets hb Ld a2 e gs a3 (1 / 1000) 20⟩

end TJ
