/-
Properties C101-C103: the spectrum against t/J (`plot_spectrum_dependance`).
-/
import Verif.Lemmas.Dependance
import Verif.Props.PostProcessing2

namespace TJ

/-! ### C101: the content of the curves -/

/-- The point of the state number `k` of a run: rounded energy, multiplicity, and number of returned states with the same rounded energy. -/
def IsPoint (r : InitialResult) (k : Nat) (q : ℝ × String × Nat) : Prop :=
  ∃ lam s, r.eig.eigvals[k]? = some lam ∧ r.spins[k]? = some s ∧
    q = (round6 lam, s.multiplicity, (r.eig.eigvals.filter fun mu => decide (round6 mu = round6 lam)).length)

/-- The number of states computed at every ratio. -/
def Data.nbStates (D : Data ℝ) : Nat := D.diag.count (computeDimension D.config.nsites D.config.nalpha D.config.nbeta)

theorem isPoint_levels {E : Env} {L : LinAlg ℝ} {swap : List ℝ → Bool} {D : Data ℝ} (hs : D.spinMult = true) {r : InitialResult}
    (hr : performInitial E L swap D = .ok r) (p : Levels) (h1 : p.vals = r.eig.eigvals.map round6)
    (h2 : p.mults = r.spins.map SpinNumber.multiplicity)
    (h3 : p.degs = (r.eig.eigvals.map round6).map (fun e => (r.eig.eigvals.map round6).count e)) (k : Nat) (hk : k < D.nbStates) :
    IsPoint r k (p.vals.getD k 0, p.mults.getD k "", p.degs.getD k 0) := by
  obtain ⟨s1, s2, s3⟩ := performInitial_shape hs hr
  have k1 : k < r.eig.eigvals.length := by rw [s2]; exact hk
  have k2 : k < r.spins.length := by rw [s3]; exact hk
  refine ⟨r.eig.eigvals[k], r.spins[k], List.getElem?_eq_getElem k1, List.getElem?_eq_getElem k2, ?_⟩
  rw [h1, h2, h3]
  simp only [List.getD_eq_getElem?_getD, List.getElem?_map, List.getElem?_eq_getElem k1, List.getElem?_eq_getElem k2, Option.map_some,
    Option.getD_some]
  congr 2
  rw [List.count_eq_countP, List.countP_map, List.countP_eq_length_filter]
  rfl

/-- C101. A successful sweep has one curve per requested state, of which the first `nbStates` have one point per ratio and the others are
empty. The point number `i` of the curve number `k` is that of the state number `k` at the ratio number `i`, with the couplings of this
ratio, without (`ext = false`) or with the extension. -/
theorem C101_sweep (E : Env) (L : Nat → Bool → LinAlg ℝ) (swap : List ℝ → Bool) (D : Data ℝ) (n : Nat) : ∀ (m : Nat) (c c' : List (Curve ℝ)),
    dependanceSweep E L swap D n m = .ok (c, c') → ∀ ext : Bool,
      (if ext then c' else c).length = D.diag.nbVal ∧
      (∀ k row, (if ext then c' else c)[k]? = some row → row.length = if k < D.nbStates then m else 0) ∧
      ∀ i < m, ∃ I r, dependanceCouplings D.interactions (ratio n i) = .ok I ∧
        performInitial E (L i ext) swap (dependanceData D I ext) = .ok r ∧
        ∀ k row, k < D.nbStates → (if ext then c' else c)[k]? = some row → ∃ q, row[i]? = some q ∧ IsPoint r k q
  | 0, c, c', h, ext => by
    have h : (Except.ok (List.replicate D.diag.nbVal [], List.replicate D.diag.nbVal []) : Py (List (Curve ℝ) × List (Curve ℝ))) = .ok (c, c') := h
    have h := Except.ok.inj h
    simp only [Prod.mk.injEq] at h
    obtain ⟨rfl, rfl⟩ := h
    refine ⟨by simp, ?_, fun i hi => absurd hi (by omega)⟩
    intro k row hk
    simp only [ite_self, List.getElem?_replicate] at hk ⊢
    split_ifs at hk with h
    · rw [← Option.some.inj hk]; rfl
  | m + 1, c, c', h, ext => by
    have h : dependanceSweep E L swap D n (m + 1) = .ok (c, c') := h
    unfold dependanceSweep at h
    rw [List.range_succ, List.foldlM_append] at h
    obtain ⟨⟨b, b'⟩, h1, h2⟩ := bind_eq_ok.1 h
    have ih := C101_sweep E L swap D n m b b' h1
    simp only [List.foldlM_cons, List.foldlM_nil] at h2
    obtain ⟨y, h2, hy⟩ := bind_eq_ok.1 h2
    obtain rfl : y = (c, c') := Except.ok.inj hy
    unfold dependanceStep at h2
    obtain ⟨I, hI, h2⟩ := bind_eq_ok.1 h2
    obtain ⟨p, hp, h2⟩ := bind_eq_ok.1 h2
    obtain ⟨p', hp', h2⟩ := bind_eq_ok.1 h2
    obtain ⟨r, r1, r2, r3, r4, r5, r6, r7, r8⟩ := levelsAt_ok (D := dependanceData D I false) rfl hp
    obtain ⟨r', q1, q2, q3, q4, q5, q6, q7, q8⟩ := levelsAt_ok (D := dependanceData D I true) rfl hp'
    have r2 : p.vals.length = D.nbStates := r2
    have q2 : p'.vals.length = D.nbStates := q2
    have hle : D.nbStates ≤ D.diag.nbVal := Nat.min_le_left _ _
    have lb : b.length = D.diag.nbVal := by simpa using (ih false).1
    have lb' : b'.length = D.diag.nbVal := by simpa using (ih true).1
    unfold appendLevels at h2
    rw [r5, q5] at h2
    have hz : (p.vals.zip p'.vals).length = D.nbStates := by rw [List.length_zip, r2, q2, min_self]
    obtain ⟨d, d', g1, g2, g3, g4, g5⟩ := appendFold_spec p p' (p.vals.zip p'.vals) 0 b b' (by omega) (by omega) (by omega) (by omega) (by omega) (by omega)
    rw [g1] at h2
    have h2 := Except.ok.inj h2
    simp only [Prod.mk.injEq] at h2
    obtain ⟨rfl, rfl⟩ := h2
    rw [List.map_fst_zip (by omega)] at g4
    rw [List.map_snd_zip (by omega)] at g5
    simp only [Nat.zero_le, true_and, Nat.zero_add, hz, Nat.sub_zero] at g4 g5
    -- both series are treated in the same way
    have main : ∀ (ext : Bool) (b d : List (Curve ℝ)) (p : Levels) (r : InitialResult), b.length = D.diag.nbVal → d.length = D.diag.nbVal →
        (∀ k (hk : k < d.length) (hk' : k < b.length), d[k] = if h : k < D.nbStates then
          b[k] ++ [(p.vals.getD k 0, p.mults.getD k "", p.degs.getD k 0)] else b[k]) →
        performInitial E (L m ext) swap (dependanceData D I ext) = .ok r →
        (∀ k, k < D.nbStates → IsPoint r k (p.vals.getD k 0, p.mults.getD k "", p.degs.getD k 0)) →
        ((∀ k row, b[k]? = some row → row.length = if k < D.nbStates then m else 0) ∧
          ∀ i < m, ∃ I r, dependanceCouplings D.interactions (ratio n i) = .ok I ∧
            performInitial E (L i ext) swap (dependanceData D I ext) = .ok r ∧
            ∀ k row, k < D.nbStates → b[k]? = some row → ∃ q, row[i]? = some q ∧ IsPoint r k q) →
        d.length = D.diag.nbVal ∧ (∀ k row, d[k]? = some row → row.length = if k < D.nbStates then m + 1 else 0) ∧
          ∀ i < m + 1, ∃ I r, dependanceCouplings D.interactions (ratio n i) = .ok I ∧
            performInitial E (L i ext) swap (dependanceData D I ext) = .ok r ∧
            ∀ k row, k < D.nbStates → d[k]? = some row → ∃ q, row[i]? = some q ∧ IsPoint r k q := by
      clear g4 g5 g1 g2 g3 hz q1 q2 q3 q4 q5 q6 q7 q8 r1 r2 r3 r4 r5 r6 r7 r8 r r' ih hp hp' lb lb' ext
      intro ext b d p r lb ld g hr hpt ⟨i1, i2⟩
      have row_eq : ∀ k row, d[k]? = some row → ∃ row0, b[k]? = some row0 ∧ row = if k < D.nbStates then
          row0 ++ [(p.vals.getD k 0, p.mults.getD k "", p.degs.getD k 0)] else row0 := by
        intro k row hk
        obtain ⟨hkd, rfl⟩ := List.getElem?_eq_some_iff.1 hk
        have hkb : k < b.length := by omega
        refine ⟨b[k], List.getElem?_eq_getElem hkb, ?_⟩
        rw [g k hkd hkb]
        split_ifs <;> rfl
      refine ⟨ld, ?_, ?_⟩
      · intro k row hk
        obtain ⟨row0, e1, rfl⟩ := row_eq k row hk
        have := i1 k row0 e1
        split_ifs at this ⊢ <;> simp [this]
      · intro i hi
        rcases Nat.lt_succ_iff_lt_or_eq.1 hi with hi | rfl
        · obtain ⟨I', r', e1, e2, e3⟩ := i2 i hi
          refine ⟨I', r', e1, e2, ?_⟩
          intro k row hks hk
          obtain ⟨row0, f1, rfl⟩ := row_eq k row hk
          obtain ⟨q, f2, f3⟩ := e3 k row0 hks f1
          refine ⟨q, ?_, f3⟩
          rw [if_pos hks, List.getElem?_append_left (List.getElem?_eq_some_iff.1 f2).1, f2]
        · refine ⟨I, r, hI, hr, ?_⟩
          intro k row hks hk
          obtain ⟨row0, f1, rfl⟩ := row_eq k row hk
          refine ⟨_, ?_, hpt k hks⟩
          have := i1 k row0 f1
          rw [if_pos hks] at this
          rw [if_pos hks, List.getElem?_append_right (by omega), this, Nat.sub_self]
          rfl
    cases ext with
    | false =>
      simp only [Bool.false_eq_true, if_false]
      have := ih false
      simp only [Bool.false_eq_true, if_false] at this
      exact main false b _ p r lb (by omega) g4 r1 (isPoint_levels (D := dependanceData D I false) rfl r1 p r6 r7 r8) this.2
    | true =>
      simp only [if_true]
      have := ih true
      simp only [if_true] at this
      exact main true b' _ p' r' lb' (by omega) (fun k hk hk' => g5 k hk hk') q1
        (isPoint_levels (D := dependanceData D I true) rfl q1 p' q6 q7 q8) this.2

theorem round6_near (x : ℝ) : |round6 x - x| ≤ 1 / 2000000 := by
  unfold round6
  have h := pyRound_near (x * 1000000)
  rw [abs_le] at h ⊢
  constructor
  · rw [le_sub_iff_add_le, le_div_iff₀ (by norm_num)]; linarith
  · rw [sub_le_iff_le_add, div_le_iff₀ (by norm_num)]; linarith

/-- C101. On an unrestricted rectangular lattice, in exact arithmetic: wherever the diagonalisation has converged, every point of the first
figure is within the tolerance and the rounding of an exact energy of the model with hopping `t` and both parts of the spin coupling, and
every point of the second figure of one of the model with all terms. -/
theorem C101_energies (E : Env) (L : Nat → Bool → LinAlg ℝ) (hL : ∀ i ext, (L i ext).ExactSqrt) (he : ∀ i ext, (L i ext).ExactEigh)
    (hq : ∀ i ext, (L i ext).ExactQr) (swap : List ℝ → Bool) (D : Data ℝ) (nbh nbv nb : Nat) (hc : RectConf D.config nbh nbv nb)
    (hf : D.config.Full) (hn : D.config.nholes + D.config.nbeta ≤ D.config.nsites) (n m : Nat) (c c' : List (Curve ℝ))
    (h : dependanceSweep E L swap D n m = .ok (c, c')) (ext : Bool) (i : Nat) (hi : i < m) :
    ∃ I r, dependanceCouplings D.interactions (ratio n i) = .ok I ∧
      performInitial E (L i ext) swap (dependanceData D I ext) = .ok r ∧
      (r.eig.converged = true → 1 < D.nbStates ∨ 2 ≤ r.eig.trace.length →
        ∀ k row q, k < D.nbStates → (if ext then c' else c)[k]? = some row → row[i]? = some q →
          ∃ (mu : ℝ) (ψ : Conf D.config.nsites → ℝ), (∃ σ, ψ σ ≠ 0) ∧ InSector D.config.nholes D.config.nbeta ψ ∧
            (∀ σ, tjOp I (fun s => gridPos (nbh * nb) s) ⟨true, true, true, ext, ext, ext⟩ ψ σ = mu * ψ σ) ∧
            |mu - q.1| ≤ D.diag.tol + 1 / 2000000) := by
  obtain ⟨_, _, hpts⟩ := C101_sweep E L swap D n m c c' h ext
  obtain ⟨I, r, h1, h2, h3⟩ := hpts i hi
  refine ⟨I, r, h1, h2, fun hcv hm k row q hk hrow hq' => ?_⟩
  obtain ⟨q', e1, lam, s, e2, _, e3⟩ := h3 k row hk hrow
  obtain rfl := Option.some.inj (hq'.symm.trans e1)
  have hdim := C02_dimension _ _ (performInitial_ok h2).1
  obtain ⟨mu, ψ, p1, p2, p3, p4⟩ := C80_near_eigenvalue E (L i ext) (hL i ext) (he i ext) (hq i ext) swap (dependanceData D I ext) nbh nbv nb hc hf hn
    r h2 hcv (by
      refine hm.imp_left fun hm => ?_
      rw [hdim]
      exact hm) lam (List.mem_of_getElem? e2)
  refine ⟨mu, ψ, p1, p2, p3, ?_⟩
  rw [e3]
  have h4 := round6_near lam
  have h5 : |mu - lam| ≤ D.diag.tol := p4
  rw [abs_le] at h4 h5 ⊢
  constructor <;> simp only <;> linarith

/-! ### C102: the Hamiltonians of the sweep -/

/-- C101, the ratios: they go from 0.3 to 10 in equal steps; all are positive. -/
theorem C101_ratios (n : Nat) (hn : 2 ≤ n) : ratio n 0 = 3 / 10 ∧ ratio n (n - 1) = 10 ∧
    (∀ i, ratio n (i + 1) - ratio n i = (97 / 10) / (n - 1 : ℝ)) ∧ ∀ i, 0 < ratio n i := by
  have h1 : (0 : ℝ) < (n : ℝ) - 1 := by
    have : (2 : ℝ) ≤ n := by exact_mod_cast hn
    linarith
  unfold ratio linspace
  refine ⟨by simp, ?_, fun i => ?_, fun i => ?_⟩
  · rw [Nat.cast_sub (by omega), Nat.cast_one]
    field_simp
    norm_num
  · push_cast
    ring
  · have : 0 ≤ (i : ℝ) * ((10 - 3 / 10) / ((n : ℝ) - 1)) := mul_nonneg (Nat.cast_nonneg i) (div_nonneg (by norm_num) h1.le)
    linarith

/-- The 1000 ratios of the code: the steps are 97/9990. -/
example : ratio 1000 0 = 3 / 10 ∧ ratio 1000 999 = 10 ∧ ratio 1000 1 - ratio 1000 0 = 97 / 9990 := by
  obtain ⟨h1, h2, h3, _⟩ := C101_ratios 1000 (by omega)
  refine ⟨h1, h2, ?_⟩
  rw [h3 0]
  norm_num

/-- The couplings of the motion and the repulsion. -/
def motionPart (I : Interactions ℝ) : Interactions ℝ := { I with J := 0, Jhpar := 0, Jhper := 0, hSDper := 0, hSDpar := 0 }

/-- The couplings of the exchange. -/
def exchangePart (I : Interactions ℝ) : Interactions ℝ := { I with t := 0, tNNN := 0, tnNNN := 0, VNN := 0, VNNNper := 0 }

/-- C102. At the ratio `tJ` the hopping is unchanged and |t| / J = `tJ`; for every configuration and selection of terms the matrix
is that of the motion plus |t| / (`tJ` J) times that of the exchange, with the given couplings. -/
theorem C102_rescaled (I : Interactions ℝ) (hJ : I.J ≠ 0) (tJ : ℝ) (htJ : 0 < tJ) :
    ∃ I', dependanceCouplings I tJ = .ok I' ∧ I'.t = I.t ∧ I'.J * tJ = |I.t| ∧
      ∀ (E : Env) (c : Config) (dets : List (List Nat)) (B : BoolInteractions) (r : List Nat) (v : Bool) (H : SpMat ℝ),
        buildHamiltonian E c I' dets B r v = .ok H → ∃ H1 H2, buildHamiltonian E c (motionPart I) dets B r v = .ok H1 ∧
          buildHamiltonian E c (exchangePart I) dets B r v = .ok H2 ∧ H1.dim = H.dim ∧ H2.dim = H.dim ∧
          ∀ i j, H.entry i j = H1.entry i j + |I.t| / (tJ * I.J) * H2.entry i j := by
  refine ⟨⟨I.t, |I.t| / tJ, I.Jhpar * (|I.t| / tJ) / I.J, I.Jhper * (|I.t| / tJ) / I.J, I.hSDpar * (|I.t| / tJ) / I.J,
    I.hSDper * (|I.t| / tJ) / I.J, I.tNNN, I.tnNNN, I.VNN, I.VNNNper⟩, by unfold dependanceCouplings; dsimp only; rw [if_neg hJ], rfl,
    by simp only; field_simp, ?_⟩
  intro E c dets B r v H h
  rcases buildHamiltonian_lin (K := ℝ) E c dets B r v with ⟨e, he⟩ | ⟨P, hP, hl⟩
  · rw [he] at h; cases h
  · rw [hP] at h
    obtain rfl := Except.ok.inj h
    refine ⟨_, _, hP _, hP _, rfl, rfl, ?_⟩
    intro i j
    have := hl.2 1 (|I.t| / (tJ * I.J)) (motionPart I) (exchangePart I) i j
    rw [one_mul] at this
    rw [entry_eq, entry_eq, entry_eq, ← this]
    refine congrArg (fun X => cooEntry (P X) i j) ?_
    unfold lincomb motionPart exchangePart
    simp only [Interactions.mk.injEq]
    refine ⟨?_, ?_, ?_, ?_, ?_, ?_, ?_, ?_, ?_, ?_⟩ <;> field_simp <;> ring

/-! ### C103: the figures -/

/-- The point has a colour and a line style. -/
def Drawable (q : ℝ × String × Nat) : Prop := (q.2.1 = "doublet" ∨ q.2.1 = "quartet") ∧ (q.2.2 = 1 ∨ q.2.2 = 2)

theorem colourOf_ok {m : String} : (∃ x, colourOf m = .ok x) ↔ m = "doublet" ∨ m = "quartet" := by
  unfold colourOf
  split_ifs with h1 h2 <;> simp_all

theorem styleOf_ok {d : Nat} : (∃ x, styleOf d = .ok x) ↔ d = 1 ∨ d = 2 := by
  unfold styleOf
  split_ifs with h1 h2 <;> simp_all

theorem first_read {α : Type} {l : List α} {i : Nat} {x : α} (h : pyGet l i = .ok x) : l[i]? = some x := by
  unfold pyGet at h
  split at h
  · cases h; assumption
  · cases h

/-- An empty curve stays: it takes part in no exchange. -/
theorem reorganise_empty : ∀ (fuel : Nat) (curves : List (Curve ℝ)) (s : Nat) (curves' : List (Curve ℝ)),
    reorganise fuel curves s = .ok curves' → (∃ k : Nat, curves[k]? = some []) → ∃ k : Nat, curves'[k]? = some []
  | 0, _, _, _, h, _ => by cases h
  | fuel + 1, curves, s, curves', h, ⟨k, hk⟩ => by
    rw [reorganise] at h
    split_ifs at h with h0
    · obtain ⟨a, ha, h⟩ := bind_eq_ok.1 h
      obtain ⟨p, hp, h⟩ := bind_eq_ok.1 h
      dsimp only at h
      split_ifs at h with h1
      · exact reorganise_empty fuel curves _ _ h ⟨k, hk⟩
      · obtain ⟨new, hnew, h⟩ := bind_eq_ok.1 h
        split_ifs at h with h2
        · obtain ⟨b, hb, h⟩ := bind_eq_ok.1 h
          obtain ⟨t, ht, h⟩ := bind_eq_ok.1 h
          split_ifs at h with h3
          · obtain ⟨c1, e1, h⟩ := bind_eq_ok.1 h
            obtain ⟨c2, e2, h⟩ := bind_eq_ok.1 h
            refine reorganise_empty fuel c2 _ _ h ⟨k, ?_⟩
            unfold pySet at e1 e2
            split_ifs at e1 with f1
            obtain rfl := Except.ok.inj e1
            split_ifs at e2 with f2
            obtain rfl := Except.ok.inj e2
            have ks : s ≠ k := by
              rintro rfl
              have := first_read ha
              rw [hk] at this
              rw [← Option.some.inj this] at hp
              cases hp
            have kn : new ≠ k := by
              rintro rfl
              have := first_read hb
              rw [hk] at this
              obtain rfl := Option.some.inj this
              unfold sharper at ht
              obtain ⟨_, _, ht⟩ := bind_eq_ok.1 ht
              obtain ⟨_, _, ht⟩ := bind_eq_ok.1 ht
              obtain ⟨_, _, ht⟩ := bind_eq_ok.1 ht
              obtain ⟨_, hbad, _⟩ := bind_eq_ok.1 ht
              cases hbad
            rw [List.getElem?_set_ne kn, List.getElem?_set_ne ks, hk]
          · exact reorganise_empty fuel curves _ _ h ⟨k, hk⟩
        · exact reorganise_empty fuel curves _ _ h ⟨k, hk⟩
    · obtain rfl := Except.ok.inj h
      exact ⟨k, hk⟩

theorem reorganise_length : ∀ (fuel : Nat) (curves : List (Curve ℝ)) (s : Nat) (curves' : List (Curve ℝ)),
    reorganise fuel curves s = .ok curves' → curves'.length = curves.length
  | 0, _, _, _, h => by cases h
  | fuel + 1, curves, s, curves', h => by
    rw [reorganise] at h
    split_ifs at h with h0
    · obtain ⟨a, ha, h⟩ := bind_eq_ok.1 h
      obtain ⟨p, hp, h⟩ := bind_eq_ok.1 h
      dsimp only at h
      split_ifs at h with h1
      · exact reorganise_length fuel curves _ _ h
      · obtain ⟨new, hnew, h⟩ := bind_eq_ok.1 h
        split_ifs at h with h2
        · obtain ⟨b, hb, h⟩ := bind_eq_ok.1 h
          obtain ⟨t, ht, h⟩ := bind_eq_ok.1 h
          split_ifs at h with h3
          · obtain ⟨c1, e1, h⟩ := bind_eq_ok.1 h
            obtain ⟨c2, e2, h⟩ := bind_eq_ok.1 h
            rw [reorganise_length fuel c2 _ _ h]
            unfold pySet at e1 e2
            split_ifs at e1 with f1
            obtain rfl := Except.ok.inj e1
            split_ifs at e2 with f2
            obtain rfl := Except.ok.inj e2
            simp
          · exact reorganise_length fuel curves _ _ h
        · exact reorganise_length fuel curves _ _ h
    · obtain rfl := Except.ok.inj h
      rfl

theorem drawCurves_ok {n nbVal : Nat} {curves : List (Curve ℝ)} (hl : curves.length = nbVal) {figs : List Drawn}
    (h : drawCurves n nbVal curves = .ok figs) : ∀ c ∈ curves, c.length = n ∧ ∃ q, c[0]? = some q ∧ Drawable q := by
  intro c hc
  obtain ⟨k, hk, rfl⟩ := List.getElem_of_mem hc
  unfold drawCurves at h
  obtain ⟨x, g1, g2⟩ := (mapM_results h).2 k (by simpa [hl] using hk)
  rw [List.getElem_range, pyGet_get hk] at g2
  obtain ⟨p, p1, g2⟩ := bind_eq_ok.1 (show (pyGet curves[k] 0 >>= _) = _ from g2)
  obtain ⟨col, p2, g2⟩ := bind_eq_ok.1 g2
  obtain ⟨st, p3, g2⟩ := bind_eq_ok.1 g2
  split_ifs at g2 with hn
  · exact ⟨hn, p, first_read p1, colourOf_ok.1 ⟨_, p2⟩, styleOf_ok.1 ⟨_, p3⟩⟩

theorem drawCurves_draws {n nbVal : Nat} {curves : List (Curve ℝ)} (hl : curves.length = nbVal)
    (h : ∀ c ∈ curves, c.length = n ∧ ∃ q, c[0]? = some q ∧ Drawable q) :
    ∃ figs, drawCurves n nbVal curves = .ok figs ∧ figs.map (fun f => f.ys) = curves.map (fun c => c.map (fun q => q.1)) := by
  have key : ∀ k : Nat, ∀ hk : k < curves.length, ∃ f : Drawn, (do
      let c ← pyGet curves k
      let p ← pyGet c 0
      let colour ← colourOf p.2.1
      let style ← styleOf p.2.2
      if c.length = n then return (⟨c.map (fun q => q.1), colour, style⟩ : Drawn) else .error .valueError) = (.ok f : Py Drawn) ∧
      f.ys = curves[k].map (fun q => q.1) := by
    intro k hk
    obtain ⟨h1, q, h2, h3, h4⟩ := h curves[k] (List.getElem_mem hk)
    obtain ⟨col, hcol⟩ := colourOf_ok.2 h3
    obtain ⟨st, hst⟩ := styleOf_ok.2 h4
    have hq : pyGet curves[k] 0 = .ok q := by unfold pyGet; rw [h2]
    refine ⟨⟨curves[k].map (fun q => q.1), col, st⟩, ?_, rfl⟩
    rw [pyGet_get hk]
    refine bind_eq_ok.2 ⟨_, rfl, bind_eq_ok.2 ⟨_, hq, bind_eq_ok.2 ⟨_, hcol, bind_eq_ok.2 ⟨_, hst, ?_⟩⟩⟩⟩
    rw [if_pos h1]
    rfl
  unfold drawCurves
  obtain ⟨figs, f1, f2⟩ := mapM_ok_exists (P := fun k (f : Drawn) => ∃ hk : k < curves.length, f.ys = curves[k].map (fun q => q.1))
    (List.range nbVal) (fun k hk => by
      have hk' : k < curves.length := by rw [hl]; exact List.mem_range.1 hk
      obtain ⟨f, g1, g2⟩ := key k hk'
      exact ⟨f, g1, hk', g2⟩)
  refine ⟨figs, f1, ?_⟩
  have hlen := f2.length_eq
  rw [List.length_range] at hlen
  apply List.ext_getElem
  · simp; omega
  · intro k k1 k2
    have hk : k < figs.length := by simpa using k1
    have := List.Forall₂.get f2 (by simpa using (by omega : k < nbVal)) hk
    simp only [List.get_eq_getElem, List.getElem_range] at this
    obtain ⟨_, e⟩ := this
    simp only [List.getElem_map]
    exact e

/-- The legend of the figures (postProcessing.py 327-330): what a line with this colour and this style announces about a point. -/
def Legend (q : ℝ × String × Nat) (colour : Char) (style : String) : Prop :=
  (colour = 'b' ∧ q.2.1 = "doublet" ∨ colour = 'g' ∧ q.2.1 = "quartet") ∧ (style = "-" ∧ q.2.2 = 2 ∨ style = "--" ∧ q.2.2 = 1)

/-- Every line begins at a first point, with the look that the legend has for it. -/
theorem drawCurves_legend {n nbVal : Nat} {curves : List (Curve ℝ)} (hl : curves.length = nbVal) {figs : List Drawn}
    (h : drawCurves n nbVal curves = .ok figs) :
    ∃ starts : List (ℝ × String × Nat), starts.map some = curves.map (fun c => c[0]?) ∧
      List.Forall₂ (fun (f : Drawn) q => f.ys[0]? = some q.1 ∧ Legend q f.colour f.style) figs starts := by
  unfold drawCurves at h
  have hr := mapM_results h
  have hrl : figs.length = nbVal := by simpa using hr.1
  have key : ∀ k (hk : k < figs.length), ∃ q, (curves[k]'(by omega))[0]? = some q ∧ figs[k].ys[0]? = some q.1 ∧
      Legend q figs[k].colour figs[k].style := by
    intro k hk
    obtain ⟨x, g1, g2⟩ := hr.2 k (by rw [List.length_range]; omega)
    rw [List.getElem?_eq_getElem hk] at g1
    obtain rfl := Option.some.inj g1
    rw [List.getElem_range, pyGet_get (by omega)] at g2
    obtain ⟨q, p1, g2⟩ := bind_eq_ok.1 (show (pyGet (curves[k]'(by omega)) 0 >>= _) = _ from g2)
    obtain ⟨col, p2, g2⟩ := bind_eq_ok.1 g2
    obtain ⟨st, p3, g2⟩ := bind_eq_ok.1 g2
    have hq := first_read p1
    split_ifs at g2 with hn
    · have e := Except.ok.inj g2
      rw [← e]
      refine ⟨q, hq, by simp [hq], ?_, ?_⟩
      · dsimp only
        unfold colourOf at p2
        split_ifs at p2 with h1 h2
        · exact Or.inl ⟨(Except.ok.inj p2).symm, h1⟩
        · exact Or.inr ⟨(Except.ok.inj p2).symm, h2⟩
      · dsimp only
        unfold styleOf at p3
        split_ifs at p3 with h1 h2
        · exact Or.inr ⟨(Except.ok.inj p3).symm, h1⟩
        · exact Or.inl ⟨(Except.ok.inj p3).symm, h2⟩
  choose! q q1 q2 q3 using fun k => fun hk : k < figs.length => (key k hk)
  refine ⟨(List.range figs.length).map q, ?_, ?_⟩
  · apply List.ext_getElem
    · simp; omega
    · intro k k1 k2
      have hk : k < figs.length := by simpa using k1
      simp only [List.getElem_map, List.getElem_range]
      exact (q1 k hk).symm
  · rw [List.forall₂_iff_get]
    refine ⟨by simp, fun k k1 k2 => ?_⟩
    simp only [List.get_eq_getElem, List.getElem_map, List.getElem_range]
    exact ⟨q2 k k1, q3 k k1⟩

/-- After the exchanges the curves begin at the same points, in another order. -/
theorem first_points {curves curves' : List (Curve ℝ)} (hp : (curves'.map (fun c => c[0]?)).Perm (curves.map (fun c => c[0]?)))
    (P : Option (ℝ × String × Nat) → Prop) : (∀ c ∈ curves', P c[0]?) ↔ ∀ c ∈ curves, P c[0]? := by
  constructor
  · intro h c hc
    have := hp.mem_iff.2 (List.mem_map.2 ⟨c, hc, rfl⟩)
    obtain ⟨c', h1, h2⟩ := List.mem_map.1 this
    rw [← h2]
    exact h c' h1
  · intro h c hc
    have := hp.mem_iff.1 (List.mem_map.2 ⟨c, hc, rfl⟩)
    obtain ⟨c', h1, h2⟩ := List.mem_map.1 this
    rw [← h2]
    exact h c' h1

/-- The claim "both figures are saved when the computations succeed" holds only with more hypotheses.
C103, part: with enough states, and if all states at the first ratio are doublets or quartets with an apparent degeneracy
of 1 or 2, both figures are saved. Each has one curve per state; at every ratio the ordinates are the energies of this ratio, in some
order. The colours and line styles are those that the legend has for the states at the first ratio. Missing: the other multiplicities,
degeneracies and numbers of states, where nothing is saved (`C103_not_saved`). -/
theorem C103_saved_partial (E : Env) (L : Nat → Bool → LinAlg ℝ) (swap : List ℝ → Bool) (D : Data ℝ) (n : Nat) (hn : 0 < n)
    (fuel : Nat) (hf : D.diag.nbVal * (n + 1) + 1 ≤ fuel) (hst : D.nbStates = D.diag.nbVal) (c c' : List (Curve ℝ))
    (h : dependanceSweep E L swap D n n = .ok (c, c'))
    (hd : ∀ x ∈ c ++ c', ∀ q, x[0]? = some q → Drawable q) :
    ∃ fig1 fig2, plotSpectrumDependance fuel E L swap D n = ([fig1, fig2], .ok ()) ∧
      fig1.length = D.diag.nbVal ∧ fig2.length = D.diag.nbVal ∧
      (∀ i < n, (fig1.map (fun f => f.ys[i]?)).Perm (c.map (fun x => (x[i]?).map Prod.fst)) ∧
        (fig2.map (fun f => f.ys[i]?)).Perm (c'.map (fun x => (x[i]?).map Prod.fst))) ∧
      ∃ starts starts' : List (ℝ × String × Nat), (starts.map some).Perm (c.map (fun x => x[0]?)) ∧
        (starts'.map some).Perm (c'.map (fun x => x[0]?)) ∧
        List.Forall₂ (fun (f : Drawn) q => f.ys[0]? = some q.1 ∧ Legend q f.colour f.style) fig1 starts ∧
        List.Forall₂ (fun (f : Drawn) q => f.ys[0]? = some q.1 ∧ Legend q f.colour f.style) fig2 starts' := by
  have shape : ∀ ext : Bool, (if ext then c' else c).length = D.diag.nbVal ∧ ∀ x ∈ (if ext then c' else c), x.length = n := by
    intro ext
    obtain ⟨s1, s2, _⟩ := C101_sweep E L swap D n n c c' h ext
    refine ⟨s1, fun x hx => ?_⟩
    obtain ⟨k, hk, rfl⟩ := List.getElem_of_mem hx
    rw [s2 k _ (List.getElem?_eq_getElem hk), if_pos (by omega)]
  have one : ∀ (b : List (Curve ℝ)), b.length = D.diag.nbVal → (∀ x ∈ b, x.length = n) → (∀ x ∈ b, ∀ q, x[0]? = some q → Drawable q) →
      ∃ b' fig, reorganise fuel b 0 = .ok b' ∧ drawCurves n D.diag.nbVal b' = .ok fig ∧ fig.length = D.diag.nbVal ∧
        (∀ i < n, (fig.map (fun f => f.ys[i]?)).Perm (b.map (fun x => (x[i]?).map Prod.fst))) ∧
        ∃ starts : List (ℝ × String × Nat), (starts.map some).Perm (b.map (fun x => x[0]?)) ∧
          List.Forall₂ (fun (f : Drawn) q => f.ys[0]? = some q.1 ∧ Legend q f.colour f.style) fig starts := by
    intro b h1 h2 h3
    obtain ⟨b', r1, r2, r3, r4⟩ := C76_reorganise b n hn h2 fuel (by rw [h1]; exact hf)
    obtain ⟨fig, g1, g2⟩ := drawCurves_draws (n := n) (nbVal := D.diag.nbVal) (curves := b') (by omega) (by
      intro x hx
      have hx0 := r3 x hx
      refine ⟨hx0, x[0]'(by omega), List.getElem?_eq_getElem (by omega), ?_⟩
      have := (first_points (r4 0 hn) (fun o => ∀ q, o = some q → Drawable q)).2 h3 x hx
      exact this _ (List.getElem?_eq_getElem (by omega)))
    have hfl : fig.length = b'.length := by simpa using congrArg List.length g2
    obtain ⟨starts, t1, t2⟩ := drawCurves_legend (by omega) g1
    refine ⟨b', fig, r1, g1, by omega, ?_, starts, by rw [t1]; exact r4 0 hn, t2⟩
    intro i hi
    have e : fig.map (fun f => f.ys[i]?) = b'.map (fun x => (x[i]?).map Prod.fst) := by
      have := congrArg (List.map (fun l : List ℝ => l[i]?)) g2
      rw [List.map_map, List.map_map] at this
      refine this.trans ?_
      apply List.map_congr_left
      intro x _
      simp
    rw [e]
    have := (r4 i hi).map (Option.map Prod.fst)
    rw [List.map_map, List.map_map] at this
    exact this
  obtain ⟨b, fig1, a1, a2, a3, a4, st, a5, a6⟩ := one c (by simpa using (shape false).1) (by simpa using (shape false).2)
    (fun x hx => hd x (List.mem_append_left _ hx))
  obtain ⟨b', fig2, d1, d2, d3, d4, st', d5, d6⟩ := one c' (by simpa using (shape true).1) (by simpa using (shape true).2)
    (fun x hx => hd x (List.mem_append_right _ hx))
  refine ⟨fig1, fig2, ?_, a3, d3, fun i hi => ⟨a4 i hi, d4 i hi⟩, st, st', a5, d5, a6, d6⟩
  unfold plotSpectrumDependance
  have : (do
    let (c, c') ← dependanceSweep E L swap D n n
    let c ← reorganise fuel c 0
    let c' ← reorganise fuel c' 0
    let fig1 ← drawCurves n D.diag.nbVal c
    return (fig1, c')) = (.ok (fig1, b') : Py (List Drawn × List (Curve ℝ))) := by
    rw [h]
    refine bind_eq_ok.2 ⟨_, rfl, bind_eq_ok.2 ⟨_, a1, bind_eq_ok.2 ⟨_, d1, bind_eq_ok.2 ⟨_, a2, rfl⟩⟩⟩⟩
  rw [this]
  dsimp only
  rw [d2]

/-- C103 fails: if one of the states at the first ratio, without extension, is not a doublet or a quartet, or has an apparent degeneracy
above 2, or if there are fewer states than requested, nothing is saved and the call ends in an exception. -/
theorem C103_not_saved (E : Env) (L : Nat → Bool → LinAlg ℝ) (swap : List ℝ → Bool) (D : Data ℝ) (n : Nat) (hn : 0 < n)
    (fuel : Nat) (hf : D.diag.nbVal * (n + 1) + 1 ≤ fuel) (c c' : List (Curve ℝ)) (h : dependanceSweep E L swap D n n = .ok (c, c'))
    (hbad : D.nbStates < D.diag.nbVal ∨ ∃ x ∈ c, ∃ q, x[0]? = some q ∧ ¬ Drawable q) :
    ∃ e, plotSpectrumDependance fuel E L swap D n = ([], .error e) := by
  unfold plotSpectrumDependance
  have key : ∀ y, (do
    let (c, c') ← dependanceSweep E L swap D n n
    let c ← reorganise fuel c 0
    let c' ← reorganise fuel c' 0
    let fig1 ← drawCurves n D.diag.nbVal c
    return (fig1, c')) ≠ (.ok y : Py (List Drawn × List (Curve ℝ))) := by
    intro y hy
    rw [h] at hy
    obtain ⟨⟨_, _⟩, h0, hy⟩ := bind_eq_ok.1 hy
    have h0 := Except.ok.inj h0
    simp only [Prod.mk.injEq] at h0
    obtain ⟨rfl, rfl⟩ := h0
    obtain ⟨b, hb, hy⟩ := bind_eq_ok.1 hy
    obtain ⟨b', _, hy⟩ := bind_eq_ok.1 hy
    obtain ⟨fig, hfig, _⟩ := bind_eq_ok.1 hy
    obtain ⟨s1, s2, _⟩ := C101_sweep E L swap D n n c c' h false
    simp only [Bool.false_eq_true, if_false] at s1 s2
    by_cases hst : D.nbStates < D.diag.nbVal
    · have hlast : ∃ k : Nat, c[k]? = some [] := by
        refine ⟨D.nbStates, ?_⟩
        have hk : D.nbStates < c.length := by omega
        have := s2 _ _ (List.getElem?_eq_getElem hk)
        rw [if_neg (by omega)] at this
        rw [List.getElem?_eq_getElem hk, List.length_eq_zero_iff.1 this]
      obtain ⟨k, hk⟩ := reorganise_empty fuel c 0 b hb hlast
      obtain ⟨hkb, hk⟩ := List.getElem?_eq_some_iff.1 hk
      unfold drawCurves at hfig
      have hmem : ∀ k : Nat, k < b.length → b[k]? = some [] → k < D.diag.nbVal → False := by
        intro k h1 h2 h3
        obtain ⟨x, _, g2⟩ := (mapM_results hfig).2 k (by simpa using h3)
        rw [List.getElem_range] at g2
        obtain ⟨y, y1, g2⟩ := bind_eq_ok.1 g2
        have := first_read y1
        rw [h2] at this
        obtain rfl := Option.some.inj this
        obtain ⟨z, z1, _⟩ := bind_eq_ok.1 g2
        cases z1
      refine hmem k hkb (List.getElem?_eq_some_iff.2 ⟨hkb, hk⟩) ?_
      have : b.length = c.length := reorganise_length fuel c 0 b hb
      omega
    · have hx : ∀ x ∈ c, x.length = n := by
        intro x hx
        obtain ⟨k, hk, rfl⟩ := List.getElem_of_mem hx
        rw [s2 k _ (List.getElem?_eq_getElem hk), if_pos (by omega)]
      obtain ⟨b1, r1, r2, r3, r4⟩ := C76_reorganise c n hn hx fuel (by rw [s1]; exact hf)
      obtain rfl := Except.ok.inj (r1.symm.trans hb)
      have hdr := drawCurves_ok (by omega) hfig
      rcases hbad with hbad | ⟨x, x1, q, x2, x3⟩
      · exact hst hbad
      · have := (first_points (r4 0 hn) (fun o => ∀ q, o = some q → Drawable q)).1 (by
          intro y hy q hq
          obtain ⟨_, q', e1, e2⟩ := hdr y hy
          rw [hq] at e1
          rw [Option.some.inj e1]
          exact e2) x x1 q x2
        exact x3 this
  revert key
  generalize (do
    let (c, c') ← dependanceSweep E L swap D n n
    let c ← reorganise fuel c 0
    let c' ← reorganise fuel c' 0
    let fig1 ← drawCurves n D.diag.nbVal c
    return (fig1, c')) = X
  intro key
  cases X with
  | error e => exact ⟨e, rfl⟩
  | ok y => exact absurd rfl (key y)

/-- C103, exact condition: when the computations succeed, both figures are saved if and only if all requested states exist and all states at the
first ratio, without and with the extension, are doublets or quartets with an apparent degeneracy of 1 or 2. -/
theorem C103_saved_iff (E : Env) (L : Nat → Bool → LinAlg ℝ) (swap : List ℝ → Bool) (D : Data ℝ) (n : Nat) (hn : 0 < n)
    (fuel : Nat) (hf : D.diag.nbVal * (n + 1) + 1 ≤ fuel) (c c' : List (Curve ℝ)) (h : dependanceSweep E L swap D n n = .ok (c, c')) :
    (∃ fig1 fig2, plotSpectrumDependance fuel E L swap D n = ([fig1, fig2], .ok ())) ↔
      D.nbStates = D.diag.nbVal ∧ ∀ x ∈ c ++ c', ∀ q, x[0]? = some q → Drawable q := by
  constructor
  · rintro ⟨fig1, fig2, hp⟩
    have hst : D.nbStates = D.diag.nbVal := by
      have hle : D.nbStates ≤ D.diag.nbVal := Nat.min_le_left _ _
      by_contra hne
      obtain ⟨e, he⟩ := C103_not_saved E L swap D n hn fuel hf c c' h (Or.inl (by omega))
      rw [he] at hp
      simp at hp
    refine ⟨hst, fun x hx q hq => ?_⟩
    rcases List.mem_append.1 hx with hx | hx
    · by_contra hbad
      obtain ⟨e, he⟩ := C103_not_saved E L swap D n hn fuel hf c c' h (Or.inr ⟨x, hx, q, hq, hbad⟩)
      rw [he] at hp
      simp at hp
    · obtain ⟨s1, s2, _⟩ := C101_sweep E L swap D n n c c' h true
      simp only [if_true] at s1 s2
      have hlen : ∀ x ∈ c', x.length = n := by
        intro x hx
        obtain ⟨k, hk, rfl⟩ := List.getElem_of_mem hx
        rw [s2 k _ (List.getElem?_eq_getElem hk), if_pos (by omega)]
      obtain ⟨b', r1, r2, r3, r4⟩ := C76_reorganise c' n hn hlen fuel (by rw [s1]; exact hf)
      have hfig : ∃ figs, drawCurves n D.diag.nbVal b' = .ok figs := by
        unfold plotSpectrumDependance at hp
        split at hp
        · simp at hp
        · rename_i f1 b1 hb1
          rw [h] at hb1
          obtain ⟨⟨_, _⟩, h0, hb1⟩ := bind_eq_ok.1 hb1
          have h0 := Except.ok.inj h0
          simp only [Prod.mk.injEq] at h0
          obtain ⟨rfl, rfl⟩ := h0
          obtain ⟨_, _, hb1⟩ := bind_eq_ok.1 hb1
          obtain ⟨b2, hb2, hb1⟩ := bind_eq_ok.1 hb1
          obtain ⟨_, _, hb1⟩ := bind_eq_ok.1 hb1
          have e := congrArg Prod.snd (Except.ok.inj hb1)
          dsimp only at e
          rw [r1] at hb2
          rw [Except.ok.inj hb2, e]
          split at hp
          · simp at hp
          · exact ⟨_, ‹_›⟩
      obtain ⟨figs, hfig⟩ := hfig
      have hdr := drawCurves_ok (by omega) hfig
      exact (first_points (r4 0 hn) (fun o => ∀ q, o = some q → Drawable q)).1 (by
        intro y hy q hq
        obtain ⟨_, q', e1, e2⟩ := hdr y hy
        rw [hq] at e1
        rw [Option.some.inj e1]
        exact e2) x hx q hq
  · rintro ⟨hst, hd⟩
    obtain ⟨fig1, fig2, h1, _⟩ := C103_saved_partial E L swap D n hn fuel hf hst c c' h hd
    exact ⟨fig1, fig2, h1⟩

/-- The sweep succeeds when all diagonalisations do. -/
theorem sweep_ok (E : Env) (L : Nat → Bool → LinAlg ℝ) (swap : List ℝ → Bool) (D : Data ℝ) (hJ : D.interactions.J ≠ 0)
    (hr : ∀ i ext I, ∃ r, performInitial E (L i ext) swap (dependanceData D I ext) = .ok r) (n : Nat) :
    ∀ m, ∃ c c', dependanceSweep E L swap D n m = .ok (c, c')
  | 0 => ⟨_, _, rfl⟩
  | m + 1 => by
    obtain ⟨b, b', hb⟩ := sweep_ok E L swap D hJ hr n m
    have lb : b.length = D.diag.nbVal := by simpa using (C101_sweep E L swap D n m b b' hb false).1
    have lb' : b'.length = D.diag.nbVal := by simpa using (C101_sweep E L swap D n m b b' hb true).1
    have hlv : ∀ ext I, ∃ p, levelsAt E (L m ext) swap (dependanceData D I ext) = .ok p := by
      intro ext I
      obtain ⟨r, h⟩ := hr m ext I
      exact ⟨_, bind_eq_ok.2 ⟨r, h, rfl⟩⟩
    obtain ⟨I, hI⟩ : ∃ I, dependanceCouplings D.interactions (ratio n m) = .ok I := by
      unfold dependanceCouplings
      dsimp only
      rw [if_neg hJ]
      exact ⟨_, rfl⟩
    obtain ⟨p, hp⟩ := hlv false I
    obtain ⟨p', hp'⟩ := hlv true I
    obtain ⟨r, r1, r2, r3, r4, r5, r6, r7, r8⟩ := levelsAt_ok (D := dependanceData D I false) rfl hp
    obtain ⟨r', q1, q2, q3, q4, q5, q6, q7, q8⟩ := levelsAt_ok (D := dependanceData D I true) rfl hp'
    have r2 : p.vals.length = D.nbStates := r2
    have q2 : p'.vals.length = D.nbStates := q2
    have hle : D.nbStates ≤ D.diag.nbVal := Nat.min_le_left _ _
    have hz : (p.vals.zip p'.vals).length = D.nbStates := by rw [List.length_zip, r2, q2, min_self]
    obtain ⟨d, d', g1, _⟩ := appendFold_spec p p' (p.vals.zip p'.vals) 0 b b' (by omega) (by omega) (by omega) (by omega) (by omega) (by omega)
    refine ⟨d, d', ?_⟩
    unfold dependanceSweep at hb ⊢
    refine foldlM_range_succ hb ?_
    unfold dependanceStep
    refine bind_eq_ok.2 ⟨I, hI, bind_eq_ok.2 ⟨p, hp, bind_eq_ok.2 ⟨p', hp', ?_⟩⟩⟩
    unfold appendLevels
    rw [r5, q5]
    exact g1

theorem count_total {n : Nat} (σ : Conf n) : σ.count .hole + σ.count .down + σ.count .up = n := by
  unfold Conf.count
  simp only [Finset.card_filter, ← Finset.sum_add_distrib]
  rw [Finset.sum_congr rfl (g := fun _ => 1) (fun a _ => by cases σ a <;> rfl)]
  simp

/-- A state without down spins has the largest total spin. -/
theorem spin2_polarised {n : Nat} {ψ : Conf n → ℝ} {h : Nat} (hψ : InSector h 0 ψ) (σ : Conf n) :
    spin2 ψ σ = (((n - h : Nat) : ℝ) / 2 * (((n - h : Nat) : ℝ) / 2 + 1)) * ψ σ := by
  rw [spin2_eq two_ne_zero]
  by_cases hσ : σ.count .hole = h ∧ σ.count .down = 0
  · have hup : σ.count .up = n - h := by
      have := count_total σ
      omega
    have hdn : ∀ a, σ a ≠ .down := by
      intro a ha
      have := hσ.2
      unfold Conf.count at this
      rw [Finset.card_eq_zero] at this
      exact absurd (Finset.mem_filter.2 ⟨Finset.mem_univ a, ha⟩) (by rw [this]; simp)
    rw [Finset.sum_eq_zero, add_zero]
    · unfold Conf.electrons
      rw [hup, hσ.2]
      push_cast
      ring
    · intro a _
      refine Finset.sum_eq_zero fun b _ => if_neg ?_
      rintro ⟨_, h1, h2, h3⟩
      have ha := hdn a
      have hb := hdn b
      cases hoa : σ a <;> cases hob : σ b <;> simp_all
  · have hz : ∀ τ : Conf n, ¬ (τ.count .hole = h ∧ τ.count .down = 0) → ψ τ = 0 := fun τ hτ => by
      by_contra h0
      exact hτ (hψ τ h0)
    rw [hz σ hσ, mul_zero, mul_zero, zero_add]
    refine Finset.sum_eq_zero fun a _ => Finset.sum_eq_zero fun b _ => ?_
    rw [hz _ (by rw [count_exch, count_exch]; exact hσ), ite_self]

/-- The spin numbers of the states of a polarised sector. -/
theorem polarised_spins (E : Env) (L : LinAlg ℝ) (he : L.ExactEigh) (hq : L.ExactQr)
    (swap : List ℝ → Bool) (D : Data ℝ) (nbh nbv nb : Nat) (hc : RectConf D.config nbh nbv nb) (hf : D.config.Full)
    (hb0 : D.config.nbeta = 0) (hn : D.config.nholes ≤ D.config.nsites) (ho : HolesInOrder E.toSetSem D.config) (hsm : D.spinMult = true)
    (h2 : 1 < D.nbStates) (r : InitialResult) (hr : performInitial E L swap D = .ok r) (k : Nat) (hk : k < D.nbStates) :
    r.spins[k]? = some (.num (((D.config.nsites - D.config.nholes : Nat) : ℝ) / 2)) := by
  obtain ⟨hb', hH, ⟨guess, hm, hg⟩, _⟩ := performInitial_ok hr
  have hn' : D.config.nholes + D.config.nbeta ≤ D.config.nsites := by omega
  obtain ⟨H, g1, g2, _⟩ := buildHamiltonian_spec D.interactions (hc.tj E) hf hn' hb' D.bools [] true
  have hd : r.ham.dim = r.determinants.length := by rw [← g2, Except.ok.inj (hH.symm.trans g1)]
  have hdim : r.ham.dim = computeDimension D.config.nsites D.config.nalpha D.config.nbeta := by
    rcases buildHamiltonian_lin (K := ℝ) E D.config r.determinants D.bools [] true with ⟨e, he⟩ | ⟨P, hP, _⟩
    · have := hH.symm.trans (he _); cases this
    · rw [Except.ok.inj (hH.symm.trans (hP _))]
  have hsym : r.ham.toMatrix.IsSymm := by
    ext i j
    exact C32_symmetric E D.config nbh nbv nb hc hf hn' D.interactions D.bools [] true r.determinants hb' r.ham hH j i
  obtain ⟨o1, _⟩ := C51_ritz_bounds L he hq r.ham.toMatrix hsym _ guess _ _ _ r.eig hm (Or.inl (by rw [hdim]; exact h2))
  have hev : k < r.eig.eigvects.length := by
    rw [(davidson_sorted hm).2.2, hdim]
    exact hk
  refine C80_spins E L swap D hf hn' hsm ho r hr hd k hev (D.config.nsites - D.config.nholes) ?_ ?_
  · by_contra h0
    push Not at h0
    have h1 : r.eig.eigvects[k] ⬝ᵥ r.eig.eigvects[k] = 1 := ((ortho_iff _).1 o1).1 _ (List.getElem_mem _)
    rw [state_dot hb' hn' hd, Finset.sum_eq_zero (fun σ _ => by rw [state, h0 σ, zero_mul])] at h1
    exact zero_ne_one h1
  · intro σ
    have := state_sector hb' hn' r.eig.eigvects[k]
    rw [hb0] at this
    exact spin2_polarised this σ

theorem multiplicity_polarised {N : Nat} (h1 : N ≠ 1) (h3 : N ≠ 3) (d : Nat) (e : ℝ) :
    ¬ Drawable (e, (SpinNumber.num ((N : ℝ) / 2)).multiplicity, d) := by
  have hm : 2 * ((N : ℝ) / 2) + 1 = ((N + 1 : Nat) : ℝ) := by push_cast; ring
  have key : computeSpinMultiplicity ((N : ℝ) / 2) = if N = 0 then some "singlet" else if N = 2 then some "triplet"
      else if N = 4 then some "quintet" else some "multiplet" := by
    unfold computeSpinMultiplicity
    dsimp only
    rw [hm]
    rcases Nat.lt_or_ge N 5 with h | h
    · have : N = 0 ∨ N = 2 ∨ N = 4 := by omega
      rcases this with rfl | rfl | rfl <;> norm_num
    · have h5 : (5 : ℝ) < ((N + 1 : Nat) : ℝ) := by exact_mod_cast (by omega : 5 < N + 1)
      have hne : ∀ k : ℝ, k ≤ 5 → ((N + 1 : Nat) : ℝ) ≠ k := fun k hk h => by linarith
      rw [if_neg (hne 1 (by norm_num)), if_neg (hne 2 (by norm_num)), if_neg (hne 3 (by norm_num)), if_neg (hne 4 (by norm_num)),
        if_neg (hne 5 (by norm_num)), if_pos h5, if_neg (by omega), if_neg (by omega), if_neg (by omega)]
  rintro ⟨h, _⟩
  unfold SpinNumber.multiplicity at h
  dsimp only at h
  rw [key] at h
  split_ifs at h <;> simp at h

/-- C103 fails for all polarised sectors (no down spin) of rectangular lattices whose number of electrons is neither 1 nor 3, when two or
more states are computed: no figure is saved. -/
theorem C103_polarised (E : Env) (L : Nat → Bool → LinAlg ℝ) (he : ∀ i ext, (L i ext).ExactEigh) (hq : ∀ i ext, (L i ext).ExactQr)
    (swap : List ℝ → Bool) (D : Data ℝ) (nbh nbv nb : Nat) (hc : RectConf D.config nbh nbv nb) (hf : D.config.Full)
    (hb0 : D.config.nbeta = 0) (hn : D.config.nholes ≤ D.config.nsites) (ho : HolesInOrder E.toSetSem D.config)
    (h1 : D.config.nsites - D.config.nholes ≠ 1) (h3 : D.config.nsites - D.config.nholes ≠ 3) (h2 : 1 < D.nbStates)
    (n : Nat) (hn0 : 0 < n) (fuel : Nat) (hfu : D.diag.nbVal * (n + 1) + 1 ≤ fuel) :
    (plotSpectrumDependance fuel E L swap D n).1 = [] := by
  rcases hs : dependanceSweep E L swap D n n with e | ⟨c, c'⟩
  · unfold plotSpectrumDependance
    rw [hs]
    rfl
  · have hle : D.nbStates ≤ D.diag.nbVal := Nat.min_le_left _ _
    obtain ⟨s1, s2, s3⟩ := C101_sweep E L swap D n n c c' hs false
    simp only [Bool.false_eq_true, if_false] at s1 s2 s3
    obtain ⟨I, r, i1, i2, i3⟩ := s3 0 hn0
    have hk : 0 < c.length := by omega
    obtain ⟨q, q1, lam, s, l1, l2, l3⟩ := i3 0 c[0] (by omega) (List.getElem?_eq_getElem hk)
    have hbad : ¬ Drawable q := by
      have hsp := polarised_spins E (L 0 false) (he 0 false) (hq 0 false) swap (dependanceData D I false) nbh nbv nb hc hf hb0 hn ho rfl h2 r i2 0
        (by show 0 < D.nbStates; omega)
      rw [hsp] at l2
      rw [l3, ← Option.some.inj l2]
      exact multiplicity_polarised h1 h3 _ _
    obtain ⟨e, h⟩ := C103_not_saved E L swap D n hn0 fuel hfu c c' hs (Or.inr ⟨c[0], List.getElem_mem hk, q, q1, hbad⟩)
    rw [h]

/-! ### Cases that meet the hypotheses -/

/-- A hole and an up spin on two sites, two states, exact library. -/
noncomputable def sweepCase : Data ℝ :=
  ⟨rectConf 2 1 1 1 0, ⟨-1, 2, 3, 4, 5, 6, 7, 8, 9, 10⟩, ⟨2, 1, 0, 4, none⟩, ⟨true, true, true, true, true, true⟩, true⟩

/-- A hole and two up spins on three sites. -/
noncomputable def sweepCase3 : Data ℝ :=
  ⟨rectConf 3 1 1 1 0, ⟨-1, 2, 3, 4, 5, 6, 7, 8, 9, 10⟩, ⟨2, 1, 0, 4, none⟩, ⟨true, true, true, true, true, true⟩, true⟩

theorem sweepCase_states : sweepCase.nbStates = sweepCase.diag.nbVal := by decide +kernel

/-- One electron: the sweep over 1000 ratios succeeds, all points are doublets. -/
theorem sweepCase_drawn : ∃ c c', dependanceSweep exEnv (fun _ _ => realLib) (fun _ => false) sweepCase 1000 1000 = .ok (c, c') ∧
    ∀ x ∈ c ++ c', ∀ q, x[0]? = some q → Drawable q := by
  have hb : constructBasis sweepCase.config = .ok [[0, 1], [1, 0]] := by decide +kernel
  have hf : sweepCase.config.Full := by unfold Config.Full; decide +kernel
  have hc : RectConf sweepCase.config 2 1 1 := rectConf_ok 2 1 1 1 0 (by omega) (by omega) (by omega)
  have ho : HolesInOrder exEnv.toSetSem sweepCase.config := C39_one_hole_in_order _ _ (by decide +kernel)
  have hns : sweepCase.nbStates = 2 := by decide +kernel
  obtain ⟨c, c', hs⟩ := sweep_ok exEnv (fun _ _ => realLib) (fun _ => false) sweepCase (by show (2 : ℝ) ≠ 0; norm_num) (by
    intro i ext I
    obtain ⟨r, h1, _⟩ := C80_no_failure exEnv realLib realLib_qr realLib_rand (fun _ => false) (dependanceData sweepCase I ext) 2 1 1
      hc hf (by show sweepCase.config.nholes + sweepCase.config.nbeta ≤ sweepCase.config.nsites; decide +kernel) (fun _ => ho) _ hb
      (by show 1 ≤ 1; omega) (by show 2 ≤ 2; omega) (by intro rows h; cases h)
    exact ⟨r, h1⟩) 1000 1000
  refine ⟨c, c', hs, ?_⟩
  have key : ∀ ext : Bool, ∀ x ∈ (if ext then c' else c), ∀ q, x[0]? = some q → Drawable q := by
    intro ext x hx q hq
    obtain ⟨s1, s2, s3⟩ := C101_sweep exEnv (fun _ _ => realLib) (fun _ => false) sweepCase 1000 1000 c c' hs ext
    obtain ⟨I, r, _, i2, i3⟩ := s3 0 (by omega)
    obtain ⟨k, hk, rfl⟩ := List.getElem_of_mem hx
    have hk2 : k < sweepCase.nbStates := by
      have : sweepCase.diag.nbVal = 2 := rfl
      omega
    obtain ⟨q', q1, lam, s, l1, l2, l3⟩ := i3 k _ hk2 (List.getElem?_eq_getElem hk)
    rw [hq] at q1
    obtain rfl := Option.some.inj q1
    have hsp := polarised_spins exEnv realLib realLib_eigh realLib_qr (fun _ => false) (dependanceData sweepCase I ext) 2 1 1 hc hf rfl
      (by show sweepCase.config.nholes ≤ sweepCase.config.nsites; decide +kernel) ho rfl (by show 1 < sweepCase.nbStates; omega) r i2 k hk2
    rw [hsp] at l2
    obtain rfl := Option.some.inj l2
    have hlen := (performInitial_shape (D := dependanceData sweepCase I ext) rfl i2).2.1
    have hlen : r.eig.eigvals.length = 2 := hlen.trans hns
    have hdeg := List.length_filter_le (fun mu => decide (round6 mu = round6 lam)) r.eig.eigvals
    have hpos : 0 < (r.eig.eigvals.filter fun mu => decide (round6 mu = round6 lam)).length := by
      refine List.length_pos_of_mem (a := lam) (List.mem_filter.2 ⟨?_, by simp⟩)
      exact List.mem_of_getElem? l1
    rw [l3]
    refine ⟨Or.inl ?_, ?_⟩
    · have hN : (dependanceData sweepCase I ext).config.nsites - (dependanceData sweepCase I ext).config.nholes = 1 := by
        show sweepCase.config.nsites - sweepCase.config.nholes = 1
        decide +kernel
      rw [hN]
      unfold SpinNumber.multiplicity computeSpinMultiplicity
      norm_num
    · have : (r.eig.eigvals.filter fun mu => decide (round6 mu = round6 lam)).length = 1 ∨
          (r.eig.eigvals.filter fun mu => decide (round6 mu = round6 lam)).length = 2 := by omega
      rcases this with h | h
      · exact Or.inl h
      · exact Or.inr h
  intro x hx
  rcases List.mem_append.1 hx with hx | hx
  · exact key false x hx
  · exact key true x hx

/-- One electron: with 1000 ratios both figures are saved, all points are doublets (C101, C103). -/
example : ∃ fig1 fig2, plotSpectrumDependance 2003 exEnv (fun _ _ => realLib) (fun _ => false) sweepCase 1000 = ([fig1, fig2], .ok ()) ∧
    fig1.length = 2 ∧ fig2.length = 2 := by
  obtain ⟨c, c', hs, hd⟩ := sweepCase_drawn
  obtain ⟨fig1, fig2, h1, h2, h3, _⟩ := C103_saved_partial exEnv (fun _ _ => realLib) (fun _ => false) sweepCase 1000 (by omega) 2003
    (by show 2 * 1001 + 1 ≤ 2003; omega) sweepCase_states c c' hs hd
  exact ⟨fig1, fig2, h1, h2, h3⟩

/-- Two up spins and a hole: nothing is saved. -/
example : (plotSpectrumDependance 2003 exEnv (fun _ _ => realLib) (fun _ => false) sweepCase3 1000).1 = [] :=
  C103_polarised exEnv (fun _ _ => realLib) (fun _ _ => realLib_eigh) (fun _ _ => realLib_qr) (fun _ => false) sweepCase3 3 1 1
    (rectConf_ok 3 1 1 1 0 (by omega) (by omega) (by omega)) (by unfold Config.Full; decide +kernel) rfl (by decide +kernel)
    (C39_one_hole_in_order _ _ (by decide +kernel)) (by decide +kernel) (by decide +kernel) (by decide +kernel) 1000 (by omega) 2003
    (by show 2 * 1001 + 1 ≤ 2003; omega)

/-- Some couplings at the ratio 2 (C102). -/
example : ∃ I', dependanceCouplings (⟨-1, 2, 3, 4, 5, 6, 7, 8, 9, 10⟩ : Interactions ℝ) 2 = .ok I' ∧ I'.J * 2 = |(-1 : ℝ)| := by
  obtain ⟨I', h1, _, h3, _⟩ := C102_rescaled (⟨-1, 2, 3, 4, 5, 6, 7, 8, 9, 10⟩ : Interactions ℝ) (by norm_num) 2 (by norm_num)
  exact ⟨I', h1, h3⟩

end TJ
