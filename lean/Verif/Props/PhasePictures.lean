/-
Property C128: what `save_phase_space` leaves behind, the pictures and the objects of `data`.
-/
import Verif.Model.PhasePictures
import Verif.Props.Phase
import Verif.Props.GeneratePlots

namespace TJ

/-- The file of the phase diagram of a sector, `tJ-H{n}/PhaseDiagrams/tJ-H{n}{a}{b}.png`. -/
def phaseFile (n a b : Nat) : List Char :=
  "tJ-H".toList ++ Nat.toDigits 10 n ++ "/PhaseDiagrams/tJ-H".toList ++ Nat.toDigits 10 n ++ Nat.toDigits 10 a ++ Nat.toDigits 10 b ++ ".png".toList

theorem phaseFile_eq (n a b : Nat) : phaseDir n ++ pictureName n a b ".png".toList = phaseFile n a b := by
  unfold phaseDir phaseFile
  rw [pictureName_nat, latticeDir_nat]
  simp

section
variable {K : Type} [Field K]

theorem phasePoint_eq (E : Env) (c : Config) {nbh nbv nb : Nat} (hc : RectConf c nbh nbv nb) (hf : c.Full) (hn : c.nholes + c.nbeta ≤ c.nsites)
    (I : Interactions K) (b : BoolInteractions) (nbState iX iY : Nat) :
    phasePoint E c I b (basisList c.nsites c.nholes c.nbeta) nbState iX iY =
      if 1 < min nbState (computeDimension c.nsites c.nalpha c.nbeta) then .ok (0, 0) else .error .typeError := by
  obtain ⟨dets', H, h1, h2, h3, h4, _⟩ := C30_no_failure E c nbh nbv nb hc hf hn (phaseCouplings I iX iY) b [] false
  rw [constructBasis_eq c] at h1
  obtain rfl := Except.ok.inj h1
  unfold phasePoint
  rw [h2]
  show (match davidsonShifted H.dim nbState with
    | .linAlgError => (Except.ok (0, 0) : Py (K × K))
    | .typeError => Except.error .typeError) = _
  unfold davidsonShifted
  have : H.dim = computeDimension c.nsites c.nalpha c.nbeta := by exact_mod_cast h4
  rw [this]
  by_cases h : 1 < min nbState (computeDimension c.nsites c.nalpha c.nbeta)
  · rw [if_pos h, if_pos h]
  · rw [if_neg h, if_neg h]

/-- The couplings after a walk. -/
def walkEnd (I : Interactions K) (qs : List (Nat × Nat)) : Interactions K := qs.getLast?.elim I (fun q => phaseCouplings I q.1 q.2)

theorem walkEnd_cons (I : Interactions K) (q : Nat × Nat) (qs : List (Nat × Nat)) :
    walkEnd (phaseCouplings I q.1 q.2) qs = walkEnd I (q :: qs) := by
  unfold walkEnd
  rcases List.eq_nil_or_concat qs with rfl | ⟨l, x, rfl⟩
  · rfl
  · rw [List.concat_eq_append, ← List.cons_append, List.getLast?_append, List.getLast?_append]
    rfl

theorem phaseWalk_ok {E : Env} {c : Config} {b : BoolInteractions} {dets : List (List Nat)} {nbState : Nat}
    (h : ∀ (I : Interactions K) iX iY, phasePoint E c I b dets nbState iX iY = .ok (0, 0)) (qs : List (Nat × Nat)) (I : Interactions K) :
    phaseWalk E c b dets nbState qs I = (walkEnd I qs, .ok (List.replicate qs.length (0, 0))) := by
  induction qs generalizing I with
  | nil => rfl
  | cons q qs ih =>
    unfold phaseWalk
    rw [h, ih, walkEnd_cons]
    rfl

theorem phaseGrid_length (n : Nat) : (phaseGrid n).length = n * n := by
  unfold phaseGrid
  simp

theorem phaseGrid_last (n : Nat) (hn : 1 ≤ n) : (phaseGrid n).getLast? = some (n - 1, n - 1) := by
  obtain ⟨m, rfl⟩ : ∃ m, n = m + 1 := ⟨n - 1, by omega⟩
  unfold phaseGrid
  rw [List.range_succ, List.flatMap_append]
  simp

theorem phaseGrid_head (n : Nat) (hn : 1 ≤ n) : ∃ qs, phaseGrid n = (0, 0) :: qs := by
  obtain ⟨m, rfl⟩ : ∃ m, n = m + 1 := ⟨n - 1, by omega⟩
  unfold phaseGrid
  rw [List.range_succ_eq_map, List.flatMap_cons, List.map_cons]
  exact ⟨_, rfl⟩

theorem phaseRows_zero (n m : Nat) : phaseRows n (List.replicate m (0 : K)) = List.replicate n (List.replicate n 0) := by
  unfold phaseRows
  have : ∀ k, (List.replicate m (0 : K)).getD k 0 = 0 := by
    intro k
    rw [List.getD_eq_getElem?_getD, List.getElem?_replicate]
    split_ifs <;> rfl
  simp only [this]
  simp

theorem meshSizes_iff (old : Bool) (nbT nbV : Nat) : meshSizes old nbV nbT nbT nbT = true ↔ nbV = nbT ∨ old = true ∧ nbV = nbT + 1 := by
  unfold meshSizes
  simp only [Bool.or_eq_true, decide_eq_true_eq, Bool.and_eq_true]
  constructor
  · rintro ((h | h) | ⟨h, h' | h', _⟩)
    · exact .inl h.1
    · omega
    · exact .inl h'
    · exact .inr ⟨h, h'⟩
  · rintro (h | ⟨h, h'⟩)
    · exact .inl (.inl ⟨h, trivial⟩)
    · exact .inr ⟨h, .inr h', .inl trivial⟩

/-- The picture of a sector with `n` rows and columns, all zero. -/
def zeroPicture (n : Nat) : Picture K := .phase (List.replicate n (List.replicate n 0)) (List.replicate n (List.replicate n 0))

theorem drawPhase_zero (old : Bool) (nbT nbV m : Nat) :
    drawPhase old nbT nbV (List.replicate m ((0 : K), (0 : K))) =
      if nbV = nbT ∨ old = true ∧ nbV = nbT + 1 then .ok (zeroPicture nbT) else .error .typeError := by
  unfold drawPhase
  rw [List.map_replicate, List.map_replicate, phaseRows_zero]
  by_cases h : nbV = nbT ∨ old = true ∧ nbV = nbT + 1
  · rw [if_pos h, if_pos ((meshSizes_iff old nbT nbV).2 h)]
    rfl
  · rw [if_neg h, if_neg (fun k => h ((meshSizes_iff old nbT nbV).1 k))]

theorem sector_dimension (c : Config) (h1 : 1 ≤ c.nholes) (h2 : c.nholes < c.nsites) (a : Nat) (ha : a ≤ c.nsites - c.nholes) :
    1 < computeDimension c.nsites ((c.nsites : Int) - c.nholes - (c.nsites - c.nholes - a : Nat)) (c.nsites - c.nholes - a : Nat) := by
  have e : computeDimension c.nsites ((c.nsites : Int) - c.nholes - (c.nsites - c.nholes - a : Nat)) (c.nsites - c.nholes - a : Nat) =
      c.nsites.choose c.nholes * (c.nsites - c.nholes).choose a := by
    unfold computeDimension
    simp only
    rw [show (c.nsites : Int) - ((c.nsites : Int) - c.nholes - (c.nsites - c.nholes - a : Nat)) - (c.nsites - c.nholes - a : Nat) = (c.nholes : Int) by omega,
      show (c.nsites : Int) - c.nholes - (c.nsites - c.nholes - a : Nat) = (a : Int) by omega,
      show (c.nsites : Int) - c.nholes = (c.nsites - c.nholes : Nat) by omega, pyComb_nat, pyComb_nat]
  rw [e]
  have g1 : 2 ≤ c.nsites.choose c.nholes := by
    obtain ⟨n, hn⟩ : ∃ n, c.nsites = n + 1 := ⟨c.nsites - 1, by omega⟩
    obtain ⟨k, hk⟩ : ∃ k, c.nholes = k + 1 := ⟨c.nholes - 1, by omega⟩
    rw [hn, hk, Nat.choose_succ_succ, Nat.succ_eq_add_one]
    have := Nat.choose_pos (n := n) (k := k) (by omega)
    have := Nat.choose_pos (n := n) (k := k + 1) (by omega)
    omega
  have g2 : 1 ≤ (c.nsites - c.nholes).choose a := Nat.choose_pos (by omega)
  nlinarith

/-- One turn of the loop that succeeds. -/
theorem phaseRun_step {old : Bool} (E : Env) {c : Config} {nbh nbv nb : Nat} (hc : RectConf c nbh nbv nb) (hf : c.Full)
    (h1 : 1 ≤ c.nholes) (h2 : c.nholes < c.nsites) (b : BoolInteractions) {nbState nbT nbV : Nat} (hs : 2 ≤ nbState)
    (hV : nbV = nbT ∨ old = true ∧ nbV = nbT + 1) (s : PhaseState K) {m : Nat} (ho : s.obj.config = { c with nbeta := m })
    (hd : phaseDir c.nsites ∈ s.pics.dirs) (a : Nat) (ha : a ≤ c.nsites - c.nholes) (as : List Nat) :
    phaseRun old E b nbState nbT nbV (a :: as) s =
      phaseRun old E b nbState nbT nbV as ⟨s.obj.setSpins (c.nsites - c.nholes - a), walkEnd s.couplings (phaseGrid nbT),
        s.pics.putAll s.pics.dirs [(phaseFile c.nsites a (c.nsites - c.nholes - a), zeroPicture nbT)]⟩ := by
  have e1 : (s.obj.setSpins (s.obj.config.nsites - s.obj.config.nholes - a)) = s.obj.setSpins (c.nsites - c.nholes - a) := by rw [ho]; rfl
  have e2 : (s.obj.setSpins (c.nsites - c.nholes - a)).config = { c with nbeta := c.nsites - c.nholes - a } := by
    unfold ConfigObj.setSpins
    rw [ho]
  obtain ⟨p1, p2⟩ := sector_props hc hf (c.nsites - c.nholes - a)
  have hpt : ∀ (I : Interactions K) iX iY, phasePoint E { c with nbeta := c.nsites - c.nholes - a } I b
      (basisList c.nsites c.nholes (c.nsites - c.nholes - a)) nbState iX iY = .ok (0, 0) := by
    intro I iX iY
    have := phasePoint_eq E _ p1 p2 (show c.nholes + (c.nsites - c.nholes - a) ≤ c.nsites by omega) I b nbState iX iY
    refine this.trans (if_pos ?_)
    have := sector_dimension c h1 h2 a ha
    exact lt_min (by omega) this
  have en : ({ c with nbeta := c.nsites - c.nholes - a } : Config).nalpha = (a : Nat) := by
    show (c.nsites : Int) - c.nholes - (c.nsites - c.nholes - a : Nat) = a
    omega
  conv_lhs => unfold phaseRun
  simp only [e1, e2, constructBasis_eq]
  change (match phaseWalk E _ b (basisList c.nsites c.nholes (c.nsites - c.nholes - a)) nbState (phaseGrid nbT) s.couplings with
    | (I, .error e) => _
    | (I, .ok z) => _) = _
  rw [phaseWalk_ok hpt]
  simp only [drawPhase_zero, if_pos hV, en]
  change (match s.pics.savefig (phaseDir c.nsites) (pictureName c.nsites a (c.nsites - c.nholes - a : Nat) ".png".toList) (zeroPicture nbT) with
    | (p, .error e) => _
    | (p, .ok ()) => _) = _
  rw [savefig_ok hd, phaseFile_eq]

/-- The loop that succeeds, from any number of up spins on. -/
theorem phaseRun_ok {old : Bool} (E : Env) {c : Config} {nbh nbv nb : Nat} (hc : RectConf c nbh nbv nb) (hf : c.Full)
    (h1 : 1 ≤ c.nholes) (h2 : c.nholes < c.nsites) (b : BoolInteractions) {nbState nbT nbV : Nat} (hs : 2 ≤ nbState)
    (hV : nbV = nbT ∨ old = true ∧ nbV = nbT + 1) (as : List Nat) (s : PhaseState K) {m : Nat} (ho : s.obj.config = { c with nbeta := m })
    (hd : phaseDir c.nsites ∈ s.pics.dirs) (ha : ∀ a ∈ as, a ≤ c.nsites - c.nholes) :
    phaseRun old E b nbState nbT nbV as s =
      (⟨as.foldl (fun o a => o.setSpins (c.nsites - c.nholes - a)) s.obj, as.foldl (fun I _ => walkEnd I (phaseGrid nbT)) s.couplings,
        s.pics.putAll s.pics.dirs (as.map (fun a => (phaseFile c.nsites a (c.nsites - c.nholes - a), zeroPicture nbT)))⟩, .ok ()) := by
  induction as generalizing s m with
  | nil => rfl
  | cons a as ih =>
    rw [phaseRun_step E hc hf h1 h2 b hs hV s ho hd a (ha a (by simp)) as]
    have ho' : (s.obj.setSpins (c.nsites - c.nholes - a)).config = { c with nbeta := c.nsites - c.nholes - a } := by
      unfold ConfigObj.setSpins
      rw [ho]
    rw [ih ⟨s.obj.setSpins (c.nsites - c.nholes - a), walkEnd s.couplings (phaseGrid nbT), s.pics.putAll s.pics.dirs _⟩ ho' hd
      (fun x hx => ha x (by simp [hx]))]
    dsimp only
    rw [putAll_putAll]
    rfl

theorem foldl_setSpins (n : Nat) (o : ConfigObj) :
    (List.range (n + 1)).foldl (fun o a => o.setSpins (n - a)) o = o.setSpins 0 := by
  rw [List.range_succ, List.foldl_append]
  have : ∀ (l : List Nat) (o : ConfigObj) m, (l.foldl (fun o a => o.setSpins (n - a)) o).setSpins m = o.setSpins m := by
    intro l
    induction l with
    | nil => intros; rfl
    | cons a l ih => intro o m; exact (ih _ m).trans rfl
  show (List.foldl (fun o a => ConfigObj.setSpins o (n - a)) o (List.range n)).setSpins (n - n) = _
  rw [this, Nat.sub_self]

theorem foldl_walkEnd (nbT : Nat) (hT : 1 ≤ nbT) (as : List Nat) (ha : as ≠ []) (I : Interactions K) :
    as.foldl (fun I _ => walkEnd I (phaseGrid nbT)) I = phaseCouplings I (nbT - 1) (nbT - 1) := by
  have e : ∀ I : Interactions K, walkEnd I (phaseGrid nbT) = phaseCouplings I (nbT - 1) (nbT - 1) := by
    intro I
    unfold walkEnd
    rw [phaseGrid_last nbT hT]
    rfl
  induction as generalizing I with
  | nil => exact absurd rfl ha
  | cons a as ih =>
    rw [List.foldl_cons, e]
    rcases eq_or_ne as [] with rfl | h
    · rfl
    · rw [ih h]
      rfl

theorem savePhasePictures_eq (old : Bool) (E : Env) (c : Config) (nbh nbv nb : Nat) (hc : RectConf c nbh nbv nb) (hf : c.Full)
    (h1 : 1 ≤ c.nholes) (h2 : c.nholes < c.nsites) (I : Interactions K) (b : BoolInteractions) (nbState nbT nbV : Nat) (p : Pictures K)
    (hs : 2 ≤ nbState) (hT : 1 ≤ nbT) (hV : nbV = nbT ∨ old = true ∧ nbV = nbT + 1) (hd : phaseDir c.nsites ∈ p.dirs) :
    savePhasePictures old E c I b nbState nbT nbV p =
      (⟨(ConfigObj.new c).setSpins 0, phaseCouplings I (nbT - 1) (nbT - 1),
        p.putAll p.dirs ((List.range (c.nsites - c.nholes + 1)).map (fun a => (phaseFile c.nsites a (c.nsites - c.nholes - a), zeroPicture nbT)))⟩,
        .ok ()) := by
  unfold savePhasePictures
  rw [show c.nsites + 1 - c.nholes = c.nsites - c.nholes + 1 by omega,
    phaseRun_ok E hc hf h1 h2 b hs hV _ _ (m := c.nbeta) rfl hd (fun a ha => by have := List.mem_range.1 ha; omega)]
  dsimp only
  rw [foldl_setSpins, foldl_walkEnd nbT hT _ (by simp)]

theorem flatMap_block {α β : Type} (g : α → List β) (m : Nat) (hg : ∀ a, (g a).length = m) : ∀ (l : List α) (i j : Nat), j < m →
    (l.flatMap g)[i * m + j]? = l[i]?.bind (fun a => (g a)[j]?) := by
  intro l
  induction l with
  | nil => intro i j _; simp
  | cons a l ih =>
    intro i j hj
    rw [List.flatMap_cons]
    cases i with
    | zero => rw [Nat.zero_mul, Nat.zero_add, List.getElem?_append_left (by rw [hg]; exact hj)]; rfl
    | succ i =>
      rw [List.getElem?_append_right (by rw [hg, Nat.succ_mul]; omega), hg,
        show (i + 1) * m + j - m = i * m + j by rw [Nat.succ_mul]; omega, ih i j hj]
      rfl

omit [Field K] in
theorem phaseGrid_get {nbT iX iY : Nat} (hx : iX < nbT) (hy : iY < nbT) : (phaseGrid nbT)[iX * nbT + iY]? = some (iX, iY) := by
  unfold phaseGrid
  rw [flatMap_block _ nbT (fun _ => by simp) _ _ _ hy, List.getElem?_range hx]
  simp [List.getElem?_range hy]

/-- C128, the layout: if the sweep computes the energy and the spin `f t V` at every point, the picture has them in the row of `V` and the column of `t`, as
`pcolormesh` expects them, the energies in the first panel and the spins in the second. -/
theorem C128_layout (old : Bool) (nbT : Nat) (f : Nat → Nat → K × K) :
    ∃ P Q, drawPhase old nbT nbT ((phaseGrid nbT).map (fun q => f q.1 q.2)) = .ok (.phase P Q) ∧ P.length = nbT ∧ Q.length = nbT ∧
      (∀ r ∈ P, r.length = nbT) ∧ (∀ r ∈ Q, r.length = nbT) ∧
      ∀ t V, t < nbT → V < nbT → (P[V]?.bind (·[t]?)) = some (f t V).1 ∧ (Q[V]?.bind (·[t]?)) = some (f t V).2 := by
  refine ⟨phaseRows nbT (((phaseGrid nbT).map (fun q => f q.1 q.2)).map (·.1)), phaseRows nbT (((phaseGrid nbT).map (fun q => f q.1 q.2)).map (·.2)),
    ?_, ?_, ?_, ?_, ?_, ?_⟩
  · unfold drawPhase
    rw [if_pos (by simp [meshSizes])]
  · simp [phaseRows]
  · simp [phaseRows]
  · intro r hr
    unfold phaseRows at hr
    obtain ⟨_, _, rfl⟩ := List.mem_map.1 hr
    simp
  · intro r hr
    unfold phaseRows at hr
    obtain ⟨_, _, rfl⟩ := List.mem_map.1 hr
    simp
  · intro t V ht hV
    unfold phaseRows
    simp [List.getElem?_range hV, List.getElem?_range ht, List.getD_eq_getElem?_getD, phaseGrid_get ht hV]

/-- C128, the pictures. With at least one hole and one electron, for the states number 2 and above, as many values of `V` as of `t` and an existing directory
`PhaseDiagrams`, `save_phase_space` ends, every sector has its picture and no other file has changed. All these pictures are the same: `nb_t` times `nb_t`
zeros for the energies and for the spins (C86). -/
theorem C128_pictures_partial (old : Bool) (E : Env) (c : Config) (nbh nbv nb : Nat) (hc : RectConf c nbh nbv nb) (hf : c.Full)
    (h1 : 1 ≤ c.nholes) (h2 : c.nholes < c.nsites) (I : Interactions K) (b : BoolInteractions) (nbState nbT : Nat) (p : Pictures K)
    (hs : 2 ≤ nbState) (hT : 1 ≤ nbT) (hd : phaseDir c.nsites ∈ p.dirs) :
    ∃ s, savePhasePictures old E c I b nbState nbT nbT p = (s, .ok ()) ∧ s.pics.dirs = p.dirs ∧
      (∀ a beta, a + beta = c.nsites - c.nholes → s.pics.file (phaseFile c.nsites a beta) =
        some (.phase (List.replicate nbT (List.replicate nbT 0)) (List.replicate nbT (List.replicate nbT 0)))) ∧
      ∀ q, (∀ a beta, a + beta = c.nsites - c.nholes → q ≠ phaseFile c.nsites a beta) → s.pics.file q = p.file q := by
  refine ⟨_, savePhasePictures_eq old E c nbh nbv nb hc hf h1 h2 I b nbState nbT nbT p hs hT (.inl rfl) hd, rfl, ?_, ?_⟩
  · intro a beta hab
    refine putAll_file (x := zeroPicture nbT) (List.mem_map.2 ⟨a, List.mem_range.2 (by omega), ?_⟩) ?_
    · rw [show c.nsites - c.nholes - a = beta by omega]
    · intro e he _
      obtain ⟨_, _, rfl⟩ := List.mem_map.1 he
      rfl
  · intro q hq
    refine putAll_other (fun e he => ?_)
    obtain ⟨a, ha, rfl⟩ := List.mem_map.1 he
    have := List.mem_range.1 ha
    exact (hq a _ (by omega)).symm

/-- C128, when it ends: otherwise, when the state is one of the two lowest, when the number of values of `V` is another than that of `t` (up to old versions of
matplotlib), or when the directory is missing, `save_phase_space` ends with an exception and no picture at all is saved. -/
theorem C128_ends_iff (old : Bool) (E : Env) (c : Config) (nbh nbv nb : Nat) (hc : RectConf c nbh nbv nb) (hf : c.Full)
    (h1 : 1 ≤ c.nholes) (h2 : c.nholes < c.nsites) (I : Interactions K) (b : BoolInteractions) (nbState nbT nbV : Nat) (p : Pictures K)
    (hT : 1 ≤ nbT) :
    ((savePhasePictures old E c I b nbState nbT nbV p).2 = .ok () ↔
      2 ≤ nbState ∧ (nbV = nbT ∨ old = true ∧ nbV = nbT + 1) ∧ phaseDir c.nsites ∈ p.dirs) ∧
    ((savePhasePictures old E c I b nbState nbT nbV p).2 ≠ .ok () → (savePhasePictures old E c I b nbState nbT nbV p).1.pics = p) := by
  by_cases hall : 2 ≤ nbState ∧ (nbV = nbT ∨ old = true ∧ nbV = nbT + 1) ∧ phaseDir c.nsites ∈ p.dirs
  · have := savePhasePictures_eq old E c nbh nbv nb hc hf h1 h2 I b nbState nbT nbV p hall.1 hT hall.2.1 hall.2.2
    rw [this]
    exact ⟨⟨fun _ => hall, fun _ => rfl⟩, fun h => absurd rfl h⟩
  have key : ∃ o J e, savePhasePictures old E c I b nbState nbT nbV p = (⟨o, J, p⟩, .error e) := by
    obtain ⟨m, hm⟩ : ∃ m, c.nsites + 1 - c.nholes = m + 1 := ⟨c.nsites - c.nholes, by omega⟩
    obtain ⟨p1, p2⟩ := sector_props hc hf (c.nsites - c.nholes - 0)
    obtain ⟨qs, hq⟩ := phaseGrid_head nbT hT
    have hpt : ∀ (I : Interactions K) iX iY, phasePoint E { c with nbeta := c.nsites - c.nholes - 0 } I b
        (basisList ({ c with nbeta := c.nsites - c.nholes - 0 } : Config).nsites c.nholes (c.nsites - c.nholes - 0)) nbState iX iY = if 2 ≤ nbState then .ok (0, 0) else .error .typeError := by
      intro I iX iY
      have e := phasePoint_eq E _ p1 p2 (show c.nholes + (c.nsites - c.nholes - 0) ≤ c.nsites by omega) I b nbState iX iY
      refine e.trans ?_
      have := sector_dimension c h1 h2 0 (by omega)
      refine if_congr ⟨fun h => ?_, fun h => lt_min (by omega) this⟩ rfl rfl
      exact (lt_min_iff.1 h).1
    unfold savePhasePictures
    rw [hm, List.range_succ_eq_map]
    unfold phaseRun
    simp only [ConfigObj.setSpins, ConfigObj.new, constructBasis_eq]
    by_cases g1 : 2 ≤ nbState
    · rw [phaseWalk_ok (fun I x y => (hpt I x y).trans (if_pos g1))]
      simp only [drawPhase_zero]
      by_cases g2 : nbV = nbT ∨ old = true ∧ nbV = nbT + 1
      · simp only [if_pos g2]
        have g3 : phaseDir c.nsites ∉ p.dirs := fun h => hall ⟨g1, g2, h⟩
        have g4 : phaseDir ({ c with nbeta := c.nsites - c.nholes - 0 } : Config).nsites ∉ p.dirs := g3
        simp only [Pictures.savefig, if_neg g4]
        exact ⟨_, _, _, rfl⟩
      · simp only [if_neg g2]
        exact ⟨_, _, _, rfl⟩
    · rw [hq]
      unfold phaseWalk
      simp only [hpt, if_neg g1]
      exact ⟨_, _, _, rfl⟩
  obtain ⟨o, J, e, hk⟩ := key
  rw [hk]
  exact ⟨⟨fun h => absurd h (by simp), fun h => absurd h hall⟩, fun _ => rfl⟩

/-- C128 fails for the data: after a sweep that ends, the configuration has only up spins, its attributes `nb_conf` and `spin_number` are still those of the start, and the
couplings are those of the last point of the grid. -/
theorem C128_data_changed (old : Bool) (E : Env) (c : Config) (nbh nbv nb : Nat) (hc : RectConf c nbh nbv nb) (hf : c.Full)
    (h1 : 1 ≤ c.nholes) (h2 : c.nholes < c.nsites) (I : Interactions K) (b : BoolInteractions) (nbState nbT nbV : Nat) (p : Pictures K)
    (hT : 1 ≤ nbT) (h : (savePhasePictures old E c I b nbState nbT nbV p).2 = .ok ()) :
    let s := (savePhasePictures old E c I b nbState nbT nbV p).1
    s.obj.config.nbeta = 0 ∧ s.obj.config.nalpha = ((c.nsites - c.nholes : Nat) : Int) ∧ s.obj.config.nholes = c.nholes ∧ s.obj.nbConf = c.nbConf ∧
      s.obj.spinNumber = computeMs c.nalpha.toNat c.nbeta ∧ s.couplings.J = I.J ∧ s.couplings.t = -((nbT : K) - 1) * I.J ∧
      s.couplings.VNN = ((nbT : K) - 1) * I.J := by
  obtain ⟨g1, g2, g3⟩ := (C128_ends_iff old E c nbh nbv nb hc hf h1 h2 I b nbState nbT nbV p hT).1.1 h
  rw [savePhasePictures_eq old E c nbh nbv nb hc hf h1 h2 I b nbState nbT nbV p g1 hT g2 g3]
  have e : ((nbT - 1 : Nat) : K) = (nbT : K) - 1 := by rw [Nat.cast_sub hT, Nat.cast_one]
  refine ⟨rfl, ?_, rfl, rfl, rfl, rfl, ?_, ?_⟩
  · show (c.nsites : Int) - c.nholes - (0 : Nat) = _
    omega
  · show -((nbT - 1 : Nat) : K) * I.J = _
    rw [e]
  · show ((nbT - 1 : Nat) : K) * I.J = _
    rw [e]

/-- C128. So the attribute `nb_conf` is wrong after the sweep unless all spins were parallel at the start. -/
theorem C128_stale (old : Bool) (E : Env) (c : Config) (nbh nbv nb : Nat) (hc : RectConf c nbh nbv nb) (hf : c.Full)
    (h1 : 1 ≤ c.nholes) (h2 : c.nholes < c.nsites) (hb : c.nbeta ≤ c.nsites - c.nholes) (I : Interactions K) (b : BoolInteractions)
    (nbState nbT nbV : Nat) (p : Pictures K) (hT : 1 ≤ nbT) (h : (savePhasePictures old E c I b nbState nbT nbV p).2 = .ok ()) :
    let s := (savePhasePictures old E c I b nbState nbT nbV p).1
    ∃ dets, constructBasis s.obj.config = .ok dets ∧ (s.obj.nbConf = dets.length ↔ c.nbeta = 0 ∨ c.nbeta = c.nsites - c.nholes) := by
  obtain ⟨g1, g2, g3⟩ := (C128_ends_iff old E c nbh nbv nb hc hf h1 h2 I b nbState nbT nbV p hT).1.1 h
  rw [savePhasePictures_eq old E c nbh nbv nb hc hf h1 h2 I b nbState nbT nbV p g1 hT g2 g3]
  refine ⟨_, constructBasis_eq _, ?_⟩
  have e1 : c.nbConf = c.nsites.choose c.nholes * (c.nsites - c.nholes).choose c.nbeta := by
    rw [C02_dimension_value c, if_pos (by omega)]
  have e2 : (basisList c.nsites c.nholes 0).length = c.nsites.choose c.nholes := by rw [length_basisList]; simp
  show c.nbConf = (basisList c.nsites c.nholes 0).length ↔ _
  rw [e1, e2]
  have pos : 0 < c.nsites.choose c.nholes := Nat.choose_pos h2.le
  rw [Nat.mul_eq_left pos.ne', Nat.choose_eq_one_iff]
  exact or_congr Iff.rfl eq_comm

end

/-! ### Examples -/

/-- A tree with the directory of the phase diagrams of four sites. -/
def phaseTree : Pictures ℚ := ⟨["tJ-H4".toList, "tJ-H4/PhaseDiagrams".toList], fun _ => none⟩

theorem phaseTree_dir : phaseDir ((rectConf 2 2 1 1 1).nsites : Int) ∈ phaseTree.dirs := by decide +kernel

/-- Four sites, one hole: the sweep saves the four pictures. -/
example : ∃ s, savePhasePictures false exEnv (rectConf 2 2 1 1 1) exI ⟨true, true, true, true, true, true⟩ 2 3 3 phaseTree = (s, .ok ()) ∧
    s.pics.file "tJ-H4/PhaseDiagrams/tJ-H421.png".toList =
      some (.phase [[0, 0, 0], [0, 0, 0], [0, 0, 0]] [[0, 0, 0], [0, 0, 0], [0, 0, 0]]) := by
  obtain ⟨s, h1, _, h3, _⟩ := C128_pictures_partial false exEnv _ 2 2 1 (rectConf_ok 2 2 1 1 1 (by decide) (by decide) (by decide))
    (by unfold Config.Full; decide +kernel) (by decide) (by decide) exI ⟨true, true, true, true, true, true⟩ 2 3 phaseTree (by decide) (by decide) phaseTree_dir
  exact ⟨s, h1, h3 2 1 (by decide)⟩

/-- With five values of `V` and three of `t` there is an exception; with four there is one only since matplotlib 3.5. -/
example (old : Bool) (nbV : Nat) (h : nbV = 4 ∨ nbV = 5) :
    (savePhasePictures old exEnv (rectConf 2 2 1 1 1) exI ⟨true, true, true, true, true, true⟩ 2 3 nbV phaseTree).2 = .ok () ↔ old = true ∧ nbV = 4 := by
  rw [(C128_ends_iff old exEnv _ 2 2 1 (rectConf_ok 2 2 1 1 1 (by decide) (by decide) (by decide))
    (by unfold Config.Full; decide +kernel) (by decide) (by decide) exI ⟨true, true, true, true, true, true⟩ 2 3 nbV phaseTree (by decide)).1]
  constructor
  · rintro ⟨_, h' | h', _⟩
    · omega
    · exact h'
  · exact fun h' => ⟨by decide, .inr h', phaseTree_dir⟩

/-- After the sweep `nb_conf` is 12, but there are four determinants with three up spins. -/
example : ∃ s, savePhasePictures false exEnv (rectConf 2 2 1 1 1) exI ⟨true, true, true, true, true, true⟩ 2 3 3 phaseTree = (s, .ok ()) ∧
    s.obj.nbConf = 12 ∧ ∃ dets, constructBasis s.obj.config = .ok dets ∧ s.obj.nbConf ≠ dets.length := by
  have hc := rectConf_ok 2 2 1 1 1 (by decide) (by decide) (by decide)
  have hf : (rectConf 2 2 1 1 1).Full := by unfold Config.Full; decide +kernel
  have hk := (C128_ends_iff false exEnv _ 2 2 1 hc hf (by decide) (by decide) exI ⟨true, true, true, true, true, true⟩ 2 3 3 phaseTree (by decide)).1.2
    ⟨by decide, .inl rfl, phaseTree_dir⟩
  have h1 := C128_data_changed false exEnv _ 2 2 1 hc hf (by decide) (by decide) exI ⟨true, true, true, true, true, true⟩ 2 3 3 phaseTree (by decide) hk
  have h2 := C128_stale false exEnv _ 2 2 1 hc hf (by decide) (by decide) (by decide) exI ⟨true, true, true, true, true, true⟩ 2 3 3 phaseTree (by decide) hk
  generalize savePhasePictures false exEnv (rectConf 2 2 1 1 1) exI ⟨true, true, true, true, true, true⟩ 2 3 3 phaseTree = r at hk h1 h2 ⊢
  obtain ⟨dets, d1, d2⟩ := h2
  refine ⟨r.1, Prod.ext rfl hk, h1.2.2.2.1.trans (by decide +kernel), dets, d1, fun h => ?_⟩
  have := d2.1 h
  revert this
  decide +kernel

/-- With two values of each coupling, `10 t + V` as energy and `-t` as spin. -/
example : drawPhase false 2 2 ((phaseGrid 2).map (fun q => ((10 * q.1 + q.2 : ℚ), (-q.1 : ℚ)))) = .ok (.phase [[0, 10], [1, 11]] [[0, -1], [0, -1]]) := by
  simp [drawPhase, meshSizes, phaseRows, phaseGrid, List.range, List.range.loop]
  norm_num

end TJ
