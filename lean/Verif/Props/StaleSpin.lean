/-
Property C132: the total spin computed with the configuration that save_phase_space leaves behind.
-/
import Verif.Model.StaleSpin
import Verif.Props.PhasePictures
import Verif.Props.Spin

namespace TJ

/-! ### C132 -/

/-- C132. On an object as `__init__` makes it, the operators are those of the configuration. -/
theorem C132_new {K : Type} [Field K] [DecidableEq K] (S : SetSem) (c : Config) (v : List K) :
    (ConfigObj.new c).computeS2 S v = computeS2 S c v ∧ (ConfigObj.new c).computeS2ExpVal S v = computeS2ExpVal S c v := ⟨rfl, rfl⟩

theorem foldlM_error {α β : Type} {f : β → α → Py β} {e : PyErr} {a : α} {w : β} : ∀ {l : List α},
    (∀ x ∈ l, f w x = .ok w) → f w a = .error e → ∀ r, (l ++ a :: r).foldlM f w = .error e := by
  intro l
  induction l with
  | nil => intro _ h r; rw [List.nil_append, List.foldlM_cons, h]; rfl
  | cons x l ih =>
    intro h1 h2 r
    rw [List.cons_append, List.foldlM_cons, h1 x (List.mem_cons_self ..)]
    exact ih (fun y hy => h1 y (List.mem_cons_of_mem _ hy)) h2 r

/-- Un-ranking beyond the last determinant. -/
theorem getHashBasis_beyond (c : Config) (h1 : 1 ≤ c.nholes) (hn : c.nholes + c.nbeta ≤ c.nsites) (ind : Nat) (hi : c.nbConf ≤ ind) :
    getHashBasis c.nholes c.nalpha.toNat c.nbeta ind = .error .indexError := by
  have e0 : c.nholes + c.nalpha.toNat + c.nbeta = c.nsites := by unfold Config.nalpha; omega
  have e1 : c.nbConf = c.nsites.choose c.nholes * (c.nsites - c.nholes).choose c.nbeta := by
    rw [C02_dimension_value c, if_pos hn]
  have pos : 0 < (c.nsites - c.nholes).choose c.nbeta := Nat.choose_pos (by omega)
  have e2 : pyComb ((c.nsites : Int) - c.nholes) c.nbeta = (c.nsites - c.nholes).choose c.nbeta := by
    rw [show (c.nsites : Int) - c.nholes = ((c.nsites - c.nholes : Nat) : Int) by omega]
    unfold pyComb
    rw [if_neg (by omega)]
    simp
  obtain ⟨_, _, _, _, h⟩ := C07_target_hash c.nsites c.nholes (by omega)
  unfold getHashBasis
  dsimp only
  rw [e0, e2, if_neg pos.ne', h h1 _ ((Nat.le_div_iff_mul_le pos).2 (by rw [← e1]; exact hi))]
  rfl

/-- Without down spins nothing can be raised. -/
theorem sPlusSMinusDet_parallel (S : SetSem) (c : Config) (hb : c.nbeta = 0) (det : List Nat) (p m : Nat) :
    sPlusSMinusDet S c det p m = .ok none := by
  have e : ∀ x, S.inter (betaOf c det) x = [] := by
    intro x
    rw [List.eq_nil_iff_forall_not_mem]
    intro y hy
    have := ((S.mem_inter _ _ _).1 hy).1
    simp [betaOf, hb] at this
  unfold sPlusSMinusDet
  simp [getIndexesOf, e, bind, Except.bind, pure, Except.pure]

theorem sPlusSMinus_beyond {K : Type} [Field K] (S : SetSem) (o : ConfigObj) (hb : o.config.nbeta = 0) (h1 : 1 ≤ o.config.nholes)
    (hn : o.config.nholes ≤ o.config.nsites) (hd : o.config.nbConf < o.nbConf) (v : List K) (p m : Nat) :
    o.sPlusSMinus S v p m = .error .indexError := by
  obtain ⟨r, hr⟩ : ∃ r, o.nbConf = o.config.nbConf + (r + 1) := ⟨o.nbConf - o.config.nbConf - 1, by omega⟩
  have hle : o.config.nholes + o.config.nbeta ≤ o.config.nsites := by omega
  unfold ConfigObj.sPlusSMinus
  rw [hr, List.range_add, List.range_succ_eq_map, List.map_cons]
  refine foldlM_error (fun ind hi => ?_) ?_ _
  · obtain ⟨d, hd, _⟩ := (C05_mutually_inverse o.config hle).1 ind (List.mem_range.1 hi)
    unfold sPlusSMinusStep
    rw [hd]
    simp only [bind, Except.bind]
    rw [sPlusSMinusDet_parallel S _ hb]
    rfl
  · unfold sPlusSMinusStep
    rw [getHashBasis_beyond _ h1 hle _ (by omega)]
    rfl

/-- C132, any object with only up spins, a hole and at least two sites: if `nb_conf` is larger than the number of determinants, `compute_S2` raises `IndexError`
for every vector, and so does `compute_S2_exp_val` for every vector that is not zero. -/
theorem C132_stale_index_error {K : Type} [Field K] [DecidableEq K] (S : SetSem) (o : ConfigObj) (hb : o.config.nbeta = 0) (h1 : 1 ≤ o.config.nholes)
    (hn : o.config.nholes ≤ o.config.nsites) (h2 : 2 ≤ o.config.nsites) (hd : o.config.nbConf < o.nbConf) (v : List K) :
    o.computeS2 S v = .error .indexError ∧ (vdot v v ≠ 0 → o.computeS2ExpVal S v = .error .indexError) := by
  have key : o.computeS2 S v = .error .indexError := by
    obtain ⟨q, l, hq⟩ : ∃ q l, sitePairs o.config.nsites = q :: l := by
      refine List.exists_cons_of_ne_nil (List.ne_nil_of_mem (a := (0, 1)) ?_)
      unfold sitePairs
      rw [List.mem_flatten]
      exact ⟨_, List.mem_map.2 ⟨0, List.mem_range.2 (by omega), rfl⟩, List.mem_map.2 ⟨1, by rw [List.mem_range'_1]; omega, rfl⟩⟩
    unfold ConfigObj.computeS2
    rw [hq, List.foldlM_cons, sPlusSMinus_beyond S o hb h1 hn hd]
    rfl
  refine ⟨key, fun hv => ?_⟩
  unfold ConfigObj.computeS2ExpVal
  dsimp only
  rw [if_pos hv, key]
  rfl

/-- C132. After a run of `save_phase_space` that ends, `compute_S2` with the configuration of the data is that of the configuration with only up spins if the spins
were parallel at the start. Otherwise it raises `IndexError` for every vector. (Missing from the claim: in the second case there is no result.) -/
theorem C132_after_sweep_partial {K : Type} [Field K] [DecidableEq K] (S : SetSem) (old : Bool) (E : Env) (c : Config) (nbh nbv nb : Nat)
    (hc : RectConf c nbh nbv nb) (hf : c.Full) (h1 : 1 ≤ c.nholes) (h2 : c.nholes < c.nsites) (hb : c.nbeta ≤ c.nsites - c.nholes)
    (I : Interactions K) (b : BoolInteractions) (nbState nbT nbV : Nat) (p : Pictures K) (hT : 1 ≤ nbT)
    (h : (savePhasePictures old E c I b nbState nbT nbV p).2 = .ok ()) (v : List K) :
    let o := (savePhasePictures old E c I b nbState nbT nbV p).1.obj
    (c.nbeta = 0 ∨ c.nbeta = c.nsites - c.nholes → o.computeS2 S v = computeS2 S { c with nbeta := 0 } v) ∧
    (¬ (c.nbeta = 0 ∨ c.nbeta = c.nsites - c.nholes) →
      o.computeS2 S v = .error .indexError ∧ (vdot v v ≠ 0 → o.computeS2ExpVal S v = .error .indexError)) := by
  obtain ⟨dets, d1, d2⟩ := C128_stale old E c nbh nbv nb hc hf h1 h2 hb I b nbState nbT nbV p hT h
  obtain ⟨g1, g2, g3⟩ := (C128_ends_iff old E c nbh nbv nb hc hf h1 h2 I b nbState nbT nbV p hT).1.1 h
  have e := savePhasePictures_eq old E c nbh nbv nb hc hf h1 h2 I b nbState nbT nbV p g1 hT g2 g3
  rw [e] at d1 d2 ⊢
  dsimp only at d1 d2 ⊢
  have hd := C02_dimension _ _ d1
  rw [hd] at d2
  constructor
  · intro hp
    have hn := d2.2 hp
    unfold ConfigObj.computeS2 ConfigObj.sPlusSMinus
    rw [hn]
    rfl
  · intro hp
    refine C132_stale_index_error S _ rfl h1 h2.le (by show 2 ≤ c.nsites; omega) (lt_of_le_of_ne ?_ (fun h => hp (d2.1 h.symm))) v
    show Config.nbConf { c with nbeta := 0 } ≤ c.nbConf
    have e1 : c.nbConf = c.nsites.choose c.nholes * (c.nsites - c.nholes).choose c.nbeta := by rw [C02_dimension_value c, if_pos (by omega)]
    have e2 : Config.nbConf { c with nbeta := 0 } = c.nsites.choose c.nholes * (c.nsites - c.nholes).choose 0 := by
      rw [C02_dimension_value { c with nbeta := 0 }]
      exact if_pos (by show c.nholes + 0 ≤ c.nsites; omega)
    rw [e1, e2, Nat.choose_zero_right, mul_one]
    exact Nat.le_mul_of_pos_right _ (Nat.choose_pos hb)

/-- Four sites with one hole, one down spin and two up spins: `compute_S2` works before the sweep and raises `IndexError` after it. -/
example (v : List ℚ) (hv : v.length = 12) :
    (∃ w, (ConfigObj.new (rectConf 2 2 1 1 1)).computeS2 SetSem.listed v = .ok w) ∧
    (savePhasePictures false exEnv (rectConf 2 2 1 1 1) exI ⟨true, true, true, true, true, true⟩ 2 3 3 phaseTree).1.obj.computeS2 SetSem.listed v =
      .error .indexError := by
  have hc := rectConf_ok 2 2 1 1 1 (by decide) (by decide) (by decide)
  have hf : (rectConf 2 2 1 1 1).Full := by unfold Config.Full; decide +kernel
  have hk := (C128_ends_iff false exEnv _ 2 2 1 hc hf (by decide) (by decide) exI ⟨true, true, true, true, true, true⟩ 2 3 3 phaseTree (by decide)).1.2
    ⟨by decide, .inl rfl, phaseTree_dir⟩
  refine ⟨?_, ((C132_after_sweep_partial SetSem.listed false exEnv _ 2 2 1 hc hf (by decide) (by decide) (by decide) exI
    ⟨true, true, true, true, true, true⟩ 2 3 3 phaseTree (by decide) hk v).2 (by decide)).1⟩
  obtain ⟨w, h, _⟩ := C40_total_spin_partial SetSem.listed (rectConf 2 2 1 1 1) hf (C39_one_hole_in_order _ _ (by decide)) (by decide) _
    (constructBasis_eq _) v (by rw [hv, C02_dimension _ _ (constructBasis_eq _)]; decide +kernel)
  exact ⟨w, h⟩

end TJ
