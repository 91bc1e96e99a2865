/-
The Hamiltonian as a function of switches and couplings, on arbitrary configurations.
-/
import Verif.Lemmas.Ham

namespace TJ

theorem bind_eq_ok {α β : Type} {x : Py α} {f : α → Py β} {y : β} :
    (x >>= f) = .ok y ↔ ∃ a, x = .ok a ∧ f a = .ok y := by
  constructor
  · intro h
    cases x with
    | error e => cases h
    | ok a => exact ⟨a, rfl, h⟩
  · rintro ⟨a, h1, h2⟩
    exact bind_ok h1 h2

section
variable {K : Type} [Field K]

theorem cooMatrix_ok_iff (dim : Nat) (l : Coo K) (H : SpMat K) :
    cooMatrix dim l = .ok H ↔ H = ⟨dim, l⟩ ∧ ∀ t ∈ l, t.2.1 < dim ∧ t.2.2 < dim := by
  unfold cooMatrix
  split_ifs with h
  · rw [List.all_eq_true] at h
    constructor
    · intro e
      refine ⟨(Except.ok.inj e).symm, fun t ht => by simpa using h t ht⟩
    · rintro ⟨rfl, _⟩; rfl
  · constructor
    · intro e; cases e
    · rintro ⟨_, g⟩
      exact absurd (List.all_eq_true.2 (fun t ht => by simpa using g t ht)) h

theorem buildHamiltonian_ok_iff (E : Env) (c : Config) (I : Interactions K) (dets : List (List Nat))
    (B : BoolInteractions) (r : List Nat) (v : Bool) (H : SpMat K) :
    buildHamiltonian E c I dets B r v = .ok H ↔ ∃ l1 l2 l3 l4 l5 l6,
      selected B.bt (addHopping E.toSetSem c dets I) = .ok l1 ∧ selected B.bz (addStatic E c dets I) = .ok l2 ∧
      selected B.bij (addFlip E.toSetSem c dets I) = .ok l3 ∧ selected B.bSD (addSD E c dets I) = .ok l4 ∧
      selected B.btN (addNextHopping E c dets I) = .ok l5 ∧ selected B.bV (addRepulsion E c dets I) = .ok l6 ∧
      H = ⟨computeDimension c.nsites c.nalpha c.nbeta, l1 ++ l2 ++ l3 ++ l4 ++ l5 ++ l6⟩ ∧
      ∀ t ∈ l1 ++ l2 ++ l3 ++ l4 ++ l5 ++ l6, t.2.1 < computeDimension c.nsites c.nalpha c.nbeta ∧
        t.2.2 < computeDimension c.nsites c.nalpha c.nbeta := by
  unfold buildHamiltonian
  simp only [bind_eq_ok, cooMatrix_ok_iff]
  constructor
  · rintro ⟨l1, e1, l2, e2, l3, e3, l4, e4, l5, e5, l6, e6, h⟩
    exact ⟨l1, l2, l3, l4, l5, l6, e1, e2, e3, e4, e5, e6, h⟩
  · rintro ⟨l1, l2, l3, l4, l5, l6, e1, e2, e3, e4, e5, e6, h⟩
    exact ⟨l1, e1, l2, e2, l3, e3, l4, e4, l5, e5, l6, e6, h⟩

theorem forDets_inv {dets : List (List Nat)} {body : Nat → List Nat → Py (Coo K)} {l : Coo K}
    (h : forDets dets body = .ok l) : ∀ i d, dets[i]? = some d → ∃ b, body i d = .ok b := by
  unfold forDets at h
  obtain ⟨m, h, -⟩ := bind_eq_ok.1 h
  intro i d hd
  have hm : (d, i) ∈ dets.zipIdx := List.mem_zipIdx_iff_getElem?.2 hd
  generalize dets.zipIdx = z at h hm
  induction z generalizing m with
  | nil => simp at hm
  | cons p z ih =>
    rw [List.mapM_cons] at h
    obtain ⟨b, h1, h2⟩ := bind_eq_ok.1 h
    obtain ⟨bs, h3, _⟩ := bind_eq_ok.1 h2
    rcases List.mem_cons.1 hm with rfl | hm
    · exact ⟨b, h1⟩
    · exact ih bs h3 hm

/-- The triples of a diagonal term. -/
theorem forDets_diag {dets : List (List Nat)} {f : List Nat → Py K} {l : Coo K}
    (h : forDets dets (fun i det => do let x ← f det; return [(x, i, i)]) = .ok l) (i : Nat) (hi : i < dets.length) :
    ∃ x, f dets[i] = .ok x ∧ cooEntry l i i = x ∧ ∀ j, j ≠ i → cooEntry l i j = 0 := by
  have hx : ∀ d, ∃ x, (∃ i : Nat, dets[i]? = some d) → f d = .ok x := by
    intro d
    by_cases hd : ∃ i : Nat, dets[i]? = some d
    · obtain ⟨i, hd⟩ := hd
      obtain ⟨b, hb⟩ := forDets_inv h i d hd
      obtain ⟨x, hx, _⟩ := bind_eq_ok.1 hb
      exact ⟨x, fun _ => hx⟩
    · exact ⟨0, fun g => absurd g hd⟩
  choose x hx using hx
  obtain ⟨l', h1, _, h3⟩ := forDets_row (dets := dets) (B := fun i d => [(x d, i, i)])
    (body := fun i det => do let x ← f det; return [(x, i, i)])
    (fun i d hd => bind_ok (hx d ⟨i, hd⟩) rfl) (fun i d t ht => by rw [List.mem_singleton] at ht; rw [ht])
  obtain rfl := Except.ok.inj (h.symm.trans h1)
  refine ⟨x dets[i], hx _ ⟨i, List.getElem?_eq_getElem hi⟩, ?_, ?_⟩
  · rw [h3 i hi, cooEntry_single, if_pos ⟨rfl, rfl⟩]
  · intro j hj
    rw [h3 i hi, cooEntry_single, if_neg (fun h => hj h.2.symm)]

/-! ### Linearity in the couplings -/

/-- Values linear in the couplings. -/
def LinV (P : Interactions K → K) : Prop := ∀ x y I I', P (lincomb x y I I') = x * P I + y * P I'

/-- COO lists with fixed positions and values linear in the couplings. -/
def LinP (P : Interactions K → Coo K) : Prop :=
  (∀ I I', (P I).map Prod.snd = (P I').map Prod.snd) ∧
    ∀ x y I I' i j, cooEntry (P (lincomb x y I I')) i j = x * cooEntry (P I) i j + y * cooEntry (P I') i j

/-- A computation that fails for all couplings or succeeds for all couplings with a result
of the kind `L`. -/
def LinM {α : Type} (L : (Interactions K → α) → Prop) (f : Interactions K → Py α) : Prop :=
  (∃ e, ∀ I, f I = .error e) ∨ ∃ P, (∀ I, f I = .ok (P I)) ∧ L P

theorem LinM.pure {α : Type} {L : (Interactions K → α) → Prop} {P : Interactions K → α} (h : L P) :
    LinM L (fun I => .ok (P I)) := Or.inr ⟨P, fun _ => rfl, h⟩

/-- A first step that does not depend on the couplings. -/
theorem LinM.const_bind {α β : Type} {L : (Interactions K → α) → Prop} {m : Py β} {f : Interactions K → β → Py α}
    (h : ∀ b, m = .ok b → LinM L (fun I => f I b)) : LinM L (fun I => m >>= f I) := by
  cases m with
  | error e => exact Or.inl ⟨e, fun _ => rfl⟩
  | ok b => exact h b rfl

theorem LinM.bind {α β : Type} {L : (Interactions K → α) → Prop} {L' : (Interactions K → β) → Prop}
    {m : Interactions K → Py β} {f : Interactions K → β → Py α} (hm : LinM L' m)
    (h : ∀ P, L' P → LinM L (fun I => f I (P I))) : LinM L (fun I => m I >>= f I) := by
  rcases hm with ⟨e, he⟩ | ⟨P, h1, h2⟩
  · exact Or.inl ⟨e, fun I => by show m I >>= f I = _; rw [he I]; rfl⟩
  · rcases h P h2 with ⟨e, he⟩ | ⟨Q, g1, g2⟩
    · exact Or.inl ⟨e, fun I => by show m I >>= f I = _; rw [h1 I]; exact he I⟩
    · exact Or.inr ⟨Q, fun I => by show m I >>= f I = _; rw [h1 I]; exact g1 I, g2⟩

theorem LinP.nil : LinP (fun _ : Interactions K => []) :=
  ⟨fun _ _ => rfl, fun x y _ _ i j => by simp [cooEntry_nil]⟩

theorem LinP.append {P Q : Interactions K → Coo K} (hP : LinP P) (hQ : LinP Q) : LinP (fun I => P I ++ Q I) := by
  refine ⟨fun I I' => ?_, fun x y I I' i j => ?_⟩
  · rw [List.map_append, List.map_append, hP.1 I I', hQ.1 I I']
  · simp only [cooEntry_append, hP.2, hQ.2]
    ring

theorem LinP.images (c : Config) (row : Nat) {g : Interactions K → K} (hg : LinV g) (images : List (List Nat)) :
    LinP (fun I => addImages c row (g I) images) := by
  refine ⟨fun I I' => ?_, fun x y I I' i j => ?_⟩
  · unfold addImages
    rw [List.map_map, List.map_map]
    rfl
  · have : ∀ z : K, cooEntry (addImages c row z images) i j =
        (images.map (fun im => z * (if row = i ∧ getIndexInBasis c im = j then 1 else 0))).sum := by
      intro z
      unfold cooEntry addImages
      rw [List.map_map]
      congr 1
      apply List.map_congr_left
      intro im _
      simp
    simp only [this, List.sum_map_mul_left, hg x y I I']
    ring

theorem LinP.pairs (c : Config) (row : Nat) {g : Interactions K → K} (hg : LinV g) (images : List (List Nat × List Nat)) :
    LinP (fun I => addPairs c row (g I) images) := by
  have e : ∀ z : K, addPairs c row z images = images.flatMap (fun im => [(z, row, getIndexInBasis c im.1), (- z, row, getIndexInBasis c im.2)]) :=
    fun _ => rfl
  simp only [e]
  clear e
  induction images with
  | nil => exact LinP.nil
  | cons im l ih =>
    simp only [List.flatMap_cons]
    refine LinP.append ⟨fun _ _ => rfl, fun x y I I' i j => ?_⟩ ih
    unfold cooEntry
    simp only [List.map_cons, List.map_nil, List.sum_cons, List.sum_nil, hg x y I I']
    split_ifs <;> ring

theorem LinP.single (i : Nat) {g : Interactions K → K} (hg : LinV g) : LinP (fun I => [(g I, i, i)]) := by
  refine ⟨fun _ _ => rfl, fun x y I I' k l => ?_⟩
  simp only [cooEntry_single, hg x y I I']
  split_ifs <;> ring

theorem LinM.mapM {f : Interactions K → List Nat × Nat → Py (Coo K)} :
    ∀ (L : List (List Nat × Nat)), (∀ p ∈ L, LinM LinP (fun I => f I p)) →
      LinM LinP (fun I => do let l ← L.mapM (f I); return l.flatten)
  | [], _ => LinM.pure LinP.nil
  | p :: L, h => by
    have e : (fun I => (do let l ← (p :: L).mapM (f I); return l.flatten : Py (Coo K))) =
        fun I => f I p >>= fun b => (do let l ← L.mapM (f I); return l.flatten : Py (Coo K)) >>= fun m => .ok (b ++ m) := by
      funext I
      rw [List.mapM_cons]
      cases f I p with
      | error e => rfl
      | ok b => cases h : L.mapM (f I) <;> rfl
    rw [e]
    exact LinM.bind (h p (by simp)) (fun P hP =>
      LinM.bind (LinM.mapM L (fun q hq => h q (List.mem_cons_of_mem _ hq))) (fun Q hQ => LinM.pure (hP.append hQ)))

theorem LinM.forDets {dets : List (List Nat)} {body : Interactions K → Nat → List Nat → Py (Coo K)}
    (h : ∀ i d, LinM LinP (fun I => body I i d)) : LinM LinP (fun I => forDets dets (body I)) :=
  LinM.mapM (f := fun I p => body I p.2 p.1) dets.zipIdx (fun p _ => h p.2 p.1)

theorem LinM.selected {f : Interactions K → Py (Coo K)} (b : Bool) (h : LinM LinP f) : LinM LinP (fun I => selected b (f I)) := by
  cases b
  · exact LinM.pure LinP.nil
  · exact h

theorem LinM.sum {α : Type} {s : Interactions K → α → Py K} (h : ∀ b, LinM LinV (fun I => s I b)) :
    ∀ (l : List α) (a : Interactions K → K), LinV a →
      LinM LinV (fun I => l.foldlM (fun acc b => do let x ← s I b; return acc + x) (a I))
  | [], a, ha => LinM.pure ha
  | b :: l, a, ha => by
    have e : (fun I => ((b :: l).foldlM (fun acc b => do let x ← s I b; return acc + x) (a I) : Py K)) =
        fun I => s I b >>= fun x => (l.foldlM (fun acc b => do let x ← s I b; return acc + x) (a I + x) : Py K) := by
      funext I
      rw [List.foldlM_cons]
      cases s I b <;> rfl
    rw [e]
    exact LinM.bind (h b) (fun P hP => LinM.sum h l _ (fun x y I I' => by rw [ha, hP]; ring))

theorem LinV.coupling (cl : BondClass) (k : K) : LinV (fun I => I.coupling cl * k) := by
  intro x y I I'
  cases cl <;> simp only [Interactions.coupling, lincomb] <;> ring

theorem computeStatic_lin (E : Env) (c : Config) (det : List Nat) : LinM LinV (fun I : Interactions K => computeStatic E c I det) := by
  unfold computeStatic
  refine LinM.const_bind (fun bonds _ => LinM.sum (fun b => ?_) bonds (fun _ => 0) (fun _ _ _ _ => by simp))
  unfold staticBond
  refine LinM.const_bind (fun s0 _ => LinM.const_bind (fun s1 _ => ?_))
  by_cases h : s0.twice * s1.twice ≠ 0
  · simp only [if_pos h]
    exact LinM.const_bind (fun cl _ => LinM.pure (LinV.coupling cl _))
  · simp only [if_neg h]
    exact LinM.pure (fun _ _ _ _ => by simp)

theorem computeRepulsion_lin (E : Env) (c : Config) (det : List Nat) :
    LinM LinV (fun I : Interactions K => computeRepulsion E c I det) := by
  unfold computeRepulsion
  by_cases h : c.nholes > 1
  · simp only [if_pos h]
    refine LinM.const_bind (fun _ _ => LinM.const_bind (fun p _ => LinM.pure ?_))
    intro x y I I'
    simp only [lincomb]
    ring
  · simp only [if_neg h]
    exact LinM.pure (fun _ _ _ _ => by simp)

theorem LinM.guard {f : Interactions K → Py (Coo K)} (p : Prop) [Decidable p] (h : LinM LinP f) :
    LinM LinP (fun I => if p then f I else .ok []) := by
  by_cases hp : p
  · simpa only [if_pos hp] using h
  · simp only [if_neg hp]
    exact LinM.pure LinP.nil

/-- The Hamiltonian as a function of the couplings. -/
theorem buildHamiltonian_lin (E : Env) (c : Config) (dets : List (List Nat)) (B : BoolInteractions) (r : List Nat) (v : Bool) :
    (∃ e, ∀ I : Interactions K, buildHamiltonian E c I dets B r v = .error e) ∨
      ∃ P : Interactions K → Coo K,
        (∀ I, buildHamiltonian E c I dets B r v = .ok ⟨computeDimension c.nsites c.nalpha c.nbeta, P I⟩) ∧ LinP P := by
  have l1 : LinM LinP (fun I : Interactions K => addHopping E.toSetSem c dets I) :=
    LinM.guard _ (LinM.forDets (fun i d => LinM.const_bind (fun im _ => LinM.pure
      (LinP.images c i (g := fun I => I.t) (fun _ _ _ _ => rfl) im))))
  have l2 : LinM LinP (fun I : Interactions K => addStatic E c dets I) :=
    LinM.forDets (fun i d => LinM.bind (computeStatic_lin E c d) (fun P hP => LinM.pure (LinP.single i hP)))
  have l3 : LinM LinP (fun I : Interactions K => addFlip E.toSetSem c dets I) :=
    LinM.forDets (fun i d => LinM.const_bind (fun p _ => LinM.pure
      (((LinP.images c i (g := fun I => I.Jhpar / 2) (fun _ _ _ _ => by simp only [lincomb]; ring) p.1).append
      (LinP.images c i (g := fun I => I.Jhper / 2) (fun _ _ _ _ => by simp only [lincomb]; ring) p.2.1)).append
      (LinP.images c i (g := fun I => I.J / 2) (fun _ _ _ _ => by simp only [lincomb]; ring) p.2.2))))
  have l4 : LinM LinP (fun I : Interactions K => addSD E c dets I) :=
    LinM.forDets (fun i d => LinM.const_bind (fun p _ => LinM.pure
      ((LinP.pairs c i (g := fun I => I.hSDpar) (fun _ _ _ _ => rfl) p.1).append
      (LinP.pairs c i (g := fun I => I.hSDper) (fun _ _ _ _ => rfl) p.2))))
  have l5 : LinM LinP (fun I : Interactions K => addNextHopping E c dets I) :=
    LinM.guard _ (LinM.forDets (fun i d => LinM.const_bind (fun p _ => LinM.pure
      ((LinP.images c i (g := fun I => I.tnNNN) (fun _ _ _ _ => rfl) p.1).append
      (LinP.images c i (g := fun I => I.tNNN) (fun _ _ _ _ => rfl) p.2)))))
  have l6 : LinM LinP (fun I : Interactions K => addRepulsion E c dets I) :=
    LinM.forDets (fun i d => LinM.bind (computeRepulsion_lin E c d) (fun P hP => LinM.pure (LinP.single i hP)))
  let L : (Interactions K → SpMat K) → Prop := fun M => ∃ P, LinP P ∧ ∀ I, M I = ⟨computeDimension c.nsites c.nalpha c.nbeta, P I⟩
  have main : LinM L (fun I => buildHamiltonian E c I dets B r v) := by
    unfold buildHamiltonian
    refine LinM.bind (LinM.selected B.bt l1) (fun P1 h1 => LinM.bind (LinM.selected B.bz l2) (fun P2 h2 =>
      LinM.bind (LinM.selected B.bij l3) (fun P3 h3 => LinM.bind (LinM.selected B.bSD l4) (fun P4 h4 =>
      LinM.bind (LinM.selected B.btN l5) (fun P5 h5 => LinM.bind (LinM.selected B.bV l6) (fun P6 h6 => ?_))))))
    have hP := ((((h1.append h2).append h3).append h4).append h5).append h6
    generalize hQ : (fun I => P1 I ++ P2 I ++ P3 I ++ P4 I ++ P5 I ++ P6 I) = Q at hP
    have hQ' : ∀ I, P1 I ++ P2 I ++ P3 I ++ P4 I ++ P5 I ++ P6 I = Q I := fun I => congrFun hQ I
    simp only [hQ']
    have hall : ∀ I, ((Q I).all (fun p => p.2.1 < computeDimension c.nsites c.nalpha c.nbeta ∧
        p.2.2 < computeDimension c.nsites c.nalpha c.nbeta)) = (((Q I).map Prod.snd).all
        (fun p => p.1 < computeDimension c.nsites c.nalpha c.nbeta ∧ p.2 < computeDimension c.nsites c.nalpha c.nbeta)) := by
      intro I
      rw [List.all_map]
      rfl
    unfold cooMatrix
    simp only [hall]
    by_cases hb : (((Q (lincomb 0 0 ⟨0, 0, 0, 0, 0, 0, 0, 0, 0, 0⟩ ⟨0, 0, 0, 0, 0, 0, 0, 0, 0, 0⟩)).map Prod.snd).all
        (fun p => p.1 < computeDimension c.nsites c.nalpha c.nbeta ∧ p.2 < computeDimension c.nsites c.nalpha c.nbeta)) = true
    · refine Or.inr ⟨_, fun I => ?_, Q, hP, fun I => rfl⟩
      simp only
      rw [hP.1 I _, if_pos hb]
    · refine Or.inl ⟨.valueError, fun I => ?_⟩
      simp only
      rw [hP.1 I _, if_neg hb]
  rcases main with ⟨e, he⟩ | ⟨M, h1, P, h2, h3⟩
  · exact Or.inl ⟨e, he⟩
  · exact Or.inr ⟨P, fun I => by rw [← h3 I]; exact h1 I, h2⟩

end

end TJ
