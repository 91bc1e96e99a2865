/-
Lemmas for the dynamic dressing of embedding_blocks next to a neighbour with reversed spins.
-/
import Verif.Lemmas.SecondOrder5
import Verif.Props.NotSquare

namespace TJ

open Finset

/-- A site can be given any content that occurs. -/
theorem exists_content {n h b : Nat} (hn : h + b ≤ n) (x : Fin n) (o : Occ)
    (ho : 0 < (match o with | .hole => h | .down => b | .up => n - h - b)) :
    ∃ σ : Conf n, σ.count .hole = h ∧ σ.count .down = b ∧ σ x = o := by
  let τ : Conf n := fun s => if s.val < h then .hole else if s.val < h + b then .down else .up
  have k1 : τ.count .hole = h := by
    unfold Conf.count
    have : (univ.filter (fun s : Fin n => τ s = .hole)) = univ.filter (fun s : Fin n => 0 ≤ ((Equiv.refl _ s : Fin n) : Nat) ∧ ((Equiv.refl _ s : Fin n) : Nat) < h) := by
      apply filter_congr
      intro s _
      simp only [τ, Equiv.refl_apply]
      split_ifs <;> simp <;> omega
    rw [this, count_upper (Equiv.refl _) (by omega)]; omega
  have k2 : τ.count .down = b := by
    unfold Conf.count
    have : (univ.filter (fun s : Fin n => τ s = .down)) = univ.filter (fun s : Fin n => h ≤ ((Equiv.refl _ s : Fin n) : Nat) ∧ ((Equiv.refl _ s : Fin n) : Nat) < h + b) := by
      apply filter_congr
      intro s _
      simp only [τ, Equiv.refl_apply]
      split_ifs <;> simp <;> omega
    rw [this, count_upper (Equiv.refl _) (by omega)]; omega
  have hy : ∃ y, τ y = o := by
    cases o with
    | hole => exact ⟨⟨0, by simp only at ho; omega⟩, if_pos (by simpa using ho)⟩
    | down =>
      refine ⟨⟨h, by simp only at ho; omega⟩, ?_⟩
      simp only [τ]
      rw [if_neg (by simp), if_pos (by simp only at ho ⊢; omega)]
    | up =>
      refine ⟨⟨h + b, by simp only at ho; omega⟩, ?_⟩
      simp only [τ]
      rw [if_neg (by simp), if_neg (by simp)]
  obtain ⟨y, hy⟩ := hy
  have hc : ∀ o', Conf.count (fun s => τ (Equiv.swap x y s)) o' = τ.count o' := by
    intro o'
    unfold Conf.count
    refine card_bij (fun s _ => Equiv.swap x y s) ?_ ?_ ?_
    · intro s hs
      exact mem_filter.2 ⟨mem_univ _, (mem_filter.1 hs).2⟩
    · intro s _ s' _ e
      exact (Equiv.swap x y).injective e
    · intro t ht
      refine ⟨Equiv.swap x y t, mem_filter.2 ⟨mem_univ _, ?_⟩, Equiv.swap_apply_self x y t⟩
      simp only [Equiv.swap_apply_self]
      exact (mem_filter.1 ht).2
  exact ⟨fun s => τ (Equiv.swap x y s), by rw [hc, k1], by rw [hc, k2], by simp only [Equiv.swap_apply_left]; exact hy⟩

/-- Two sites of a block and of its neighbour that face each other. -/
theorem facing_sites {S : SetSem} {c : Config} {dets : List (List Nat)} {reverse : Bool} {su : BlockSetup} (hc : RectConf c c.nbh c.nbv c.nblocs)
    (hsu : blockSetup S c dets reverse = .ok su) :
    ∃ x < c.nsites, ∃ y < c.nsites, su.cE.bond.e x (c.nsites + y) = 1 := by
  have g := blockSetup_geom S hc hsu
  have hW : 0 < c.nbh * c.nblocs := Nat.mul_pos hc.hh hc.hb
  have hH : 0 < c.nbv * c.nblocs := Nat.mul_pos hc.hv hc.hb
  have hrow := g.rows
  have h0 : c.nbh * c.nblocs - 1 < c.nsites := by
    have := Nat.le_mul_of_pos_right (c.nbh * c.nblocs) hH
    omega
  refine ⟨_, h0, 0, by omega, (g.near _ (by omega) _ (by omega)).2 ?_⟩
  rw [g.rows, twoPos_left (by omega), twoPos_right]
  unfold Near gridPos
  rw [Nat.mod_eq_of_lt (by omega), Nat.div_eq_of_lt (by omega), Nat.zero_mod, Nat.zero_div]
  simp only
  omega

/-- The determinants of the neighbour. -/
theorem neighbour_mem {S : SetSem} {c : Config} (hf : c.Full) (hn : c.nholes + c.nbeta ≤ c.nsites) {dets : List (List Nat)}
    (hb : constructBasis c = .ok dets) {reverse : Bool} {su : BlockSetup} (hsu : blockSetup S c dets reverse = .ok su) :
    su.cB.nsites = c.nsites ∧ su.cB.Full ∧ su.cB.nholes = c.nholes ∧ su.cB.nbeta = (if reverse then c.nsites - c.nholes - c.nbeta else c.nbeta) ∧
      constructBasis su.cB = .ok (basisList c.nsites su.cB.nholes su.cB.nbeta) ∧ ∀ d, d ∈ su.detsB ↔ d ∈ basisList c.nsites su.cB.nholes su.cB.nbeta := by
  obtain ⟨h1, h2⟩ := blockSetup_neighbour S hf hn hb hsu
  have e := hb
  rw [constructBasis_eq] at e
  obtain rfl := Except.ok.inj e
  rw [h1, h2]
  cases reverse with
  | false => exact ⟨rfl, hf, rfl, rfl, constructBasis_eq _, fun d => Iff.rfl⟩
  | true =>
    have hnb : c.flip.nbeta = c.nsites - c.nholes - c.nbeta := nalpha_toNat hn
    refine ⟨rfl, flip_full hf, rfl, hnb, constructBasis_eq _, fun d => ?_⟩
    simp only [if_true]
    rw [List.mem_map, mem_basisList]
    constructor
    · rintro ⟨d0, h0, rfl⟩
      obtain ⟨σ, k1, k2, rfl⟩ := mem_basisList.1 h0
      refine ⟨fun s => (σ s).rev, by rw [cnt_rev]; exact k1, ?_, ?_⟩
      · rw [cnt_rev, hnb]
        have := cnt_add c.nsites σ
        show cnt c.nsites σ .up = _
        omega
      · apply detOf_congr
        intro s hs
        show (occ c.nholes c.nbeta (detOf c.nsites σ) s).rev = _
        rw [occ_detOf k1 k2 hs]
    · rintro ⟨σ, k1, k2, rfl⟩
      have k1 : cnt c.nsites σ .hole = c.nholes := k1
      rw [hnb] at k2
      have r1 : cnt c.nsites (fun s => (σ s).rev) .hole = c.nholes := by rw [cnt_rev]; exact k1
      have r2 : cnt c.nsites (fun s => (σ s).rev) .down = c.nbeta := by
        rw [cnt_rev]
        have := cnt_add c.nsites σ
        show cnt c.nsites σ .up = _
        omega
      refine ⟨detOf c.nsites (fun s => (σ s).rev), mem_basisList.2 ⟨_, r1, r2, rfl⟩, ?_⟩
      apply detOf_congr
      intro s hs
      show (occ c.nholes c.nbeta (detOf c.nsites (fun s => (σ s).rev)) s).rev = _
      rw [occ_detOf r1 r2 hs]
      cases σ s <;> rfl

section
variable {K : Type} [Field K] [LinearOrder K]

/-- The register keeps its keys. -/
def HasKeys (c : Config) (st : Memory × SpMat K) : Prop := st.1.map (·.1) = memoryKeys c.counts

theorem lookup_missing {α β : Type} [BEq α] [LawfulBEq α] {k : α} : ∀ {l : List (α × β)}, k ∉ l.map (·.1) → l.lookup k = none
  | [], _ => rfl
  | (a, b) :: l, h => by
    rw [List.map_cons, List.mem_cons, not_or] at h
    rw [List.lookup_cons]
    have : (k == a) = false := by rw [beq_eq_false_iff_ne]; exact h.1
    rw [this]
    exact lookup_missing h.2

theorem lookup_present {α β : Type} [BEq α] [LawfulBEq α] {k : α} : ∀ {l : List (α × β)}, k ∈ l.map (·.1) → ∃ x, l.lookup k = some x
  | [], h => absurd h (by simp)
  | (a, b) :: l, h => by
    rw [List.lookup_cons]
    by_cases hk : k = a
    · subst hk
      exact ⟨b, by simp⟩
    · have : (k == a) = false := by rw [beq_eq_false_iff_ne]; exact hk
      rw [this]
      rw [List.map_cons, List.mem_cons] at h
      exact lookup_present (h.resolve_left hk)

theorem map_keys {α β : Type} [DecidableEq α] (key : α) (f : β → β) (l : List (α × β)) :
    (l.map (fun p => if p.1 = key then (p.1, f p.2) else p)).map (·.1) = l.map (·.1) := by
  rw [List.map_map]
  apply List.map_congr_left
  intro p _
  simp only [Function.comp]
  split_ifs <;> rfl

theorem blockPair_keys {E : Env} {I : Interactions K} {c : Config} {su : BlockSetup} {nbr : Bool} {th en : K} {gs : List K} {cPA cPB : Config}
    {nA nB : Counts} {pA : List Nat} {spin new : Occ} {dB : List Nat} {st st' : Memory × SpMat K} {s : Nat} (hs : HasKeys c st)
    (e : blockPair E I c su nbr th gs en cPA cPB nA nB pA spin new dB st s = .ok st') : HasKeys c st' := by
  unfold blockPair at e
  obtain ⟨o, _, e⟩ := bind_eq_ok.1 e
  by_cases ho : o = new
  · rw [if_pos ho] at e
    obtain ⟨pB, _, e⟩ := bind_eq_ok.1 e
    dsimp only at e
    split at e
    · cases e
    · split_ifs at e with hm
      · cases e; exact hs
      · obtain ⟨h, e1, e⟩ := bind_eq_ok.1 e
        cases e
        exact (map_keys (nA.id, nB.id) (· ++ [(computeHashTable cPA pA, computeHashTable cPB pB)]) st.1).trans hs
  · rw [if_neg ho] at e
    cases e; exact hs

theorem blockExchange_keys {E : Env} {I : Interactions K} {c : Config} {su : BlockSetup} {nbr : Bool} {th en : K} {gs : List K} {dA : List Nat}
    {site : Nat} {spin new : Occ} {st st' : Memory × SpMat K} (hs : HasKeys c st)
    (e : blockExchange E I c su nbr th gs en dA site spin st new = .ok st') : HasKeys c st' := by
  unfold blockExchange at e
  split_ifs at e with hp
  · obtain ⟨_, _, e⟩ := bind_eq_ok.1 e
    obtain ⟨_, _, e⟩ := bind_eq_ok.1 e
    obtain ⟨_, _, e⟩ := bind_eq_ok.1 e
    obtain ⟨_, _, e⟩ := bind_eq_ok.1 e
    obtain ⟨_, _, e⟩ := bind_eq_ok.1 e
    exact foldlM_inv (P := HasKeys c) (fun b a b' hb e => foldlM_inv (P := HasKeys c) (fun b a b' hb e => blockPair_keys hb e) _ hb e) _ hs e
  · cases e; exact hs

/-- An exchange that is not in the register ends the run. -/
theorem blockDynamic_stops {E : Env} {I : Interactions K} {c : Config} {dets : List (List Nat)} {reverse : Bool} {su : BlockSetup}
    (hc : RectConf c c.nbh c.nbv c.nblocs) (hsu : blockSetup E.toSetSem c dets reverse = .ok su) (nbr : Bool) (th en : K) (gs : List K)
    {x y : Nat} (hx : x < c.nsites) (hy : y < c.nsites) (hxy : su.cE.bond.e x (c.nsites + y) = 1) {detA detB : List Nat} {spin new : Occ}
    (hA : getSpinSite c detA x = .ok spin) (hdB : detB ∈ su.detsB) (hB : getSpinSite su.cB detB y = .ok new) (hne : new ≠ spin)
    (hpos : 0 < su.cB.counts.get new)
    (hkey : ((countsA c.nsites c.counts spin new).id, (countsB su.cB.nsites su.cB.counts c.counts spin new).id) ∉ memoryKeys c.counts)
    (h h' : SpMat K) : blockDynamic E I c su nbr th gs en detA h ≠ .ok h' := by
  have g := blockSetup_geom E.toSetSem hc hsu
  intro e
  unfold blockDynamic at e
  obtain ⟨st, e, _⟩ := bind_eq_ok.1 e
  refine foldlM_stops (P := HasKeys c) ?_ _ _ _ ?_ ⟨x, g.memA x hx y hy hxy, ?_⟩ e
  · intro b a b' hb e
    obtain ⟨sp, _, e⟩ := bind_eq_ok.1 e
    exact foldlM_inv (P := HasKeys c) (fun b a b' hb e => blockExchange_keys hb e) _ hb e
  · show ((memoryKeys c.counts).map (fun k => (k, []))).map (·.1) = _
    rw [List.map_map]
    exact List.map_id _
  · intro b b' hb e
    rw [hA] at e
    refine foldlM_stops (P := HasKeys c) (fun b a b' hb e => blockExchange_keys hb e) _ _ _ hb ⟨new, ?_, ?_⟩ e
    · rw [List.mem_filter]
      exact ⟨by cases new <;> simp, by simpa using hne⟩
    · intro b b' hb e
      unfold blockExchange at e
      rw [if_pos hpos] at e
      obtain ⟨cPA, _, e⟩ := bind_eq_ok.1 e
      obtain ⟨cPB, _, e⟩ := bind_eq_ok.1 e
      obtain ⟨pA, _, e⟩ := bind_eq_ok.1 e
      obtain ⟨n1, h1, e⟩ := bind_eq_ok.1 e
      obtain ⟨n2, _, e⟩ := bind_eq_ok.1 e
      have hrows : su.cE.bond.rows = 2 * c.nsites := g.erows
      obtain ⟨n1', g1, _, g2⟩ := getNeighbors_spec E.toSetSem su.cE.bond (.list su.fB) x (by omega)
      obtain rfl := Except.ok.inj (g1.symm.trans h1)
      have hmem : c.nsites + y ∈ n1' := by
        refine (g2 _).2 ⟨by omega, ?_, hxy⟩
        have := g.memB x hx y hy hxy
        cases hfB : su.fB with
        | nil => rw [hfB] at this; exact absurd this (by simp)
        | cons a l => rw [hfB] at this; exact this
      refine foldlM_stops (P := HasKeys c) (fun b a b' hb e => foldlM_inv (P := HasKeys c) (fun b a b' hb e => blockPair_keys hb e) _ hb e) _ _ _ hb
        ⟨detB, hdB, fun b b' hb e => ?_⟩ e
      refine foldlM_stops (P := HasKeys c) (fun b a b' hb e => blockPair_keys hb e) _ _ _ hb
        ⟨c.nsites + y, List.mem_append_left _ hmem, fun b b' hb e => ?_⟩ e
      unfold blockPair at e
      rw [Nat.add_sub_cancel_left, hB] at e
      obtain ⟨o, k, e⟩ := bind_eq_ok.1 e
      obtain rfl := Except.ok.inj k
      rw [if_pos rfl] at e
      obtain ⟨pB, _, e⟩ := bind_eq_ok.1 e
      rw [← show b.1.map (·.1) = memoryKeys c.counts from hb] at hkey
      simp only [lookup_missing hkey] at e
      cases e

end

/-! ### A block without holes -/

theorem foldlM_reaches {α β : Type} {f : β → α → Py β} {P : β → Prop} :
    ∀ (l : List α) (b : β), P b → (∀ b, P b → ∀ a ∈ l, ∃ b', f b a = .ok b' ∧ P b') → ∃ b', l.foldlM f b = .ok b' ∧ P b'
  | [], b, hb, _ => ⟨b, rfl, hb⟩
  | a :: l, b, hb, hf => by
    obtain ⟨b1, e1, h1⟩ := hf b hb a (by simp)
    rw [List.foldlM_cons, e1]
    exact foldlM_reaches l b1 h1 (fun b hb a ha => hf b hb a (List.mem_cons_of_mem _ ha))

theorem reorder_valid {c : Config} {n : Nat} {l : List Nat} (hv : ValidDet n l) : ValidDet n (reorder c l) := by
  unfold ValidDet at *
  refine List.Perm.trans ?_ hv
  unfold reorder holesOf betaOf alphaOf pySort
  have e : l = l.take c.nholes ++ (l.drop c.nholes).take c.nbeta ++ l.drop (c.nholes + c.nbeta) := by
    rw [List.append_assoc, ← List.drop_drop, List.take_append_drop, List.take_append_drop]
  conv_rhs => rw [e]
  exact ((List.perm_insertionSort _ _).append (List.perm_insertionSort _ _)).append (List.perm_insertionSort _ _)

/-- Whatever the counts of the new configuration, the exchange gives a permutation of the sites. -/
theorem exchange_valid (S : SetSem) {c : Config} (cNew : Config) (hf : c.Full) {det : List Nat} (hv : ValidDet c.nsites det) {s : Nat} (hs : s < c.nsites)
    {old new : Occ} (ho : occC c det s = old) (hne : new ≠ old) :
    ∃ pert, exchange S c cNew det s old new = .ok pert ∧ ValidDet c.nsites pert := by
  have hex : ∀ o : Occ, ∃ l, getIndexesOf S c det o.twice = .ok l ∧ l.Perm (sitesOf c.nsites (occC c det) o) :=
    fun o => getIndexesOf_full S hf hv o false
  choose l e p using hex
  have e1 := e .hole
  have e2 := e .down
  have e3 := e .up
  simp only [Occ.twice] at e1 e2 e3
  have hmem : s ∈ l old := (p old).mem_iff.2 (mem_sitesOf.2 ⟨hs, ho⟩)
  have hr : pyRemove (l old) s = .ok ((l old).erase s) := by rw [pyRemove, if_pos hmem]
  have hrm : ∀ m : List Nat, m = l old → pyRemove m s = .ok ((l old).erase s) := by rintro m rfl; exact hr
  have key := fun o => sitesOf_update hs ho hne p o
  have hval := (occ_of_parts (key .hole) (key .down) (key .up)).1
  refine ⟨_, ?_, reorder_valid (c := cNew) hval⟩
  unfold exchange
  simp only [e1, e2, e3, bind, Except.bind]
  rw [hrm _ (by cases old <;> rfl)]
  rfl

/-- Whatever the counts of the two configurations, the two determinants are put together to a permutation of all sites. -/
theorem extend_valid (S : SetSem) {c1 c2 : Config} (hf1 : c1.Full) (hf2 : c2.Full) {d1 d2 : List Nat} (hv1 : ValidDet c1.nsites d1)
    (hv2 : ValidDet c2.nsites d2) : ∃ det, extendDeterminant S c1 c2 d1 d2 = .ok det ∧ ValidDet (c1.nsites + c2.nsites) det := by
  obtain ⟨h1, eh1, ph1⟩ := getIndexesOf_full S hf1 hv1 .hole false
  obtain ⟨h2, eh2, ph2⟩ := getIndexesOf_full S hf2 hv2 .hole false
  obtain ⟨b1, eb1, pb1⟩ := getIndexesOf_full S hf1 hv1 .down false
  obtain ⟨b2, eb2, pb2⟩ := getIndexesOf_full S hf2 hv2 .down false
  obtain ⟨a1, ea1, pa1⟩ := getIndexesOf_full S hf1 hv1 .up false
  obtain ⟨a2, ea2, pa2⟩ := getIndexesOf_full S hf2 hv2 .up false
  simp only [Occ.twice] at eh1 eh2 eb1 eb2 ea1 ea2
  let σ : Nat → Occ := fun s => if s < c1.nsites then occC c1 d1 s else occC c2 d2 (s - c1.nsites)
  have P : ∀ (o : Occ) (l1 l2 : List Nat), l1.Perm (sitesOf c1.nsites (occC c1 d1) o) →
      l2.Perm (sitesOf c2.nsites (occC c2 d2) o) →
      (l1 ++ l2.map (· + c1.nsites)).Perm (sitesOf (c1.nsites + c2.nsites) σ o) := by
    intro o l1 l2 p1 p2
    have key : (sitesOf (c1.nsites + c2.nsites) σ o) =
        sitesOf c1.nsites (occC c1 d1) o ++ (sitesOf c2.nsites (occC c2 d2) o).map (· + c1.nsites) := by
      unfold sitesOf
      rw [List.range_add, List.filter_append, List.filter_map]
      congr 1
      · apply List.filter_congr
        intro s hs
        simp [σ, List.mem_range.1 hs]
      · have : (fun x => x + c1.nsites) = (fun x => c1.nsites + x) := by funext x; omega
        rw [this]
        congr 1
        apply List.filter_congr
        intro s _
        simp [σ]
    rw [key]
    exact p1.append (p2.map _)
  obtain ⟨v, _⟩ := occ_of_parts (P _ _ _ ph1 ph2) (P _ _ _ pb1 pb2) (P _ _ _ pa1 pa2)
  exact ⟨_, by unfold extendDeterminant; rw [eh1, eh2, eb1, eb2, ea1, ea2]; rfl, v⟩

section
variable {K : Type} [Field K] [LinearOrder K]

/-- For an exchange of two spins of blocks without holes nothing is added, whatever the other counts. -/
theorem addPerturbator_spins {E : Env} (I : Interactions K) {c : Config} {su : BlockSetup} (g : BlockGeom c su)
    (hg : GeomLattice E su.cE (twoPos (c.nbh * c.nblocs) (c.nbv * c.nblocs))) (hnB : su.cB.nsites = c.nsites) (hhB : su.cB.nholes = 0)
    (nbr : Bool) (thr : K) (gs : List K) (en : K) {cPA cPB : Config} {nB : Counts} {pA pB : List Nat}
    (hfA : cPA.Full) (hfB : cPB.Full) (hsA : cPA.nsites = c.nsites) (hsB : cPB.nsites = c.nsites) (hhP : cPB.nholes = 0)
    (hk : nB.nalpha + nB.nbeta = c.nsites) (hvA : ValidDet c.nsites pA) (hvB : ValidDet c.nsites pB) (h : SpMat K) :
    addPerturbator E I c su nbr thr gs en cPA cPB nB pA pB h = .ok h := by
  obtain ⟨pert, e1, e2⟩ := extend_valid E.toSetSem hfA hfB (by rw [hsA]; exact hvA) (by rw [hsB]; exact hvB)
  have hnE : su.cE.nsites = c.nsites + c.nsites := by rw [g.erows]; omega
  have hnF : su.cF.nsites = c.nsites + c.nsites := by rw [g.full]; exact hnE
  have gF : GeomLattice E su.cF (twoPos (c.nbh * c.nblocs) (c.nbv * c.nblocs)) := by
    rw [g.full]; exact ⟨hg.inj, hg.bond, hg.linear, hg.tile⟩
  have fullF : su.cF.Full := by
    intro s hs
    rw [hnF] at hs
    rw [g.full]
    simp only [List.mem_range]
    omega
  rw [hsA, hsB] at e2
  have e4 := computeEnergy_eq E I gF fullF (det := pert) (by rw [hnF]; exact e2)
  have dB : nB.nalpha + nB.nbeta - su.cB.nalpha - su.cB.nbeta = 0 := by
    unfold Config.nalpha; rw [hnB, hhB]; omega
  obtain ⟨onA, o3, _, _⟩ := getIndexesOf_spec E.toSetSem (c := cPA) (det := pA) (by rw [hsA]; exact hvA) .hole false
  obtain ⟨onB, o1, _, o2⟩ := getIndexesOf_spec E.toSetSem (c := cPB) (det := pB) (by rw [hsB]; exact hvB) .hole false
  have hnil : onB = [] := by
    have : getIndexesOf E.toSetSem cPB pB 0 = .ok (E.inter (holesOf cPB pB) cPB.restr.1) := rfl
    have o1' : getIndexesOf E.toSetSem cPB pB 0 = .ok onB := o1
    obtain rfl := Except.ok.inj (this.symm.trans o1')
    rw [List.eq_nil_iff_forall_not_mem]
    intro z hz
    rw [E.mem_inter] at hz
    unfold holesOf at hz
    rw [hhP] at hz
    exact absurd hz.1 (by simp)
  subst hnil
  unfold addPerturbator
  rw [dB]
  refine bind_ok e1 (bind_ok e4 (bind_ok (a := []) (by simpa [Occ.twice] using o1) (bind_ok (a := onA) (by simpa [Occ.twice] using o3)
    (bind_ok (a := ⟨false, false, true, false, false, false⟩) rfl (bind_ok (a := []) ?_ rfl)))))
  unfold computeDynamic selected
  simp only [if_true, if_false, Bool.false_eq_true]
  refine bind_ok rfl (bind_ok rfl (bind_ok (bind_ok (computeFlip_nil E.toSetSem pert (fun i hi j hj => ?_)) rfl) (bind_ok rfl rfl)))
  have hi : i ∈ E.inter su.cE.restr.2 (([] : List Nat).map (· + c.nsites)) := hi
  rw [E.mem_inter] at hi
  exact absurd hi.2 (by simp)

/-- Without holes the dynamic part adds nothing, whether the spins of the neighbour are reversed or not. -/
theorem blockDynamic_spins {E : Env} (I : Interactions K) {c : Config} (hc : RectConf c c.nbh c.nbv c.nblocs) (hf : c.Full)
    (hn : c.nholes + c.nbeta ≤ c.nsites) (hh : c.nholes = 0) {dets : List (List Nat)} (hb : constructBasis c = .ok dets) {reverse : Bool}
    {su : BlockSetup} (hsu : blockSetup E.toSetSem c dets reverse = .ok su)
    (hg : GeomLattice E su.cE (twoPos (c.nbh * c.nblocs) (c.nbv * c.nblocs))) (nbr : Bool) (thr : K) (gs : List K) (en : K)
    {detA : List Nat} (hdA : detA ∈ dets) (h : SpMat K) : blockDynamic E I c su nbr thr gs en detA h = .ok h := by
  have g := blockSetup_geom E.toSetSem hc hsu
  obtain ⟨hnB, hfB, hhB, hbB, hbasB, hmB⟩ := neighbour_mem hf hn hb hsu
  rw [hh] at hhB
  have hvA : ValidDet c.nsites detA := by
    rw [constructBasis_eq] at hb
    obtain rfl := Except.ok.inj hb
    exact (canonical_of_mem_basisList hdA).1
  have hvB : ∀ d ∈ su.detsB, ValidDet c.nsites d := fun d hd => (canonical_of_mem_basisList ((hmB d).1 hd)).1
  let P : Memory × SpMat K → Prop := fun st => HasKeys c st ∧ st.2 = h
  have hrows : su.cE.bond.rows = 2 * c.nsites := g.erows
  have hcB : su.cB.counts = ⟨0, su.cB.nbeta, c.nsites - su.cB.nbeta⟩ := by
    unfold Config.counts Config.nalpha
    rw [hnB, hhB]
    simp
  have hcA : c.counts = ⟨0, c.nbeta, c.nsites - c.nbeta⟩ := by
    unfold Config.counts Config.nalpha
    rw [hh]
    simp
  have hex : ∀ st, P st → ∀ site ∈ su.fA, ∀ spin, getSpinSite c detA site = .ok spin → ∀ new, new ≠ spin →
      ∃ st', blockExchange E I c su nbr thr gs en detA site spin st new = .ok st' ∧ P st' := by
    intro st hst site hsite spin hspin new hne
    have hlt := g.ltA site hsite
    have hoc : occC c detA site = spin := by
      rw [getSpinSite_eq (hvA.mem.2 hlt)] at hspin
      exact Except.ok.inj hspin
    unfold blockExchange
    by_cases hpos : 0 < su.cB.counts.get new
    swap
    · exact ⟨st, if_neg hpos, hst⟩
    rw [if_pos hpos]
    have hsp : spin ≠ .hole := by
      rintro rfl
      unfold occC occ at hoc
      rw [hh] at hoc
      simp at hoc
      split_ifs at hoc
    have hnw : new ≠ .hole := by
      rintro rfl
      rw [hcB] at hpos
      exact absurd hpos (by simp [Counts.get])
    have hcase : (spin = .down ∧ new = .up) ∨ (spin = .up ∧ new = .down) := by
      cases spin <;> cases new <;> simp_all
    have hkA : (countsA c.nsites c.counts spin new).nholes = 0 ∧ (countsA c.nsites c.counts spin new).nbeta = c.nbeta + (if spin = .down then -1 else 1) := by
      rw [hcA]
      rcases hcase with ⟨rfl, rfl⟩ | ⟨rfl, rfl⟩ <;> simp [countsA, Counts.set, Counts.get, Counts.rebuild] <;> rfl
    have hkB : (countsB su.cB.nsites su.cB.counts c.counts spin new).nholes = 0 ∧
        (countsB su.cB.nsites su.cB.counts c.counts spin new).nalpha + (countsB su.cB.nsites su.cB.counts c.counts spin new).nbeta = c.nsites := by
      rw [hcA, hcB, hnB]
      rcases hcase with ⟨rfl, rfl⟩ | ⟨rfl, rfl⟩ <;> simp [countsB, Counts.set, Counts.get, Counts.rebuild]
    have hr0 : c.bond.rows ≠ 0 := by
      unfold Config.nsites at hlt; omega
    have hr1 : su.cB.bond.rows ≠ 0 := by
      have : su.cB.bond.rows = c.bond.rows := hnB
      omega
    obtain ⟨cPA, q1, q2, q3⟩ : ∃ cPA, configOf c (countsA c.nsites c.counts spin new) c.restr = .ok cPA ∧ cPA.Full ∧ cPA.nsites = c.nsites := by
      unfold configOf
      rw [if_neg (by rw [hkA.1]; simp)]
      unfold Config.init
      rw [if_neg hr0]
      exact ⟨_, rfl, hf, rfl⟩
    obtain ⟨cPB, q4, q5, q6, q7⟩ : ∃ cPB, configOf su.cB (countsB su.cB.nsites su.cB.counts c.counts spin new) (su.cB.restr.2, su.cB.restr.1) = .ok cPB ∧
        cPB.Full ∧ cPB.nsites = c.nsites ∧ cPB.nholes = 0 := by
      unfold configOf
      rw [if_neg (by rw [hkB.1]; simp)]
      unfold Config.init
      rw [if_neg hr1]
      refine ⟨_, rfl, fun s hs => ?_, hnB, by show Int.toNat _ = 0; rw [hkB.1]; rfl⟩
      exact ⟨(hfB s hs).2, (hfB s hs).1⟩
    obtain ⟨pA, q8, q9⟩ := exchange_valid E.toSetSem cPA hf hvA hlt hoc hne
    obtain ⟨n1, g1, _, g2⟩ := getNeighbors_spec E.toSetSem su.cE.bond (.list su.fB) site (by omega)
    obtain ⟨n2, g3, _, g4⟩ := C18_second_neighbors E.toSetSem su.cE.bond (.list su.fB) site (by omega)
    have hnbr : ∀ s ∈ n1 ++ n2, s < 2 * c.nsites ∧ (su.fB ≠ [] → s ∈ su.fB) := by
      intro s hs
      have hal : allowed su.cE.bond.rows (.list su.fB) s → su.fB ≠ [] → s ∈ su.fB := by
        intro h hne
        cases hB : su.fB with
        | nil => exact absurd hB hne
        | cons a l => rw [hB] at h; exact h
      rcases List.mem_append.1 hs with h | h
      · exact ⟨by have := ((g2 s).1 h).1; omega, hal ((g2 s).1 h).2.1⟩
      · exact ⟨by have := ((g4 s).1 h).1; omega, hal ((g4 s).1 h).2.1⟩
    have hneB : su.fB ≠ [] := by
      obtain ⟨x, hx, y, hy, hxy⟩ := facing_sites hc hsu
      exact List.ne_nil_of_mem (g.memB x hx y hy hxy)
    have hkey : ((countsA c.nsites c.counts spin new).id, (countsB su.cB.nsites su.cB.counts c.counts spin new).id) ∈ memoryKeys c.counts := by
      rw [hnB]
      by_cases hbb : su.cB.nbeta = c.nbeta
      · refine C62_key c.nsites c.counts su.cB.counts ?_ ?_ spin new hne
        · rw [hcA, hcB]
        · rw [hcA, hcB, hbb]
      · refine (C62_reversed_key_error c.nsites c.counts su.cB.counts ?_ ?_ ?_ ?_ spin new hne).2 ?_
        · rw [hcA]; simp
        · rw [hcB]; simp
        · rw [hcA, hcB]
        · rw [hcA, hcB]; simp only; omega
        · rw [C62_conserved_iff c.nsites c.counts su.cB.counts ?_ ?_ ?_ spin new hne]
          · rw [hcA, hcB]
            simp only
            rcases hcase with ⟨rfl, rfl⟩ | ⟨rfl, rfl⟩ <;> simp <;> omega
          · rw [hcA]; simp
          · rw [hcB]; simp
          · rw [hcA, hcB]
    obtain ⟨st', s1, s2⟩ := foldlM_reaches (P := P) (f := fun st detB => (n1 ++ n2).foldlM (blockPair E I c su nbr thr gs en cPA cPB
        (countsA c.nsites c.counts spin new) (countsB su.cB.nsites su.cB.counts c.counts spin new) pA spin new detB) st) su.detsB st hst (by
      intro st hst detB hdB
      refine foldlM_reaches (P := P) (n1 ++ n2) st hst ?_
      intro st hst s hs
      have hsB := g.geB s ((hnbr s hs).2 hneB)
      have hvd := hvB detB hdB
      have hlt' : s - c.nsites < c.nsites := by omega
      have hsp' := getSpinSite_eq (c := su.cB) (hvd.mem.2 hlt')
      unfold blockPair
      by_cases hw : occC su.cB detB (s - c.nsites) = new
      swap
      · exact ⟨st, bind_ok hsp' (if_neg hw), hst⟩
      obtain ⟨pB, w1, w2⟩ := exchange_valid E.toSetSem cPB hfB (by rw [hnB]; exact hvd) (by rw [hnB]; exact hlt') hw hne.symm
      rw [hnB] at w2
      have hk' := hkey
      rw [← show st.1.map (·.1) = memoryKeys c.counts from hst.1] at hk'
      obtain ⟨l, hl⟩ := lookup_present hk'
      by_cases hids : (computeHashTable cPA pA, computeHashTable cPB pB) ∈ l
      · refine ⟨st, bind_ok hsp' ?_, hst⟩
        rw [if_pos hw]
        refine bind_ok w1 ?_
        simp only [hl, if_pos hids]
        rfl
      · have hadd := addPerturbator_spins (E := E) I g hg hnB hhB nbr thr gs en q2 q5 q3 q6 q7 hkB.2 q9 w2 st.2
        refine ⟨(st.1.map (fun p => if p.1 = ((countsA c.nsites c.counts spin new).id, (countsB su.cB.nsites su.cB.counts c.counts spin new).id) then
          (p.1, p.2 ++ [(computeHashTable cPA pA, computeHashTable cPB pB)]) else p), st.2), bind_ok hsp' ?_, ?_, hst.2⟩
        · rw [if_pos hw]
          refine bind_ok w1 ?_
          simp only [hl, if_neg hids]
          exact bind_ok hadd rfl
        · exact (map_keys _ (· ++ [(computeHashTable cPA pA, computeHashTable cPB pB)]) st.1).trans hst.1)
    exact ⟨st', bind_ok q1 (bind_ok q4 (bind_ok q8 (bind_ok g1 (bind_ok g3 s1)))), s2⟩
  obtain ⟨st, s1, s2⟩ := foldlM_reaches (P := P) (f := fun (st : Memory × SpMat K) site => do
      let spin ← getSpinSite c detA site
      (([.down, .hole, .up] : List Occ).filter (fun o => o ≠ spin)).foldlM
        (blockExchange E I c su nbr thr gs en detA site spin) st) su.fA ((memoryKeys c.counts).map (fun k => (k, [])), h)
    ⟨by show ((memoryKeys c.counts).map (fun k => (k, []))).map (·.1) = _
        rw [List.map_map]
        exact List.map_id _, rfl⟩ (by
      intro st hst site hsite
      have hsp := getSpinSite_eq (c := c) (hvA.mem.2 (g.ltA site hsite))
      obtain ⟨st', s1, s2⟩ := foldlM_reaches (P := P) (f := blockExchange E I c su nbr thr gs en detA site (occC c detA site))
        (([.down, .hole, .up] : List Occ).filter (fun o => o ≠ occC c detA site)) st hst (fun st hst new hnew =>
          hex st hst site hsite _ hsp new (by simpa using (List.mem_filter.1 hnew).2))
      exact ⟨st', bind_ok hsp s1, s2⟩)
  unfold blockDynamic
  refine bind_ok s1 ?_
  rw [s2.2]
  rfl

end

end TJ
