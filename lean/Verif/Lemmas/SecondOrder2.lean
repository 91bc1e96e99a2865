/-
Lemmas for the dynamic dressing of embedding_blocks: the matrix elements added for one perturbator.
-/
import Verif.Lemmas.SecondOrder

namespace TJ

open Finset

/-! ### Sums over pairs -/

theorem sum_pairsOf {α M κ : Type} [AddCommMonoid M] [DecidableEq κ] (key : α → κ) (f : α → α → M) :
    ∀ l : List α, (l.map key).Nodup → ((pairsOf l).map (fun p => f p.1 p.2 + f p.2 p.1)).sum =
      (l.map (fun x => (l.map (fun y => if key x ≠ key y then f x y else 0)).sum)).sum
  | [], _ => rfl
  | x :: l, h => by
    rw [List.map_cons, List.nodup_cons] at h
    have hx : ∀ y ∈ l, key x ≠ key y := fun y hy e => h.1 (e ▸ List.mem_map.2 ⟨y, hy, rfl⟩)
    have ih := sum_pairsOf key f l h.2
    have e1 : (l.map (fun y => if key x ≠ key y then f x y else 0)) = l.map (fun y => f x y) :=
      List.map_congr_left (fun y hy => if_pos (hx y hy))
    have e2 : (l.map (fun z => (if key z ≠ key x then f z x else 0) + (l.map (fun y => if key z ≠ key y then f z y else 0)).sum)) =
        l.map (fun z => f z x + (l.map (fun y => if key z ≠ key y then f z y else 0)).sum) :=
      List.map_congr_left (fun y hy => by rw [if_pos (fun e => hx y hy e.symm)])
    simp only [pairsOf, List.map_append, List.sum_append, List.map_map, Function.comp_def, ih, List.map_cons, List.sum_cons]
    rw [if_neg (fun h => h rfl), zero_add, e1, e2, List.sum_map_add, List.sum_map_add, add_assoc]

theorem sum_list_univ {α M : Type} [AddCommMonoid M] [Fintype α] [DecidableEq α] {l : List α} (hl : l.Nodup) {f : α → M}
    (hf : ∀ a, a ∉ l → f a = 0) : (l.map f).sum = ∑ a, f a := by
  rw [← List.sum_toFinset f hl]
  exact Finset.sum_subset (Finset.subset_univ _) (fun a _ ha => hf a (fun h => ha (List.mem_toFinset.2 h)))

theorem sum_pairs_univ {α M : Type} [AddCommMonoid M] [Fintype α] [DecidableEq α] {l : List α} (hl : l.Nodup) {f : α → α → M}
    (hf : ∀ a b, a ∉ l ∨ b ∉ l → f a b = 0) :
    ((pairsOf l).map (fun p => f p.1 p.2 + f p.2 p.1)).sum = ∑ a, ∑ b, if a ≠ b then f a b else 0 := by
  rw [sum_pairsOf id f l (by rwa [List.map_id])]
  have : ∀ a, (l.map (fun b => if id a ≠ id b then f a b else 0)).sum = ∑ b, if a ≠ b then f a b else 0 :=
    fun a => sum_list_univ hl (fun b hb => by rw [hf a b (Or.inr hb), ite_self])
  rw [List.map_congr_left (fun a _ => this a)]
  refine sum_list_univ hl (fun a ha => Finset.sum_eq_zero fun b _ => ?_)
  rw [hf a b (Or.inl ha), ite_self]

theorem pairsOf_map {α β : Type} (g : α → β) : ∀ l : List α, pairsOf (l.map g) = (pairsOf l).map (fun p => (g p.1, g p.2))
  | [] => rfl
  | x :: l => by simp [pairsOf, pairsOf_map g l, List.map_map, Function.comp_def]

theorem mem_pairsOf {α : Type} : ∀ {l : List α} {p : α × α}, p ∈ pairsOf l → p.1 ∈ l ∧ p.2 ∈ l
  | [], _, h => by simp [pairsOf] at h
  | x :: l, p, h => by
    rw [pairsOf, List.mem_append] at h
    rcases h with h | h
    · obtain ⟨y, hy, rfl⟩ := List.mem_map.1 h
      exact ⟨by simp, List.mem_cons_of_mem _ hy⟩
    · obtain ⟨h1, h2⟩ := mem_pairsOf h
      exact ⟨List.mem_cons_of_mem _ h1, List.mem_cons_of_mem _ h2⟩

/-- A loop that adds something at each step. -/
theorem foldlM_adds {α β M : Type} [AddCommMonoid M] {f : β → α → Py β} (Inv : β → Prop) (v : β → M) (g : α → M) :
    ∀ (l : List α) (d : β), Inv d → (∀ a ∈ l, ∀ d, Inv d → ∃ d', f d a = .ok d' ∧ Inv d' ∧ v d' = v d + g a) →
      ∃ d', l.foldlM f d = .ok d' ∧ Inv d' ∧ v d' = v d + (l.map g).sum
  | [], d, hd, _ => ⟨d, rfl, hd, by simp⟩
  | a :: l, d, hd, h => by
    obtain ⟨d1, h1, hi1, h2⟩ := h a (by simp) d hd
    obtain ⟨d2, h3, hi2, h4⟩ := foldlM_adds Inv v g l d1 hi1 (fun b hb => h b (List.mem_cons_of_mem _ hb))
    refine ⟨d2, ?_, hi2, ?_⟩
    · rw [List.foldlM_cons]; exact bind_ok h1 h3
    · rw [h4, h2, List.map_cons, List.sum_cons, add_assoc]

/-! ### The matrix -/

/-- The matrix has dimension `N` and only elements inside. -/
def GoodMat {K : Type} (N : Nat) (h : SpMat K) : Prop := h.dim = N ∧ ∀ t ∈ h.coo, t.2.1 < h.dim ∧ t.2.2 < h.dim

section
variable {K : Type} [Field K]

/-- The elements of a matrix. -/
def entries (N : Nat) (h : SpMat K) : Fin N → Fin N → K := fun i j => h.entry i j

theorem addHamCoo_good {N : Nat} {h : SpMat K} (hg : GoodMat N h) (x : K) {r c : Nat} (hr : r < N) (hc : c < N) :
    ∃ h', addHamCoo h x r c = .ok h' ∧ GoodMat N h' ∧
      entries N h' = entries N h + (fun (i j : Fin N) => if r = i ∧ c = j then x else 0) := by
  have e := addHamCoo_ok hg.2 x (by rw [hg.1]; exact hr) (by rw [hg.1]; exact hc)
  refine ⟨_, e, ⟨hg.1, fun t ht => ?_⟩, ?_⟩
  · rcases List.mem_append.1 ht with ht | ht
    · exact hg.2 t ht
    · rw [List.mem_singleton.1 ht]
      exact ⟨by rw [hg.1]; exact hr, by rw [hg.1]; exact hc⟩
  · funext i j
    exact (addHamCoo_entry e).2.1 i j

/-- The states coupled to a perturbator, as a list. -/
theorem coupled_list (E : Env) (I : Interactions K) {cR : Config} {n : Nat} (hN : cR.nsites = n + n) {pos : Nat → Pt}
    (g : GeomLattice E cR pos) {P : Conf2 n} {s : Occ} (hs : s ≠ .hole) {pert : List Nat} (hv : ValidDet cR.nsites pert)
    (hocc : ∀ z < n + n, occC cR pert z = Conf2.join P z)
    (h1 : ∀ a ∈ cR.restr.1, n ≤ a ∧ a < n + n ∧ Conf2.join P a = .hole) (h2 : ∀ b ∈ cR.restr.2, b < n ∧ Conf2.join P b = s)
    (h3 : ∀ x y : Fin n, Near (pos (lsite x)) (pos (rsite y)) ∨ TwoBonds (fpos (n + n) pos) (lsite x) (rsite y) →
      P.1 x = s → P.2 y = .hole → n + y.val ∈ cR.restr.1 ∧ x.val ∈ cR.restr.2) :
    ∃ L : List (Conf2 n), L.Nodup ∧ (∀ Q ∈ L, ∃ x y, P.1 x = s ∧ P.2 y = .hole ∧ Q = P.back s x y) ∧
      (∀ Q, Q ∉ L → returnAmp I (fpos (n + n) pos) s P Q = 0) ∧
      computeDynamic E cR I ⟨true, false, false, true, true, false⟩ pert =
        .ok (L.map (fun Q => (Q.det, returnAmp I (fpos (n + n) pos) s P Q))) := by
  obtain ⟨D, d1, d2, d3, d4⟩ := coupled_spec E I hN g hs hv hocc h1 h2 h3
  have hx : ∀ d : List Nat × K, ∃ Q : Conf2 n, d ∈ D → d = (Q.det, returnAmp I (fpos (n + n) pos) s P Q) ∧
      ∃ x y, P.1 x = s ∧ P.2 y = .hole ∧ Q = P.back s x y := by
    intro d
    by_cases hd : d ∈ D
    · obtain ⟨x, y, e1, e2, e3⟩ := d3 d.1 (List.mem_map.2 ⟨d, hd, rfl⟩)
      refine ⟨P.back s x y, fun _ => ⟨?_, x, y, e1, e2, rfl⟩⟩
      have hval := d4 (P.back s x y) (count_back P s x y e1 e2)
      refine Prod.ext e3 ?_
      rw [← hval, ← e3]
      -- the only element with this key
      clear hval e3 d3 d4 d1
      unfold dval
      induction D with
      | nil => simp at hd
      | cons a D ih =>
        unfold dkeys at d2
        rw [List.map_cons, List.nodup_cons] at d2
        rw [List.map_cons, List.sum_cons]
        rcases List.mem_cons.1 hd with rfl | hd
        · rw [if_pos rfl]
          have : (D.map (fun p => if p.1 = d.1 then p.2 else 0)) = D.map (fun _ => (0 : K)) :=
            List.map_congr_left (fun p hp => if_neg (fun e : p.1 = d.1 => d2.1 (List.mem_map.2 ⟨p, hp, e⟩)))
          rw [this]; simp
        · rw [if_neg (fun e : a.1 = d.1 => d2.1 (List.mem_map.2 ⟨d, hd, e.symm⟩)), zero_add]
          exact ih d2.2 hd hd
    · exact ⟨P, fun h => absurd h hd⟩
  choose q hq using hx
  have hD : (D.map q).map (fun Q => (Q.det, returnAmp I (fpos (n + n) pos) s P Q)) = D := by
    rw [List.map_map]
    conv_rhs => rw [← List.map_id D]
    exact List.map_congr_left (fun d hd => ((hq d hd).1).symm)
  refine ⟨D.map q, ?_, ?_, ?_, ?_⟩
  · have : ((D.map q).map (fun Q => Q.det)) = dkeys D := by
      conv_rhs => rw [← hD]
      unfold dkeys
      rw [List.map_map (l := D.map q)]
      rfl
    exact List.Nodup.of_map _ (this ▸ d2)
  · intro Q hQ
    obtain ⟨d, hd, rfl⟩ := List.mem_map.1 hQ
    exact (hq d hd).2
  · intro Q hQ
    by_cases hsame : SameParticles Q P
    · rw [← d4 Q hsame]
      unfold dval
      have : (D.map (fun p => if p.1 = Q.det then p.2 else 0)) = D.map (fun _ => (0 : K)) := by
        refine List.map_congr_left (fun p hp => if_neg fun e => hQ ?_)
        obtain ⟨e1, x, y, e2, e3, e4⟩ := hq p hp
        refine List.mem_map.2 ⟨p, hp, ?_⟩
        refine Conf2.det_inj (fun o => ?_) ?_
        · rw [e4, count_back P s x y e2 e3 o, hsame o]
        · exact (congrArg Prod.fst e1).symm.trans e
      rw [this]; simp
    · unfold returnAmp
      refine sum_eq_zero fun x _ => sum_eq_zero fun y _ => if_neg ?_
      rintro ⟨e1, e2, rfl⟩
      exact hsame (count_back P s x y e1 e2)
  · rw [hD]; exact d1

/-! ### Indices of turned occupations -/

variable {c : Config} {dets : List (List Nat)}

/-- The occupation has the particles of the configuration. -/
def HasCounts (c : Config) (α : Conf c.nsites) : Prop := α.count .hole = c.nholes ∧ α.count .down = c.nbeta

theorem idx_conf (hn : c.nholes + c.nbeta ≤ c.nsites) (hb : constructBasis c = .ok dets) {α : Conf c.nsites} (hα : HasCounts c α) :
    getIndexInBasis c (detOf c.nsites α.ext) < dets.length ∧
      ∀ i (hi : i < dets.length), getIndexInBasis c (detOf c.nsites α.ext) = i ↔ conf c dets[i] = α := by
  obtain ⟨g1, g2⟩ := idx_spec hn hb (σ := α.ext) ((α.cnt_ext _).trans hα.1) ((α.cnt_ext _).trans hα.2)
  refine ⟨g1, fun i hi => ?_⟩
  rw [g2 i hi, Conf.ext_fin]
  rfl

theorem rot_conf {L : Nat} (hq : SquareConf c L) (hn : c.nholes + c.nbeta ≤ c.nsites) (hb : constructBasis c = .ok dets) (q : Nat)
    {α : Conf c.nsites} (hα : HasCounts c α) :
    rotatedIndex c q (detOf c.nsites α.ext) < dets.length ∧
      ∀ i (hi : i < dets.length), rotatedIndex c q (detOf c.nsites α.ext) = i ↔ TurnedTo L q α (conf c dets[i]) := by
  have h1 : cnt c.nsites α.ext .hole = c.nholes := (α.cnt_ext _).trans hα.1
  have h2 : cnt c.nsites α.ext .down = c.nbeta := (α.cnt_ext _).trans hα.2
  have hc := detOf_canonical h1 h2
  obtain ⟨d', r1, _, r3, r4⟩ := C13_rotation c L hq hn q (detOf c.nsites α.ext) hc.1
  have hc' := r3 hc
  have e : rotatedIndex c q (detOf c.nsites α.ext) = getIndexInBasis c (detOf c.nsites (occC c d')) := by
    unfold rotatedIndex
    rw [r1, getIndexInt_cast]
    congr 1
    exact (detOf_occ hc').symm
  rw [e]
  obtain ⟨g1, g2⟩ := idx_spec hn hb (σ := occC c d') (cnt_occ_hole hc'.1 hn) (cnt_occ_down hc'.1 hn)
  refine ⟨g1, fun i hi => ?_⟩
  rw [g2 i hi]
  have hocc : ∀ s (hs : s < c.nsites), occ c.nholes c.nbeta (detOf c.nsites α.ext) s = α ⟨s, hs⟩ := fun s hs => by
    rw [occ_detOf h1 h2 hs, α.ext_lt hs]
  constructor
  · intro h s s' hss
    obtain ⟨s'', a1, a2, a3⟩ := r4 s.val s.2
    rw [zpow_natCast] at a2
    have : s'' = s'.val := gridPos_inj (W := L) (a2.trans hss.symm)
    subst this
    rw [hocc s.val s.2] at a3
    exact (congrFun h s').trans a3
  · intro h
    funext s'
    have hs' : s'.val < L * L := by rw [← hq.n]; exact s'.2
    have hlt : rotSite L (-(q : Int)) s'.val < c.nsites := lt_of_lt_of_eq (rotSite_lt _ hs') hq.n.symm
    have hpos := gridPos_rotSite (-(q : Int)) hs'
    have e1 : gridPos L s'.val = (turn L ^ q) (gridPos L (rotSite L (-(q : Int)) s'.val)) := by
      rw [hpos, ← zpow_natCast, ← Equiv.Perm.mul_apply, ← zpow_add, add_neg_cancel, zpow_zero]
      rfl
    have e2 := h ⟨_, hlt⟩ s' e1
    obtain ⟨s'', a1, a2, a3⟩ := r4 _ hlt
    rw [zpow_natCast] at a2
    have : s'' = s'.val := gridPos_inj (W := L) (a2.trans e1.symm)
    subst this
    rw [hocc _ hlt] at a3
    exact e2.trans a3.symm

/-- The index used by the code for `q` quarter turns. -/
def usedIndex (c : Config) (nbr : Bool) (q : Nat) (d : List Nat) : Nat := if nbr then getIndexInBasis c d else rotatedIndex c q d

/-- The number of orientations: one neighbour, or neighbours on the four sides. -/
def sides (nbr : Bool) : Nat := if nbr then 1 else 4

theorem used_conf {L : Nat} {nbr : Bool} (hq : nbr = false → SquareConf c L) (hn : c.nholes + c.nbeta ≤ c.nsites)
    (hb : constructBasis c = .ok dets) {q : Nat} (hlt : q < sides nbr) {α : Conf c.nsites} (hα : HasCounts c α) :
    usedIndex c nbr q (detOf c.nsites α.ext) < dets.length ∧
      ∀ i (hi : i < dets.length), usedIndex c nbr q (detOf c.nsites α.ext) = i ↔ TurnedTo L q α (conf c dets[i]) := by
  cases nbr with
  | false => exact rot_conf (hq rfl) hn hb q hα
  | true =>
    obtain rfl : q = 0 := by simp [sides] at hlt; exact hlt
    obtain ⟨g1, g2⟩ := idx_conf hn hb hα
    refine ⟨g1, fun i hi => (g2 i hi).trans ?_⟩
    constructor
    · rintro h s s' hss
      have : s' = s := Fin.ext (gridPos_inj (W := L) (by simpa using hss))
      subst this
      exact congrFun h s'
    · intro h
      funext s
      exact h s s (by simp)

/-! ### One pair of states -/

variable [LinearOrder K]

/-- The element of a pair of states between the occupations `a` and `a'`, for all orientations. -/
def pairEl {n : Nat} (L N : Nat) (x : Conf2 n → Conf2 n → K) (a a' : Conf n) (Q Q' : Conf2 n) : K :=
  ∑ q ∈ range N, if TurnedTo L q Q.1 a ∧ TurnedTo L q Q'.1 a' then x Q Q' else 0

theorem addCoupling_spec {L : Nat} {nbr : Bool} (hq : nbr = false → SquareConf c L) (hn : c.nholes + c.nbeta ≤ c.nsites)
    (hb : constructBasis c = .ok dets) (thr : K) {gs : List K} (hgs : gs.length = dets.length) (en eP : K) {a a' : K}
    {Q Q' : Conf2 c.nsites} (h1 : HasCounts c Q.1) (h2 : HasCounts c Q.2) (h1' : HasCounts c Q'.1) (h2' : HasCounts c Q'.2)
    {x : Conf2 c.nsites → Conf2 c.nsites → K}
    (hx : x Q Q' = if thr ≤ |(amp c dets gs Q.2 * amp c dets gs Q'.2 * a * a') / (2 * en - eP)|
      then (amp c dets gs Q.2 * amp c dets gs Q'.2 * a * a') / (2 * en - eP) else 0) (hx' : x Q' Q = x Q Q')
    {h : SpMat K} (hg : GoodMat dets.length h) :
    ∃ h', addCoupling c nbr thr gs en eP h ((Q.det, a), (Q'.det, a')) = .ok h' ∧ GoodMat dets.length h' ∧
      entries dets.length h' = entries dets.length h + fun (i j : Fin dets.length) =>
        pairEl L (sides nbr) x (conf c dets[i]) (conf c dets[j]) Q Q' + pairEl L (sides nbr) x (conf c dets[i]) (conf c dets[j]) Q' Q := by
  set cp := (amp c dets gs Q.2 * amp c dets gs Q'.2 * a * a') / (2 * en - eP) with hcp
  have hamp : ∀ {R : Conf2 c.nsites}, HasCounts c R.2 →
      pyGet gs (getIndexInBasis c ((R.det.filter (fun s => c.nsites ≤ s)).map (fun s => s - c.nsites))) = .ok (amp c dets gs R.2) := by
    intro R hR
    rw [Conf2.det_right]
    obtain ⟨g1, g2⟩ := idx_conf hn hb hR
    have e := (g2 _ g1).1 rfl
    rw [← e, amp_conf hb gs g1, e]
    unfold pyGet
    have hlt : getIndexInBasis c (detOf c.nsites R.2.ext) < gs.length := by rw [hgs]; exact g1
    rw [List.getElem?_eq_getElem hlt, List.getD_eq_getElem gs 0 hlt]
  -- one orientation
  have step : ∀ q < sides nbr, ∀ h : SpMat K, GoodMat dets.length h → ∃ h',
      ((do
        if thr ≤ |cp| then
          let h ← addHamCoo h cp (usedIndex c nbr q (detOf c.nsites Q.1.ext)) (usedIndex c nbr q (detOf c.nsites Q'.1.ext))
          addHamCoo h cp (usedIndex c nbr q (detOf c.nsites Q'.1.ext)) (usedIndex c nbr q (detOf c.nsites Q.1.ext))
        else return h : Py (SpMat K))) = .ok h' ∧ GoodMat dets.length h' ∧
      entries dets.length h' = entries dets.length h + fun (i j : Fin dets.length) =>
        (if TurnedTo L q Q.1 (conf c dets[i]) ∧ TurnedTo L q Q'.1 (conf c dets[j]) then x Q Q' else 0) +
        (if TurnedTo L q Q'.1 (conf c dets[i]) ∧ TurnedTo L q Q.1 (conf c dets[j]) then x Q' Q else 0) := by
    intro q hlt h hg
    obtain ⟨u1, u2⟩ := used_conf hq hn hb hlt h1
    obtain ⟨w1, w2⟩ := used_conf hq hn hb hlt h1'
    by_cases ht : thr ≤ |cp|
    · obtain ⟨m1, e1, k1, v1⟩ := addHamCoo_good hg cp u1 w1
      obtain ⟨m2, e2, k2, v2⟩ := addHamCoo_good k1 cp w1 u1
      refine ⟨m2, ?_, k2, ?_⟩
      · rw [if_pos ht]; exact bind_ok e1 e2
      · rw [v2, v1, add_assoc]
        congr 1
        funext i j
        show (if _ then cp else 0) + (if _ then cp else 0) = _
        rw [hx', hx, if_pos ht]
        simp only [u2 i.val i.2, u2 j.val j.2, w2 i.val i.2, w2 j.val j.2]
        rfl
    · refine ⟨h, by rw [if_neg ht]; rfl, hg, ?_⟩
      funext i j
      rw [hx', hx, if_neg ht]
      simp
  have hsum : ∀ (i j : Fin dets.length), (((List.range (sides nbr)).map (fun q => fun (i j : Fin dets.length) =>
        (if TurnedTo L q Q.1 (conf c dets[i]) ∧ TurnedTo L q Q'.1 (conf c dets[j]) then x Q Q' else 0) +
        (if TurnedTo L q Q'.1 (conf c dets[i]) ∧ TurnedTo L q Q.1 (conf c dets[j]) then x Q' Q else 0))).sum :
        Fin dets.length → Fin dets.length → K) i j = pairEl L (sides nbr) x (conf c dets[i]) (conf c dets[j]) Q Q' +
          pairEl L (sides nbr) x (conf c dets[i]) (conf c dets[j]) Q' Q := by
    intro i j
    rw [sum_map_range, Finset.sum_apply, Finset.sum_apply]
    unfold pairEl
    rw [← sum_add_distrib]
  obtain ⟨h', e1, e2, e3⟩ := foldlM_adds (GoodMat dets.length) (entries dets.length) _ (List.range (sides nbr)) h hg
    (fun q hlt h hg => step q (List.mem_range.1 hlt) h hg)
  refine ⟨h', ?_, e2, ?_⟩
  · unfold addCoupling
    refine bind_ok (hamp h2) (bind_ok (hamp h2') ?_)
    cases nbr with
    | true =>
      simp only [sides, if_true, List.range_one, List.foldlM_cons, List.foldlM_nil, usedIndex] at e1
      obtain ⟨m, k1, k2⟩ := bind_eq_ok.1 e1
      obtain rfl := Except.ok.inj k2
      simp only [if_true, Conf2.det_left]
      exact k1
    | false =>
      simp only [sides, usedIndex, Bool.false_eq_true, if_false] at e1
      simp only [Bool.false_eq_true, if_false, Conf2.det_left]
      exact e1
  · rw [e3]
    congr 1
    funext i j
    exact hsum i j

end

end TJ
