/-
The dictionary built by `compute_dynamic_interactions`.
-/
import Mathlib.Tactic.FieldSimp
import Verif.Lemmas.HamLin

namespace TJ

open Finset

section
variable {K : Type} [Field K]

/-- Keys of a dictionary. -/
abbrev dkeys (d : List (List Nat × K)) : List (List Nat) := d.map Prod.fst

/-- Value of a key, 0 if absent. -/
def dval (d : List (List Nat × K)) (key : List Nat) : K := (d.map (fun p => if p.1 = key then p.2 else 0)).sum

theorem dkeys_dictAdd (d : List (List Nat × K)) (k : List Nat) (x : K) :
    dkeys (dictAdd d k x) = if k ∈ dkeys d then dkeys d else dkeys d ++ [k] := by
  unfold dictAdd dkeys
  split_ifs with h
  · rw [List.map_map]
    apply List.map_congr_left
    intro p _
    simp only [Function.comp_apply]
    split_ifs <;> rfl
  · simp

theorem nodup_dictAdd {d : List (List Nat × K)} (h : (dkeys d).Nodup) (k : List Nat) (x : K) :
    (dkeys (dictAdd d k x)).Nodup := by
  rw [dkeys_dictAdd]
  split_ifs with hk
  · exact h
  · rw [List.nodup_append]
    exact ⟨h, by simp, by intro a ha b hb; rw [List.mem_singleton] at hb; rintro rfl; exact hk (hb ▸ ha)⟩

theorem dval_dictAdd {d : List (List Nat × K)} (h : (dkeys d).Nodup) (k key : List Nat) (x : K) :
    dval (dictAdd d k x) key = dval d key + if k = key then x else 0 := by
  unfold dictAdd
  split_ifs with hk he he
  · subst he
    unfold dval
    induction d with
    | nil => simp at hk
    | cons p d ih =>
      rw [List.map_cons] at hk
      rw [dkeys, List.map_cons, List.nodup_cons] at h
      simp only [List.map_cons, List.sum_cons]
      by_cases hp : p.1 = k
      · have hd : ∀ q ∈ d, q.1 ≠ k := fun q hq e => h.1 (hp ▸ e ▸ List.mem_map.2 ⟨q, hq, rfl⟩)
        have e : d.map (fun p => if p.1 = k then (p.1, p.2 + x) else p) = d := by
          rw [List.map_congr_left (g := id) (fun q hq => by simp [hd q hq])]; simp
        rw [e]
        simp only [hp, if_true]
        ring
      · rw [ih h.2 (by simpa [Ne.symm hp] using hk)]
        simp only [hp, if_false]
        ring
  · rw [add_zero]
    unfold dval
    rw [List.map_map]
    congr 1
    apply List.map_congr_left
    intro p _
    simp only [Function.comp_apply]
    by_cases hp : p.1 = k
    · rw [if_pos hp]
      simp only
      rw [if_neg (fun e => he (hp ▸ e)), if_neg (fun e => he (hp ▸ e))]
    · rw [if_neg hp]
  · unfold dval; simp [he]
  · unfold dval; simp [he]

theorem dictGet_eq {d : List (List Nat × K)} (h : (dkeys d).Nodup) (key : List Nat) :
    (dictGet d key).getD 0 = dval d key := by
  unfold dictGet dval
  induction d with
  | nil => rfl
  | cons p d ih =>
    rw [dkeys, List.map_cons, List.nodup_cons] at h
    rw [List.find?_cons, List.map_cons, List.sum_cons]
    by_cases hp : p.1 = key
    · simp only [hp, decide_true, Option.map_some, Option.getD_some, if_true]
      rw [List.sum_eq_zero, add_zero]
      intro x hx
      obtain ⟨q, hq, rfl⟩ := List.mem_map.1 hx
      rw [if_neg]
      intro e
      exact h.1 (hp ▸ e ▸ List.mem_map.2 ⟨q, hq, rfl⟩)
    · simp only [hp, decide_false, if_false, zero_add]
      exact ih h.2

/-- Adding one value for each image. -/
theorem foldl_images (im : List (List Nat)) (x : K) (d : List (List Nat × K)) (h : (dkeys d).Nodup) :
    (dkeys (im.foldl (fun d im => dictAdd d im x) d)).Nodup ∧
    (∀ k, k ∈ dkeys (im.foldl (fun d im => dictAdd d im x) d) ↔ k ∈ dkeys d ∨ k ∈ im) ∧
    ∀ key, dval (im.foldl (fun d im => dictAdd d im x) d) key = dval d key + (im.map (fun k => if k = key then x else 0)).sum := by
  induction im generalizing d with
  | nil => exact ⟨h, by simp, by simp⟩
  | cons k l ih =>
    obtain ⟨h1, h2, h3⟩ := ih (dictAdd d k x) (nodup_dictAdd h k x)
    refine ⟨h1, ?_, ?_⟩
    · intro k'
      rw [List.foldl_cons, h2, dkeys_dictAdd, List.mem_cons]
      split_ifs with hk
      · constructor
        · rintro (h | h)
          · exact Or.inl h
          · exact Or.inr (Or.inr h)
        · rintro (h | rfl | h)
          · exact Or.inl h
          · exact Or.inl hk
          · exact Or.inr h
      · rw [List.mem_append, List.mem_singleton, or_assoc]
    · intro key
      rw [List.foldl_cons, h3, dval_dictAdd h, List.map_cons, List.sum_cons, add_assoc]

theorem foldl_events (ev : List (List (List Nat) × K)) (d : List (List Nat × K)) (h : (dkeys d).Nodup) :
    let D := ev.foldl (fun d (e : List (List Nat) × K) => e.1.foldl (fun d im => dictAdd d im e.2) d) d
    (dkeys D).Nodup ∧ (∀ k, k ∈ dkeys D ↔ k ∈ dkeys d ∨ ∃ e ∈ ev, k ∈ e.1) ∧
    ∀ key, dval D key = dval d key + (ev.map (fun e => (e.1.map (fun k => if k = key then e.2 else 0)).sum)).sum := by
  induction ev generalizing d with
  | nil => exact ⟨h, by simp, by simp⟩
  | cons e l ih =>
    obtain ⟨g1, g2, g3⟩ := foldl_images e.1 e.2 d h
    obtain ⟨h1, h2, h3⟩ := ih _ g1
    refine ⟨h1, ?_, ?_⟩
    · intro k
      rw [List.foldl_cons, h2, g2, or_assoc]
      simp
    · intro key
      rw [List.foldl_cons, h3, g3, List.map_cons, List.sum_cons, add_assoc]

theorem foldl_pairs (im : List (List Nat × List Nat)) (x : K) (d : List (List Nat × K)) (h : (dkeys d).Nodup) :
    let D := im.foldl (fun d im => dictAdd (dictAdd d im.1 x) im.2 (- x)) d
    (dkeys D).Nodup ∧ (∀ k, k ∈ dkeys D → k ∈ dkeys d ∨ ∃ p ∈ im, k = p.1 ∨ k = p.2) ∧
    ∀ key, dval D key = dval d key +
      (im.map (fun k => x * ((if k.1 = key then 1 else 0) - (if k.2 = key then 1 else 0)))).sum := by
  induction im generalizing d with
  | nil => exact ⟨h, by simp, by simp⟩
  | cons p l ih =>
    have n1 := nodup_dictAdd h p.1 x
    obtain ⟨h1, h2, h3⟩ := ih (dictAdd (dictAdd d p.1 x) p.2 (-x)) (nodup_dictAdd n1 _ _)
    refine ⟨h1, ?_, ?_⟩
    · intro k hk
      rw [List.foldl_cons] at hk
      rcases h2 k hk with h | ⟨q, hq, h⟩
      · rw [dkeys_dictAdd, dkeys_dictAdd] at h
        have : k ∈ dkeys d ∨ k = p.1 ∨ k = p.2 := by
          split_ifs at h
          all_goals try rw [List.mem_append, List.mem_singleton] at h
          all_goals try rw [List.mem_append, List.mem_singleton] at h
          all_goals tauto
        rcases this with h | h
        · exact Or.inl h
        · exact Or.inr ⟨p, by simp, h⟩
      · exact Or.inr ⟨q, List.mem_cons_of_mem _ hq, h⟩
    · intro key
      rw [List.foldl_cons, h3, dval_dictAdd n1, dval_dictAdd h, List.map_cons, List.sum_cons]
      split_ifs <;> ring

theorem foldl_pair_events (ev : List (List (List Nat × List Nat) × K)) (d : List (List Nat × K)) (h : (dkeys d).Nodup) :
    let D := ev.foldl (fun d (e : List (List Nat × List Nat) × K) =>
      e.1.foldl (fun d im => dictAdd (dictAdd d im.1 e.2) im.2 (- e.2)) d) d
    (dkeys D).Nodup ∧ (∀ k, k ∈ dkeys D → k ∈ dkeys d ∨ ∃ e ∈ ev, ∃ p ∈ e.1, k = p.1 ∨ k = p.2) ∧
    ∀ key, dval D key = dval d key +
      (ev.map (fun e => (e.1.map (fun k => e.2 * ((if k.1 = key then 1 else 0) - (if k.2 = key then 1 else 0)))).sum)).sum := by
  induction ev generalizing d with
  | nil => exact ⟨h, by simp, by simp⟩
  | cons e l ih =>
    obtain ⟨g1, g2, g3⟩ := foldl_pairs e.1 e.2 d h
    obtain ⟨h1, h2, h3⟩ := ih _ g1
    refine ⟨h1, ?_, ?_⟩
    · intro k hk
      rw [List.foldl_cons] at hk
      rcases h2 k hk with h | ⟨q, hq, h⟩
      · rcases g2 k h with h | h
        · exact Or.inl h
        · exact Or.inr ⟨e, by simp, h⟩
      · exact Or.inr ⟨q, List.mem_cons_of_mem _ hq, h⟩
    · intro key
      rw [List.foldl_cons, h3, g3, List.map_cons, List.sum_cons, add_assoc]

end

/-! ### Images of one determinant -/

section
variable {K : Type} [Field K] {E : Env} {c : Config} {pos : Nat → Pt} {dets : List (List Nat)} (I : Interactions K)

theorem mem_of_idx_lt (hb : constructBasis c = .ok dets) {σ : Nat → Occ}
    (h1 : cnt c.nsites σ .hole = c.nholes) (h2 : cnt c.nsites σ .down = c.nbeta) : detOf c.nsites σ ∈ dets := by
  rw [constructBasis_eq] at hb
  obtain rfl := Except.ok.inj hb
  exact mem_basisList.2 ⟨σ, h1, h2, rfl⟩

theorem idx_iff_mem (hb : constructBasis c = .ok dets) {im : List Nat} (him : im ∈ dets) (j : Nat) (hj : j < dets.length) :
    getIndexInBasis c im = j ↔ im = dets[j] := by
  obtain ⟨k, hk, rfl⟩ := List.getElem_of_mem him
  rw [C04_index_is_position c _ hb k hk]
  constructor
  · rintro rfl; rfl
  · intro h
    have hnd : dets.Nodup := by
      rw [constructBasis_eq] at hb
      obtain rfl := Except.ok.inj hb
      exact nodup_basisList _ _ _
    exact (hnd.getElem_inj_iff).1 h

theorem sum_images (hb : constructBasis c = .ok dets) (ims : List (List Nat)) (h : ∀ im ∈ ims, im ∈ dets)
    (i j : Nat) (hj : j < dets.length) (x : K) :
    (ims.map (fun k => if k = dets[j] then x else 0)).sum = cooEntry (addImages c i x ims) i j := by
  have := cooEntry_images c i j x ims id
  rw [List.map_id] at this
  rw [this]
  congr 1
  apply List.map_congr_left
  intro im him
  simp only [id, idx_iff_mem hb (h im him) j hj]

theorem sum_pairsD (hb : constructBasis c = .ok dets) (ims : List (List Nat × List Nat))
    (h : ∀ im ∈ ims, im.1 ∈ dets ∧ im.2 ∈ dets) (i j : Nat) (hj : j < dets.length) (x : K) :
    (ims.map (fun k => x * ((if k.1 = dets[j] then 1 else 0) - (if k.2 = dets[j] then 1 else 0)))).sum =
      cooEntry (addPairs c i x ims) i j := by
  have := cooEntry_pairs c i j x ims Prod.fst Prod.snd
  rw [show (fun p : List Nat × List Nat => (p.1, p.2)) = id from rfl, List.map_id] at this
  rw [this]
  congr 1
  apply List.map_congr_left
  intro im him
  simp only [idx_iff_mem hb (h im him).1 j hj, idx_iff_mem hb (h im him).2 j hj]

/-- A row of a term, given that the term is known. -/
theorem row_of_term {body : Nat → List Nat → Py (Coo K)} {l : Coo K} {el : Conf c.nsites → Conf c.nsites → K}
    (h : forDets dets body = .ok l) (ht : IsTerm c dets l el) (hrow : ∀ i d b, body i d = .ok b → ∀ t ∈ b, t.2.1 = i)
    {i : Nat} (hi : i < dets.length) {b : Coo K} (hb : body i dets[i] = .ok b) (j : Nat) (hj : j < dets.length) :
    cooEntry b i j = el (confOf c dets[i]) (confOf c dets[j]) := by
  have hx : ∀ i d, ∃ x, dets[i]? = some d → body i d = .ok x := by
    intro i d
    by_cases hd : dets[i]? = some d
    · obtain ⟨b, hb⟩ := forDets_inv h i d hd
      exact ⟨b, fun _ => hb⟩
    · exact ⟨[], fun g => absurd g hd⟩
  choose x hx using hx
  obtain ⟨l', h1, _, h3⟩ := forDets_row (dets := dets) (B := fun i d => if dets[i]? = some d then x i d else []) (body := body)
    (fun i d hd => by rw [if_pos hd]; exact hx i d hd) (by
      intro i d t ht
      split_ifs at ht with hd
      · exact hrow i d _ (hx i d hd) t ht
      · simp at ht)
  obtain rfl := Except.ok.inj (h.symm.trans h1)
  rw [← ht.2 i hi j hj, h3 i hi, if_pos (List.getElem?_eq_getElem hi)]
  have := hx i dets[i] (List.getElem?_eq_getElem hi)
  rw [hb] at this
  rw [Except.ok.inj this]

theorem hop_row (g : GeomLattice E c pos) (hf : c.Full) (hn : c.nholes + c.nbeta ≤ c.nsites)
    (hb : constructBasis c = .ok dets) {i : Nat} (hi : i < dets.length) :
    ∃ ims, computeHopping E.toSetSem c dets[i] = .ok ims ∧ (∀ im ∈ ims, im ∈ dets) ∧ ∀ j (hj : j < dets.length),
      (ims.map (fun k => if k = dets[j] then I.t else 0)).sum = hopEl I (fpos c.nsites pos) (confOf c dets[i]) (confOf c dets[j]) := by
  have hv := valid_getElem hb (List.getElem?_eq_getElem hi)
  obtain ⟨L, _, h2, h3⟩ := computeHopping_eq E.toSetSem hf hv hn
  have hmem : ∀ im ∈ L.map (fun p => detOf c.nsites (swapOcc (occC c dets[i]) p.1 p.2)), im ∈ dets := by
    intro im him
    obtain ⟨p, hp, rfl⟩ := List.mem_map.1 him
    have hm := (h2 p).1 hp
    exact mem_of_idx_lt hb ((cnt_swapOcc hm.1 hm.2.1 _ _).trans (cnt_occ_hole hv hn))
      ((cnt_swapOcc hm.1 hm.2.1 _ _).trans (cnt_occ_down hv hn))
  refine ⟨_, h3, hmem, ?_⟩
  intro j hj
  obtain ⟨l, e, ht⟩ := addHopping_spec I E.toSetSem g hf hn hb
  unfold addHopping at e
  by_cases h0 : c.nholes > 0
  · rw [if_pos h0] at e
    rw [sum_images hb _ hmem i j hj]
    refine row_of_term e ht ?_ hi (bind_ok h3 rfl) j hj
    intro i d b hb t ht
    obtain ⟨a, _, h⟩ := bind_eq_ok.1 hb
    obtain rfl := Except.ok.inj h
    obtain ⟨_, _, rfl⟩ := mem_addImages.1 ht
    rfl
  · rw [if_neg h0] at e
    obtain rfl := Except.ok.inj e
    rw [← ht.2 i hi j hj]
    have : L = [] := by
      rw [List.eq_nil_iff_forall_not_mem]
      intro p hp
      exact no_holes (by omega) _ _ ((h2 p).1 hp).2.2.1
    rw [this]
    rfl

theorem cooEntry_append_rows {l m : Coo K} {i : Nat} (h1 : ∀ t ∈ l, t.2.1 = i) (h2 : ∀ t ∈ m, t.2.1 = i) :
    ∀ t ∈ l ++ m, t.2.1 = i := fun t ht => (List.mem_append.1 ht).elim (h1 t) (h2 t)

theorem rows_addImages (c : Config) (i : Nat) (x : K) (M : List (List Nat)) : ∀ t ∈ addImages c i x M, t.2.1 = i := by
  intro t ht
  obtain ⟨_, _, rfl⟩ := mem_addImages.1 ht
  rfl

theorem rows_addPairs (c : Config) (i : Nat) (x : K) (M : List (List Nat × List Nat)) : ∀ t ∈ addPairs c i x M, t.2.1 = i := by
  intro t ht
  obtain ⟨_, _, rfl | rfl⟩ := mem_addPairs.1 ht <;> rfl

theorem next_row (g : GeomLattice E c pos) (hf : c.Full) (hn : c.nholes + c.nbeta ≤ c.nsites)
    (hb : constructBasis c = .ok dets) {i : Nat} (hi : i < dets.length) :
    ∃ p, computeNextHopping E c dets[i] = .ok p ∧ (∀ im ∈ p.1, im ∈ dets) ∧ (∀ im ∈ p.2, im ∈ dets) ∧
      ∀ j (hj : j < dets.length),
      (p.1.map (fun k => if k = dets[j] then I.tnNNN else 0)).sum + (p.2.map (fun k => if k = dets[j] then I.tNNN else 0)).sum =
        nextEl I (fpos c.nsites pos) (confOf c dets[i]) (confOf c dets[j]) := by
  have hv := valid_getElem hb (List.getElem?_eq_getElem hi)
  have hlin : ∀ a < c.nsites, ∀ m < c.nsites, ∀ b < c.nsites, a ≠ b → c.bond.e a m = 1 → c.bond.e m b = 1 →
      ∃ x, isBondLinear E c b m a = .ok x := by
    intro a ha m hm b hb hab h1 h2
    rw [g.bond_iff ha hm] at h1
    rw [g.bond_iff hm hb] at h2
    exact ⟨_, g.linear a ha m hm b hb hab h1 h2 b m a (List.reverse_perm [a, m, b])⟩
  obtain ⟨W, _, h2, _, h4⟩ := computeNextHopping_eq E hf hv hlin
  have hmem : ∀ w ∈ W, detOf c.nsites (swapOcc (occC c dets[i]) w.1.1 w.1.2) ∈ dets := by
    intro w hw
    have hm := (h2 w.1).1 (List.mem_map.2 ⟨w, hw, rfl⟩)
    exact mem_of_idx_lt hb ((cnt_swapOcc hm.1 hm.2.1 _ _).trans (cnt_occ_hole hv hn))
      ((cnt_swapOcc hm.1 hm.2.1 _ _).trans (cnt_occ_down hv hn))
  have m1 : ∀ im ∈ (W.filter (fun w => w.2)).map (fun w => detOf c.nsites (swapOcc (occC c dets[i]) w.1.1 w.1.2)), im ∈ dets := by
    intro im him
    obtain ⟨w, hw, rfl⟩ := List.mem_map.1 him
    exact hmem w (List.mem_filter.1 hw).1
  have m2 : ∀ im ∈ (W.filter (fun w => !w.2)).map (fun w => detOf c.nsites (swapOcc (occC c dets[i]) w.1.1 w.1.2)), im ∈ dets := by
    intro im him
    obtain ⟨w, hw, rfl⟩ := List.mem_map.1 him
    exact hmem w (List.mem_filter.1 hw).1
  refine ⟨_, h4, m1, m2, ?_⟩
  intro j hj
  obtain ⟨l, e, ht⟩ := addNextHopping_spec I g hf hn hb
  unfold addNextHopping at e
  by_cases h0 : c.nholes > 0
  · rw [if_pos h0] at e
    rw [sum_images hb _ m1 i j hj, sum_images hb _ m2 i j hj, ← cooEntry_append]
    refine row_of_term e ht ?_ hi (bind_ok h4 rfl) j hj
    intro i d b hb t ht
    obtain ⟨a, _, h⟩ := bind_eq_ok.1 hb
    obtain rfl := Except.ok.inj h
    exact cooEntry_append_rows (rows_addImages _ _ _ _) (rows_addImages _ _ _ _) t ht
  · rw [if_neg h0] at e
    obtain rfl := Except.ok.inj e
    rw [← ht.2 i hi j hj]
    have : W = [] := by
      rw [List.eq_nil_iff_forall_not_mem]
      intro w hw
      exact no_holes (by omega) _ _ ((h2 w.1).1 (List.mem_map.2 ⟨w, hw, rfl⟩)).2.2.1
    rw [this]
    simp [cooEntry_nil]

theorem flip_row (g : TJLattice E c pos) (hf : c.Full) (hn : c.nholes + c.nbeta ≤ c.nsites)
    (hb : constructBasis c = .ok dets) {i : Nat} (hi : i < dets.length) :
    ∃ p, computeFlip E.toSetSem c dets[i] = .ok p ∧ (∀ im ∈ p.1, im ∈ dets) ∧ (∀ im ∈ p.2.1, im ∈ dets) ∧
      (∀ im ∈ p.2.2, im ∈ dets) ∧
      ∀ j (hj : j < dets.length),
      (p.1.map (fun k => if k = dets[j] then I.Jhpar / 2 else 0)).sum +
        (p.2.1.map (fun k => if k = dets[j] then I.Jhper / 2 else 0)).sum +
        (p.2.2.map (fun k => if k = dets[j] then I.J / 2 else 0)).sum =
        flipEl I (fpos c.nsites pos) (confOf c dets[i]) (confOf c dets[j]) := by
  have hv := valid_getElem hb (List.getElem?_eq_getElem hi)
  obtain ⟨L, _, h2, h4⟩ := computeFlip_eq g hf hv
  have hmem : ∀ (f : Nat × Nat → Bool), ∀ im ∈ (L.filter f).map (fun p => detOf c.nsites (swapOcc (occC c dets[i]) p.1 p.2)), im ∈ dets := by
    intro f im him
    obtain ⟨p, hp, rfl⟩ := List.mem_map.1 him
    have hm := (h2 p).1 (List.mem_filter.1 hp).1
    have : p.1 < c.nsites := by omega
    exact mem_of_idx_lt hb ((cnt_swapOcc this hm.2.1 _ _).trans (cnt_occ_hole hv hn))
      ((cnt_swapOcc this hm.2.1 _ _).trans (cnt_occ_down hv hn))
  refine ⟨_, h4, hmem _, hmem _, hmem _, ?_⟩
  intro j hj
  obtain ⟨l, e, ht⟩ := addFlip_spec I g hf hn hb
  unfold addFlip at e
  rw [sum_images hb _ (hmem _) i j hj, sum_images hb _ (hmem _) i j hj, sum_images hb _ (hmem _) i j hj,
    ← cooEntry_append, ← cooEntry_append]
  refine row_of_term e ht ?_ hi (bind_ok h4 rfl) j hj
  intro i d b hb t ht
  obtain ⟨a, _, h⟩ := bind_eq_ok.1 hb
  obtain rfl := Except.ok.inj h
  exact cooEntry_append_rows (cooEntry_append_rows (rows_addImages _ _ _ _) (rows_addImages _ _ _ _)) (rows_addImages _ _ _ _) t ht

theorem SDPath.distinct {σ : Nat → Occ} {a m b : Nat} (h : SDPath c σ a m b) : a ≠ m ∧ a ≠ b ∧ m ≠ b := by
  obtain ⟨h1, h2, h3, h4, h5, h6, _⟩ := h
  have hbe : σ b ≠ .hole := by
    rw [h6]; intro h; apply h5
    generalize σ m = o at h
    cases o <;> simp_all [Occ.rev]
  refine ⟨fun h => h5 (h ▸ h4), fun h => hbe (h ▸ h4), ?_⟩
  intro h
  rw [← h] at h6
  generalize σ m = o at h6 h5
  cases o <;> simp [Occ.rev] at h6 h5

theorem sd_row (g : GeomLattice E c pos) (hf : c.Full) (hn : c.nholes + c.nbeta ≤ c.nsites)
    (hb : constructBasis c = .ok dets) {i : Nat} (hi : i < dets.length) :
    ∃ p, computeSD E c dets[i] = .ok p ∧ (∀ im ∈ p.1, im.1 ∈ dets ∧ im.2 ∈ dets) ∧ (∀ im ∈ p.2, im.1 ∈ dets ∧ im.2 ∈ dets) ∧
      ∀ j (hj : j < dets.length),
      (p.1.map (fun k => I.hSDpar * ((if k.1 = dets[j] then 1 else 0) - (if k.2 = dets[j] then 1 else 0)))).sum +
      (p.2.map (fun k => I.hSDper * ((if k.1 = dets[j] then 1 else 0) - (if k.2 = dets[j] then 1 else 0)))).sum =
        sdEl I (fpos c.nsites pos) (confOf c dets[i]) (confOf c dets[j]) := by
  have hv := valid_getElem hb (List.getElem?_eq_getElem hi)
  obtain ⟨L, _, h2, h4⟩ := computeSD_eq E hf hv (fun a m b => decide (Aligned (pos a) (pos m) (pos b))) (by
        intro a ha m hm b hb hab h1 h2
        rw [g.bond_iff ha hm] at h1
        rw [g.bond_iff hm hb] at h2
        exact g.linear a ha m hm b hb hab h1 h2 b m a (List.reverse_perm [a, m, b]))
  have hmem : ∀ (f : Nat × Nat × Nat → Bool), ∀ im ∈ (L.filter f).map (fun p =>
      (detOf c.nsites (shiftOcc (occC c dets[i]) p.1 p.2.1 p.2.2), detOf c.nsites (swapOcc (occC c dets[i]) p.1 p.2.2))),
      im.1 ∈ dets ∧ im.2 ∈ dets := by
    intro f im him
    obtain ⟨p, hp, rfl⟩ := List.mem_map.1 him
    have hm := (h2 p).1 (List.mem_filter.1 hp).1
    obtain ⟨n1, n2, n3⟩ := hm.distinct
    exact ⟨mem_of_idx_lt hb ((cnt_shiftOcc hm.1 hm.2.1 hm.2.2.1 n1 n2 n3 _ _).trans (cnt_occ_hole hv hn))
      ((cnt_shiftOcc hm.1 hm.2.1 hm.2.2.1 n1 n2 n3 _ _).trans (cnt_occ_down hv hn)),
      mem_of_idx_lt hb ((cnt_swapOcc hm.1 hm.2.2.1 _ _).trans (cnt_occ_hole hv hn))
      ((cnt_swapOcc hm.1 hm.2.2.1 _ _).trans (cnt_occ_down hv hn))⟩
  refine ⟨_, h4, hmem _, hmem _, ?_⟩
  intro j hj
  obtain ⟨l, e, ht⟩ := addSD_spec I g hf hn hb
  unfold addSD at e
  rw [sum_pairsD hb _ (hmem _) i j hj, sum_pairsD hb _ (hmem _) i j hj, ← cooEntry_append]
  refine row_of_term e ht ?_ hi (bind_ok h4 rfl) j hj
  intro i d b hb t ht
  obtain ⟨a, _, h⟩ := bind_eq_ok.1 hb
  obtain rfl := Except.ok.inj h
  exact cooEntry_append_rows (rows_addPairs _ _ _ _) (rows_addPairs _ _ _ _) t ht

theorem sum_ite_half (l : List (List Nat)) (k : List Nat) (x : K) :
    (l.map (fun im => if im = k then x else 0)).sum = x * (l.map (fun im => if im = k then (1 : K) else 0)).sum := by
  rw [← List.sum_map_mul_left]
  congr 1
  apply List.map_congr_left
  intro im _
  simp

/-- The dictionary: every key is a basis determinant, and its values are the off-diagonal
matrix elements with the spin flips counted twice. -/
theorem computeDynamic_spec (h2 : (2 : K) ≠ 0) (g : TJLattice E c pos) (hf : c.Full) (hn : c.nholes + c.nbeta ≤ c.nsites)
    (hb : constructBasis c = .ok dets) (B : BoolInteractions) {i : Nat} (hi : i < dets.length) :
    ∃ D, computeDynamic E c I B dets[i] = .ok D ∧ (dkeys D).Nodup ∧ (∀ k ∈ dkeys D, k ∈ dets) ∧
      ∀ j (hj : j < dets.length), (dictGet D dets[j]).getD 0 =
        hamEl I (fpos c.nsites pos) ⟨B.bt, false, B.bij, B.bSD, B.btN, false⟩ (confOf c dets[i]) (confOf c dets[j]) +
        hamEl I (fpos c.nsites pos) ⟨false, false, B.bij, false, false, false⟩ (confOf c dets[i]) (confOf c dets[j]) := by
  obtain ⟨l1, e1, m1, s1⟩ := hop_row I g.toGeomLattice hf hn hb hi
  obtain ⟨l2, e2, m2, m2', s2⟩ := next_row I g.toGeomLattice hf hn hb hi
  obtain ⟨l3, e3, m3, m3', m3'', s3⟩ := flip_row I g hf hn hb hi
  obtain ⟨l4, e4, m4, m4', s4⟩ := sd_row I g.toGeomLattice hf hn hb hi
  have sel : ∀ {α : Type} (b : Bool) (x : Py (List α)) (y : List α), x = .ok y → selected b x = .ok (if b then y else []) := by
    intro α b x y h
    cases b
    · rfl
    · exact h
  unfold computeDynamic
  rw [sel B.bt _ [(l1, I.t)] (bind_ok e1 rfl), sel B.btN _ [(l2.1, I.tnNNN), (l2.2, I.tNNN)] (bind_ok e2 rfl),
    sel B.bij _ [(l3.1, I.Jhpar), (l3.2.1, I.Jhper), (l3.2.2, I.J)] (bind_ok e3 rfl),
    sel B.bSD _ [(l4.1, I.hSDpar), (l4.2, I.hSDper)] (bind_ok e4 rfl)]
  set ev := (if B.bt = true then [(l1, I.t)] else []) ++ (if B.btN = true then [(l2.1, I.tnNNN), (l2.2, I.tNNN)] else []) ++
    (if B.bij = true then [(l3.1, I.Jhpar), (l3.2.1, I.Jhper), (l3.2.2, I.J)] else []) with hev
  set ev4 := (if B.bSD = true then [(l4.1, I.hSDpar), (l4.2, I.hSDper)] else []) with hev4
  obtain ⟨a1, a2, a3⟩ := foldl_events ev [] List.nodup_nil
  obtain ⟨b1, b2, b3⟩ := foldl_pair_events ev4 _ a1
  refine ⟨_, rfl, b1, ?_, ?_⟩
  · intro k hk
    rcases b2 k hk with h | ⟨e, he, p, hp, h⟩
    · rcases (a2 k).1 h with h | ⟨e, he, h⟩
      · simp at h
      · rw [hev] at he
        simp only [List.mem_append, List.mem_ite_nil_right, List.mem_cons, List.not_mem_nil, or_false] at he
        rcases he with (⟨_, rfl⟩ | ⟨_, rfl | rfl⟩) | ⟨_, rfl | rfl | rfl⟩
        · exact m1 k h
        · exact m2 k h
        · exact m2' k h
        · exact m3 k h
        · exact m3' k h
        · exact m3'' k h
    · rw [hev4] at he
      simp only [List.mem_ite_nil_right, List.mem_cons, List.not_mem_nil, or_false] at he
      have : p.1 ∈ dets ∧ p.2 ∈ dets := by
        rcases he with ⟨_, rfl | rfl⟩
        · exact m4 p hp
        · exact m4' p hp
      rcases h with rfl | rfl
      · exact this.1
      · exact this.2
  · intro j hj
    rw [dictGet_eq b1, b3, a3]
    have hflip : (l3.1.map (fun k => if k = dets[j] then I.Jhpar else 0)).sum +
        ((l3.2.1.map (fun k => if k = dets[j] then I.Jhper else 0)).sum +
        (l3.2.2.map (fun k => if k = dets[j] then I.J else 0)).sum) =
        flipEl I (fpos c.nsites pos) (confOf c dets[i]) (confOf c dets[j]) +
        flipEl I (fpos c.nsites pos) (confOf c dets[i]) (confOf c dets[j]) := by
      rw [← s3 j hj, sum_ite_half _ _ (I.Jhpar / 2), sum_ite_half _ _ (I.Jhper / 2), sum_ite_half _ _ (I.J / 2),
        sum_ite_half _ _ I.Jhpar, sum_ite_half _ _ I.Jhper, sum_ite_half _ _ I.J]
      field_simp
      ring
    have q1 : ((if B.bt = true then [(l1, I.t)] else []).map (fun e : List (List Nat) × K => (e.1.map (fun k => if k = dets[j] then e.2 else 0)).sum)).sum =
        if B.bt = true then hopEl I (fpos c.nsites pos) (confOf c dets[i]) (confOf c dets[j]) else 0 := by
      split_ifs
      · simp [s1 j hj]
      · rfl
    have q2 : ((if B.btN = true then [(l2.1, I.tnNNN), (l2.2, I.tNNN)] else []).map (fun e : List (List Nat) × K => (e.1.map (fun k => if k = dets[j] then e.2 else 0)).sum)).sum =
        if B.btN = true then nextEl I (fpos c.nsites pos) (confOf c dets[i]) (confOf c dets[j]) else 0 := by
      split_ifs
      · rw [← s2 j hj]; simp
      · rfl
    have q3 : ((if B.bij = true then [(l3.1, I.Jhpar), (l3.2.1, I.Jhper), (l3.2.2, I.J)] else []).map (fun e : List (List Nat) × K => (e.1.map (fun k => if k = dets[j] then e.2 else 0)).sum)).sum =
        if B.bij = true then flipEl I (fpos c.nsites pos) (confOf c dets[i]) (confOf c dets[j]) +
          flipEl I (fpos c.nsites pos) (confOf c dets[i]) (confOf c dets[j]) else 0 := by
      split_ifs
      · rw [← hflip]; simp
      · rfl
    have q4 : (ev4.map (fun e => (e.1.map (fun k => e.2 * ((if k.1 = dets[j] then 1 else 0) - (if k.2 = dets[j] then 1 else 0)))).sum)).sum =
        if B.bSD = true then sdEl I (fpos c.nsites pos) (confOf c dets[i]) (confOf c dets[j]) else 0 := by
      rw [hev4]
      split_ifs
      · rw [← s4 j hj]; simp
      · rfl
    rw [q4, hev, List.map_append, List.map_append, List.sum_append, List.sum_append, q1, q2, q3]
    unfold hamEl dval
    simp only [List.map_nil, List.sum_nil]
    cases B.bt <;> cases B.btN <;> cases B.bij <;> cases B.bSD <;> simp <;> ring

end

end TJ
