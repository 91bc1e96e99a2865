/-
The spin operators of the code act on the functions of the occupations.
-/
import Verif.Lemmas.Spin
import Verif.Lemmas.HamLin
import Mathlib.Algebra.BigOperators.Fin

namespace TJ

open Finset

section
variable {c : Config} {dets : List (List Nat)}

theorem holesInOrder_sorted (S : SetSem) {c : Config} (h : c.nholes ≤ 1) : HolesInOrder S c := by
  intro l hl hlen hlt
  have h1 : (S.inter l c.restr.1).length ≤ l.length := by
    apply List.Subperm.length_le
    apply (S.nodup_inter _ _).subperm
    intro x hx
    exact ((S.mem_inter _ _ _).1 hx).1
  match hm : S.inter l c.restr.1 with
  | [] => exact List.Pairwise.nil
  | [x] => exact List.pairwise_singleton _ _
  | x :: y :: t => rw [hm] at h1; simp at h1; omega

theorem getIndexesOf_holes (S : SetSem) (hf : c.Full) (ho : HolesInOrder S c) {det : List Nat}
    (hc : Canonical c.nsites c.nholes c.nbeta det) (hn : c.nholes + c.nbeta ≤ c.nsites) :
    getIndexesOf S c det 0 = .ok (sitesOf c.nsites (occC c det) .hole) := by
  obtain ⟨l, h1, h2⟩ := getIndexesOf_full S hf hc.1 .hole false
  have h1' : getIndexesOf S c det 0 = .ok l := h1
  rw [h1']
  congr 1
  have hl : l = S.inter (holesOf c det) c.restr.1 := by
    simp [getIndexesOf] at h1'
    exact h1'.symm
  refine sorted_perm_eq h2 ?_ (sitesOf_sorted _ _ _)
  rw [hl]
  refine ho _ hc.2.1 ?_ ?_
  · unfold holesOf; rw [List.length_take, hc.1.length]; omega
  · intro x hx
    exact hc.1.mem.1 (List.mem_of_mem_take hx)

theorem perm_move {A B : Nat → Prop} {l m : List Nat} (hl : l.Nodup) (hA : ∀ s, s ∈ l ↔ A s) {x y : Nat} (hm : m.Nodup)
    (hB : ∀ s, s ∈ m ↔ B s) (hx : A x) (hy : ¬ A y) (h : ∀ s, B s ↔ (A s ∧ s ≠ x) ∨ s = y) :
    (l.erase x ++ [y]).Perm m := by
  refine (List.perm_ext_iff_of_nodup ?_ hm).2 ?_
  · rw [List.nodup_append]
    refine ⟨hl.erase _, List.nodup_singleton _, ?_⟩
    intro a ha b hb e
    rw [List.mem_singleton] at hb
    rw [e, hb] at ha
    exact hy ((hA y).1 (List.mem_of_mem_erase ha))
  · intro s
    rw [List.mem_append, List.mem_singleton, hl.mem_erase_iff, hB, h, hA]
    tauto

theorem sPlusSMinusDet_eq (S : SetSem) (hf : c.Full) (ho : HolesInOrder S c) {det : List Nat}
    (hc : Canonical c.nsites c.nholes c.nbeta det) (hn : c.nholes + c.nbeta ≤ c.nsites) {p m : Nat}
    (hp : p < c.nsites) (hm : m < c.nsites) :
    sPlusSMinusDet S c det p m = .ok (if occC c det p = .down ∧ occC c det m = .up then
      some (detOf c.nsites (swapOcc (occC c det) p m)) else none) := by
  obtain ⟨al, a1, a2⟩ := getIndexesOf_full S hf hc.1 .up false
  obtain ⟨be, b1, b2⟩ := getIndexesOf_full S hf hc.1 .down false
  unfold sPlusSMinusDet
  have a1' : getIndexesOf S c det 1 = .ok al := a1
  have b1' : getIndexesOf S c det (-1) = .ok be := b1
  refine bind_ok a1' (bind_ok b1' ?_)
  have ma : ∀ s, s ∈ al ↔ s < c.nsites ∧ occC c det s = .up := fun s => by rw [a2.mem_iff, mem_sitesOf]
  have mb : ∀ s, s ∈ be ↔ s < c.nsites ∧ occC c det s = .down := fun s => by rw [b2.mem_iff, mem_sitesOf]
  by_cases h1 : occC c det p = .down
  · rw [if_pos ((mb p).2 ⟨hp, h1⟩)]
    by_cases h2 : occC c det m = .up
    · rw [if_pos ((ma m).2 ⟨hm, h2⟩), if_pos ⟨h1, h2⟩]
      have e1 : pyRemove al m = .ok (al.erase m) := if_pos ((ma m).2 ⟨hm, h2⟩)
      have e2 : pyRemove be p = .ok (be.erase p) := if_pos ((mb p).2 ⟨hp, h1⟩)
      refine bind_ok e1 (bind_ok e2 (bind_ok (getIndexesOf_holes S hf ho hc hn) ?_))
      show Except.ok _ = Except.ok _
      have hne : p ≠ m := fun e => by rw [e, h2] at h1; cases h1
      have hsw : ∀ s, swapOcc (occC c det) p m s = if s = p then .up else if s = m then .down else occC c det s := by
        intro s
        unfold swapOcc
        rw [Equiv.swap_apply_def]
        split_ifs <;> simp_all
      congr 2
      unfold detOf
      congr 1
      · congr 1
        · apply List.filter_congr
          intro s _
          rw [hsw]
          by_cases q1 : s = p
          · subst q1; simp [h1]
          by_cases q2 : s = m
          · subst q2; simp [h2, q1]
          · simp [q1, q2]
        · refine pySort_eq (List.Perm.symm ?_) (sitesOf_sorted _ _ _)
          refine perm_move (A := fun s => s < c.nsites ∧ occC c det s = .down) (B := fun s => s < c.nsites ∧ swapOcc (occC c det) p m s = .down)
            (b2.nodup_iff.2 (sitesOf_nodup _ _ _)) mb (sitesOf_nodup _ _ _) (fun s => mem_sitesOf) ⟨hp, h1⟩ (by simp [h2]) ?_
          intro s
          rw [hsw]
          by_cases q1 : s = p
          · subst q1; simp [hne]
          by_cases q2 : s = m
          · subst q2; simp [q1, hm]
          · simp [q1, q2]
      · refine pySort_eq (List.Perm.symm ?_) (sitesOf_sorted _ _ _)
        refine perm_move (A := fun s => s < c.nsites ∧ occC c det s = .up) (B := fun s => s < c.nsites ∧ swapOcc (occC c det) p m s = .up)
          (a2.nodup_iff.2 (sitesOf_nodup _ _ _)) ma (sitesOf_nodup _ _ _) (fun s => mem_sitesOf) ⟨hm, h2⟩ (by simp [h1]) ?_
        intro s
        rw [hsw]
        by_cases q1 : s = p
        · subst q1; simp [hp]
        by_cases q2 : s = m
        · subst q2; simp [q1]
        · simp [q1, q2]
    · rw [if_neg (fun h => h2 ((ma m).1 h).2), if_neg (fun h => h2 h.2)]
      rfl
  · rw [if_neg (fun h => h1 ((mb p).1 h).2), if_neg (fun h => h1 h.1)]
    rfl

/-- Without a down spin on the first site and an up spin on the second nothing is exchanged, whatever the order of the sets. -/
theorem sPlusSMinusDet_none (S : SetSem) (hf : c.Full) {det : List Nat} (hc : Canonical c.nsites c.nholes c.nbeta det) {p m : Nat}
    (h : ¬ (occC c det p = .down ∧ occC c det m = .up)) : sPlusSMinusDet S c det p m = .ok none := by
  obtain ⟨al, a1, a2⟩ := getIndexesOf_full S hf hc.1 .up false
  obtain ⟨be, b1, b2⟩ := getIndexesOf_full S hf hc.1 .down false
  unfold sPlusSMinusDet
  have a1' : getIndexesOf S c det 1 = .ok al := a1
  have b1' : getIndexesOf S c det (-1) = .ok be := b1
  refine bind_ok a1' (bind_ok b1' ?_)
  have ma : ∀ s, s ∈ al ↔ s < c.nsites ∧ occC c det s = .up := fun s => by rw [a2.mem_iff, mem_sitesOf]
  have mb : ∀ s, s ∈ be ↔ s < c.nsites ∧ occC c det s = .down := fun s => by rw [b2.mem_iff, mem_sitesOf]
  split_ifs with h1 h2
  · exact absurd ⟨((mb p).1 h1).2, ((ma m).1 h2).2⟩ h
  · rfl
  · rfl

/-- Every exchange gives the canonical determinant. -/
def SwapsRight (S : SetSem) (c : Config) : Prop :=
  ∀ det : List Nat, Canonical c.nsites c.nholes c.nbeta det → ∀ p m : Nat, p < c.nsites → m < c.nsites →
    sPlusSMinusDet S c det p m = .ok (if occC c det p = .down ∧ occC c det m = .up then
      some (detOf c.nsites (swapOcc (occC c det) p m)) else none)

theorem swapsRight_of_order (S : SetSem) (hf : c.Full) (ho : HolesInOrder S c) (hn : c.nholes + c.nbeta ≤ c.nsites) : SwapsRight S c :=
  fun _ hc _ _ hp hm => sPlusSMinusDet_eq S hf ho hc hn hp hm

section
variable {K : Type} [AddCommMonoid K]

theorem pyAddAt_eq (w : List K) {i : Nat} (x : K) (h : i < w.length) : pyAddAt w i x = .ok (w.set i (w.getD i 0 + x)) := by
  unfold pyAddAt
  rw [List.getElem?_eq_getElem h]
  simp [List.getD_eq_getElem?_getD, h]

theorem foldl_add_spec (f : Nat → Option (Nat × K)) (w0 : List K) :
    ∀ n, (∀ i < n, ∀ p, f i = some p → p.1 < w0.length) →
    ((List.range n).foldl (fun w i => match f i with | none => w | some p => w.set p.1 (w.getD p.1 0 + p.2)) w0).length = w0.length ∧
    ∀ k < w0.length, ((List.range n).foldl (fun w i => match f i with | none => w | some p => w.set p.1 (w.getD p.1 0 + p.2)) w0).getD k 0 =
      w0.getD k 0 + ∑ i ∈ range n, match f i with | none => 0 | some p => if p.1 = k then p.2 else 0 := by
  intro n
  induction n with
  | zero => intro _; simp
  | succ n ih =>
    intro h
    obtain ⟨h1, h2⟩ := ih (fun i hi => h i (by omega))
    simp only [List.range_succ, List.foldl_append, List.foldl_cons, List.foldl_nil]
    generalize (List.range n).foldl (fun w i => match f i with | none => w | some p => w.set p.1 (w.getD p.1 0 + p.2)) w0 = w at *
    cases hf : f n with
    | none =>
      refine ⟨h1, fun k hk => ?_⟩
      simp only [sum_range_succ, hf, add_zero]
      exact h2 k hk
    | some p =>
      have hp := h n (by omega) p hf
      simp only
      refine ⟨by rw [List.length_set, h1], fun k hk => ?_⟩
      simp only [sum_range_succ, hf]
      by_cases e : p.1 = k
      · subst e
        rw [if_pos rfl, ← add_assoc, ← h2 _ hk]
        simp only [List.getD_eq_getElem?_getD]
        rw [List.getElem?_set_self (by omega)]; rfl
      · rw [if_neg e, add_zero, ← h2 k hk]
        simp only [List.getD_eq_getElem?_getD]
        rw [List.getElem?_set_ne e]

theorem sPlusSMinus_of_swaps (S : SetSem) (ho : SwapsRight S c) (hn : c.nholes + c.nbeta ≤ c.nsites)
    (hb : constructBasis c = .ok dets) (v : List K) (hv : v.length = dets.length) (p m : Fin c.nsites) :
    ∃ w, sPlusSMinus S c v p m = .ok w ∧ w.length = dets.length ∧ ∀ k (hk : k < dets.length),
      w.getD k 0 = if conf c dets[k] p = .up ∧ conf c dets[k] m = .down then amp c dets v (exch (conf c dets[k]) p m) else 0 := by
  have hlen : dets.length = c.nbConf := C02_dimension c dets hb
  have hcan : ∀ k (hk : k < dets.length), Canonical c.nsites c.nholes c.nbeta dets[k] := by
    have hb' := hb
    rw [constructBasis_eq] at hb'
    obtain rfl := Except.ok.inj hb'
    exact fun k hk => canonical_of_mem_basisList (List.getElem_mem hk)
  let f : Nat → Option (Nat × K) := fun i => if h : i < dets.length then
    if occC c dets[i] p = .down ∧ occC c dets[i] m = .up then
      some (getIndexInBasis c (detOf c.nsites (swapOcc (occC c dets[i]) p m)), v.getD i 0) else none else none
  have hfold : sPlusSMinus S c v p m = .ok ((List.range c.nbConf).foldl
      (fun w i => match f i with | none => w | some p => w.set p.1 (w.getD p.1 0 + p.2)) (List.replicate v.length 0)) := by
    unfold sPlusSMinus
    refine foldlM_ok_of (fun w => w.length = dets.length) _ _ (by rw [List.length_replicate, hv]) ?_
    intro w i hw hi
    have hi : i < dets.length := by rw [hlen]; exact List.mem_range.1 hi
    have e1 := C05_unrank c dets hb i hi
    have e2 := ho _ (hcan i hi) p m p.2 m.2
    have hvi := (hcan i hi).1
    have hif : f i = if occC c dets[i] p = .down ∧ occC c dets[i] m = .up then
      some (getIndexInBasis c (detOf c.nsites (swapOcc (occC c dets[i]) p m)), v.getD i 0) else none := dif_pos hi
    by_cases hd : occC c dets[i] p = .down ∧ occC c dets[i] m = .up
    · rw [if_pos hd] at e2 hif
      have hlt := (idx_swap hn hb hvi p m).1
      refine ⟨bind_ok e1 (bind_ok e2 ?_), ?_⟩
      · have hcd : Canonical c.nsites c.nholes c.nbeta (detOf c.nsites (swapOcc (occC c dets[i]) p m)) :=
          detOf_canonical ((cnt_swapOcc p.2 m.2 _ _).trans (cnt_occ_hole hvi hn)) ((cnt_swapOcc p.2 m.2 _ _).trans (cnt_occ_down hvi hn))
        have hix : computeHashTable c (detOf c.nsites (swapOcc (occC c dets[i]) p m)) =
            getIndexInBasis c (detOf c.nsites (swapOcc (occC c dets[i]) p m)) := by
          unfold getIndexInBasis; rw [reorder_of_canonical hcd]
        have hnil : detOf c.nsites (swapOcc (occC c dets[i]) p m) ≠ [] := by
          intro h
          have h3 := hcd.1.length
          rw [h, List.length_nil] at h3
          have := p.2
          omega
        split
        · rename_i h; cases h
        · rename_i h; exact absurd (Option.some.inj h) hnil
        · rename_i d _ h
          obtain rfl := Option.some.inj h
          have e3 : pyGet v i = .ok (v.getD i 0) := by
            unfold pyGet
            rw [List.getD_eq_getElem?_getD, List.getElem?_eq_getElem (show i < v.length by omega)]
            rfl
          refine bind_ok e3 ?_
          rw [hix, pyAddAt_eq _ _ (by omega), hif]
      · rw [hif]; simp only [List.length_set]; exact hw
    · rw [if_neg hd] at e2 hif
      refine ⟨bind_ok e1 (bind_ok e2 ?_), ?_⟩
      · rw [hif]; rfl
      · rw [hif]; exact hw
  have hrange : ∀ i < c.nbConf, ∀ q, f i = some q → q.1 < (List.replicate v.length (0 : K)).length := by
    intro i hi q hq
    rw [List.length_replicate, hv]
    have hi : i < dets.length := by omega
    simp only [f, dif_pos hi] at hq
    split_ifs at hq
    obtain rfl := Option.some.inj hq
    exact (idx_swap hn hb (hcan i hi).1 p m).1
  obtain ⟨g1, g2⟩ := foldl_add_spec f (List.replicate v.length 0) c.nbConf hrange
  refine ⟨_, hfold, by rw [g1, List.length_replicate, hv], ?_⟩
  intro k hk
  rw [g2 k (by rw [List.length_replicate, hv]; exact hk), ← hlen]
  have h0 : (List.replicate v.length (0 : K)).getD k 0 = 0 := by
    simp [List.getD_eq_getElem?_getD, hv, hk]
  rw [h0, zero_add]
  unfold amp
  have hdk : ∀ i (hi : i < dets.length), dets.getD i [] = dets[i] := fun i hi => by
    simp [List.getD_eq_getElem?_getD, hi]
  have hterm : ∀ i ∈ range dets.length, (match f i with | none => 0 | some q => if q.1 = k then q.2 else 0) =
      if conf c dets[k] p = .up ∧ conf c dets[k] m = .down then
        (if conf c (dets.getD i []) = exch (conf c dets[k]) p m then v.getD i 0 else 0) else 0 := by
    intro i hi
    have hi := mem_range.1 hi
    rw [hdk i hi]
    have hix := (idx_swap hn hb (hcan i hi).1 p m).2 k hk
    have hsym : conf c dets[k] = exch (conf c dets[i]) p m ↔ conf c dets[i] = exch (conf c dets[k]) p m := by
      constructor <;> intro h <;> rw [h, exch_exch]
    have hif : f i = if occC c dets[i] p = .down ∧ occC c dets[i] m = .up then
      some (getIndexInBasis c (detOf c.nsites (swapOcc (occC c dets[i]) p m)), v.getD i 0) else none := dif_pos hi
    rw [hif]
    by_cases he : conf c dets[i] = exch (conf c dets[k]) p m
    · have q1 : occC c dets[i] p = conf c dets[k] m := by
        have := congrFun he p
        rw [exch_left] at this
        exact this
      have q2 : occC c dets[i] m = conf c dets[k] p := by
        have := congrFun he m
        rw [exch_right] at this
        exact this
      rw [q1, q2]
      by_cases hd : conf c dets[k] m = .down ∧ conf c dets[k] p = .up
      · rw [if_pos hd, if_pos ⟨hd.2, hd.1⟩, if_pos he]
        exact if_pos (hix.2 (hsym.2 he))
      · rw [if_neg hd, if_neg (fun g => hd ⟨g.2, g.1⟩)]
    · rw [if_neg he, ite_self]
      split_ifs
      · exact if_neg (fun g => he (hsym.1 (hix.1 g)))
      · rfl
  rw [sum_congr rfl hterm]
  split_ifs <;> simp

theorem sPlusSMinus_spec (S : SetSem) (hf : c.Full) (ho : HolesInOrder S c) (hn : c.nholes + c.nbeta ≤ c.nsites)
    (hb : constructBasis c = .ok dets) (v : List K) (hv : v.length = dets.length) (p m : Fin c.nsites) :
    ∃ w, sPlusSMinus S c v p m = .ok w ∧ w.length = dets.length ∧ ∀ k (hk : k < dets.length),
      w.getD k 0 = if conf c dets[k] p = .up ∧ conf c dets[k] m = .down then amp c dets v (exch (conf c dets[k]) p m) else 0 :=
  sPlusSMinus_of_swaps S (swapsRight_of_order S hf ho hn) hn hb v hv p m

theorem canonical_getElem (hb : constructBasis c = .ok dets) (k : Nat) (hk : k < dets.length) :
    Canonical c.nsites c.nholes c.nbeta dets[k] := by
  rw [constructBasis_eq] at hb
  obtain rfl := Except.ok.inj hb
  exact canonical_of_mem_basisList (List.getElem_mem hk)

theorem conf_inj (hb : constructBasis c = .ok dets) {i j : Nat} (hi : i < dets.length) (hj : j < dets.length)
    (h : conf c dets[i] = conf c dets[j]) : i = j := by
  have ci := canonical_getElem hb i hi
  have cj := canonical_getElem hb j hj
  have e : dets[i] = dets[j] := by
    rw [← detOf_occ ci, ← detOf_occ cj]
    exact detOf_congr (fun s hs => congrFun h ⟨s, hs⟩)
  rw [constructBasis_eq] at hb
  obtain rfl := Except.ok.inj hb
  exact (List.Nodup.getElem_inj_iff (nodup_basisList _ _ _)).1 e

theorem getD_dets {i : Nat} (hi : i < dets.length) : dets.getD i [] = dets[i] := by
  simp [List.getD_eq_getElem?_getD, hi]

theorem amp_conf (hb : constructBasis c = .ok dets) (v : List K) {k : Nat} (hk : k < dets.length) :
    amp c dets v (conf c dets[k]) = v.getD k 0 := by
  unfold amp
  rw [sum_eq_single_of_mem k (mem_range.2 hk), getD_dets hk, if_pos rfl]
  intro i hi hne
  rw [getD_dets (mem_range.1 hi), if_neg]
  exact fun h => hne (conf_inj hb (mem_range.1 hi) hk h)

theorem count_eq_cnt (n : Nat) (σ : Nat → Occ) (o : Occ) : Conf.count (fun s : Fin n => σ s) o = cnt n σ o := by
  unfold Conf.count cnt
  rw [← List.toFinset_card_of_nodup (List.nodup_range.filter _)]
  apply card_bij (fun (s : Fin n) _ => s.val)
  · intro s hs; simpa using hs
  · intro s _ t _ h; exact Fin.ext h
  · intro t ht
    simp only [List.mem_toFinset, List.mem_filter, List.mem_range, decide_eq_true_eq] at ht
    exact ⟨⟨t, ht.1⟩, by simpa using ht.2, rfl⟩

theorem count_conf_down (hn : c.nholes + c.nbeta ≤ c.nsites) {det : List Nat} (hv : ValidDet c.nsites det) :
    (conf c det).count .down = c.nbeta := (count_eq_cnt _ _ _).trans (cnt_occ_down hv hn)

theorem count_conf_hole (hn : c.nholes + c.nbeta ≤ c.nsites) {det : List Nat} (hv : ValidDet c.nsites det) :
    (conf c det).count .hole = c.nholes := (count_eq_cnt _ _ _).trans (cnt_occ_hole hv hn)

theorem count_conf_up (hn : c.nholes + c.nbeta ≤ c.nsites) {det : List Nat} (hv : ValidDet c.nsites det) :
    ((conf c det).count .up : Int) = c.nalpha := by
  have := (count_eq_cnt c.nsites (occ c.nholes c.nbeta det) .up).trans (cnt_occ_up hv hn)
  unfold conf
  rw [this]
  rw [nalpha_toNat hn]
  unfold Config.nalpha
  omega

/-! ### Sums over pairs of sites -/

theorem sum_map_range (f : Nat → K) (n : Nat) : ((List.range n).map f).sum = ∑ i ∈ range n, f i := by
  induction n with
  | zero => simp
  | succ n ih => rw [List.range_succ, List.map_append, List.sum_append, ih, sum_range_succ]; simp

theorem sum_sitePairs (n : Nat) (g : Nat → Nat → K) :
    ((sitePairs n).map (fun p => g p.1 p.2)).sum = ∑ a : Fin n, ∑ b : Fin n, if a < b then g a b else 0 := by
  have h1 : ∀ a : Nat, ((List.range' (a + 1) (n - (a + 1))).map (fun b => g a b)).sum = ∑ b ∈ range n, if a < b then g a b else 0 := by
    intro a
    rw [← sum_filter, show (range n).filter (fun b => a < b) = Ico (a + 1) n by ext b; simp; omega,
      sum_Ico_eq_sum_range, List.range'_eq_map_range, List.map_map, ← sum_map_range]
    rfl
  unfold sitePairs
  rw [List.map_flatten, List.sum_flatten, List.map_map, List.map_map]
  have h2 : ((List.range (n - 1)).map ((List.sum ∘ List.map fun p : Nat × Nat => g p.1 p.2) ∘ fun s0 =>
      (List.range' (s0 + 1) (n - (s0 + 1))).map (fun s1 => (s0, s1)))) =
      (List.range (n - 1)).map (fun a => ∑ b ∈ range n, if a < b then g a b else 0) := by
    apply List.map_congr_left
    intro a _
    rw [← h1 a]
    simp only [Function.comp, List.map_map]
    rfl
  rw [h2, sum_map_range]
  have h3 : (∑ a ∈ range (n - 1), ∑ b ∈ range n, if a < b then g a b else 0) = ∑ a ∈ range n, ∑ b ∈ range n, if a < b then g a b else 0 := by
    apply sum_subset
    · intro a; simp; omega
    · intro a ha ha'
      apply sum_eq_zero
      intro b hb
      rw [if_neg]
      simp at ha ha' hb
      omega
  rw [h3, Finset.sum_range]
  refine sum_congr rfl fun a _ => ?_
  rw [Finset.sum_range]
  rfl

theorem mem_sitePairs {n : Nat} {p : Nat × Nat} : p ∈ sitePairs n ↔ p.1 < p.2 ∧ p.2 < n := by
  unfold sitePairs
  simp only [List.mem_flatten, List.mem_map, List.mem_range]
  constructor
  · rintro ⟨l, ⟨a, ha, rfl⟩, h⟩
    obtain ⟨b, hb, rfl⟩ := List.mem_map.1 h
    rw [List.mem_range'_1] at hb
    simp only
    omega
  · rintro ⟨h1, h2⟩
    refine ⟨_, ⟨p.1, by omega, rfl⟩, List.mem_map.2 ⟨p.2, ?_, rfl⟩⟩
    rw [List.mem_range'_1]
    omega

theorem vadd_length {v w : List K} {d : Nat} (hv : v.length = d) (hw : w.length = d) : (vadd v w).length = d := by
  unfold vadd; rw [List.length_zipWith, hv, hw, min_self]

theorem vadd_getD {v w : List K} {d : Nat} (hv : v.length = d) (hw : w.length = d) (k : Nat) :
    (vadd v w).getD k 0 = v.getD k 0 + w.getD k 0 := by
  unfold vadd
  simp only [List.getD_eq_getElem?_getD, List.getElem?_zipWith]
  by_cases h : k < d
  · simp [List.getElem?_eq_getElem (show k < v.length by omega), List.getElem?_eq_getElem (show k < w.length by omega)]
  · simp [List.getElem?_eq_none (show v.length ≤ k by omega), List.getElem?_eq_none (show w.length ≤ k by omega)]

theorem foldl_vadd {α : Type} (X Y : α → List K) (d : Nat) : ∀ (l : List α) (w0 : List K), w0.length = d →
    (∀ p ∈ l, (X p).length = d ∧ (Y p).length = d) →
    (l.foldl (fun w p => vadd w (vadd (X p) (Y p))) w0).length = d ∧ ∀ k,
      (l.foldl (fun w p => vadd w (vadd (X p) (Y p))) w0).getD k 0 =
        w0.getD k 0 + (l.map (fun p => (X p).getD k 0 + (Y p).getD k 0)).sum
  | [], w0, h, _ => ⟨h, fun k => by simp⟩
  | p :: l, w0, h, hl => by
    obtain ⟨hx, hy⟩ := hl p (by simp)
    have h1 := vadd_length hx hy
    obtain ⟨r1, r2⟩ := foldl_vadd X Y d l (vadd w0 (vadd (X p) (Y p))) (vadd_length h h1)
      (fun q hq => hl q (List.mem_cons_of_mem _ hq))
    refine ⟨r1, fun k => ?_⟩
    rw [List.foldl_cons, r2, vadd_getD h h1, vadd_getD hx hy, List.map_cons, List.sum_cons, add_assoc]

end

section
variable {K : Type} [Field K] {n : Nat}

/-- Twice the spin along z, site by site. -/
def sgn (K : Type) [Field K] : Occ → K
  | .hole => 0
  | .down => -1
  | .up => 1

theorem sum_sgn (σ : Conf n) : (∑ a, sgn K (σ a)) = (σ.count .up : K) - (σ.count .down : K) := by
  have : ∀ a, sgn K (σ a) = (if σ a = .up then 1 else 0) - (if σ a = .down then 1 else 0) := by
    intro a
    cases σ a <;> simp [sgn]
  simp only [this, sum_sub_distrib, Conf.count, card_filter, Nat.cast_sum, Nat.cast_ite, Nat.cast_one, Nat.cast_zero]

theorem sum_sgn_sq (σ : Conf n) : (∑ a, sgn K (σ a) * sgn K (σ a)) = (σ.electrons : K) := by
  have : ∀ a, sgn K (σ a) * sgn K (σ a) = (if σ a = .down then 1 else 0) + (if σ a = .up then 1 else 0) := by
    intro a
    cases σ a <;> simp [sgn]
  simp only [this, sum_add_distrib, Conf.electrons, Conf.count, card_filter, Nat.cast_sum, Nat.cast_add, Nat.cast_ite, Nat.cast_one, Nat.cast_zero]

theorem two_sum_lt (g : Fin n → Fin n → K) (hg : ∀ a b, g a b = g b a) :
    2 * (∑ a, ∑ b, if a < b then g a b else 0) = (∑ a, ∑ b, g a b) - ∑ a, g a a := by
  have h1 : (∑ a, ∑ b, g a b) = (∑ a, ∑ b, if a < b then g a b else 0) + (∑ a, ∑ b, if b < a then g a b else 0) +
      ∑ a, ∑ b, if a = b then g a b else 0 := by
    simp only [← sum_add_distrib]
    refine sum_congr rfl fun a _ => sum_congr rfl fun b _ => ?_
    rcases lt_trichotomy a b with h | h | h
    · simp [h, h.ne, not_lt.2 h.le]
    · simp [h]
    · simp [h, h.ne', not_lt.2 h.le]
  have h2 : (∑ a, ∑ b, if b < a then g a b else 0) = ∑ a, ∑ b, if a < b then g a b else 0 := by
    rw [sum_comm]
    exact sum_congr rfl fun a _ => sum_congr rfl fun b _ => by rw [hg]
  have h3 : (∑ a, ∑ b, if a = b then g a b else 0) = ∑ a, g a a := by simp
  rw [h1, h2, h3]; ring

/-- The total spin with the diagonal part collected. -/
theorem spin2_eq (h2 : (2 : K) ≠ 0) (φ : Conf n → K) (σ : Conf n) :
    spin2 φ σ = ((σ.electrons : K) / 2 + ((σ.count .up : K) - (σ.count .down : K)) ^ 2 / 4) * φ σ +
      ∑ a, ∑ b, if a < b ∧ σ a ≠ .hole ∧ σ b ≠ .hole ∧ σ a ≠ σ b then φ (exch σ a b) else 0 := by
  have hd : (∑ a, ∑ b, if a < b then sgn K (σ a) * sgn K (σ b) else 0) =
      (((σ.count .up : K) - (σ.count .down : K)) ^ 2 - (σ.electrons : K)) / 2 := by
    have := two_sum_lt (fun a b => sgn K (σ a) * sgn K (σ b)) (fun a b => mul_comm _ _)
    rw [sum_sgn_sq, ← sum_mul_sum, sum_sgn] at this
    rw [eq_div_iff h2, mul_comm, this]; ring
  have hterm : ∀ a b : Fin n, (if a < b ∧ σ a ≠ .hole ∧ σ b ≠ .hole then φ (exch σ a b) - φ σ / 2 else 0) =
      (if a < b then sgn K (σ a) * sgn K (σ b) else 0) * (φ σ / 2) +
      (if a < b ∧ σ a ≠ .hole ∧ σ b ≠ .hole ∧ σ a ≠ σ b then φ (exch σ a b) else 0) := by
    intro a b
    by_cases hab : a < b
    · by_cases he : σ a = σ b
      · have hex : exch σ a b = σ := by
          funext s
          unfold exch
          rw [Equiv.swap_apply_def]
          split_ifs with h1 h2
          · rw [h1, he]
          · rw [h2, he]
          · rfl
        rw [hex, ← he]
        have h12 : φ σ - φ σ / 2 = φ σ / 2 := by field_simp; norm_num
        cases h : σ a <;> simp [hab, sgn, h12]
      · cases h : σ a <;> cases h' : σ b <;> simp_all [sgn] <;> ring
    · simp [hab]
  unfold spin2
  rw [sum_congr rfl fun a _ => sum_congr rfl fun b _ => hterm a b]
  simp only [sum_add_distrib, ← sum_mul]
  rw [hd]
  have h4 : (4 : K) = 2 * 2 := by norm_num
  rw [h4]
  field_simp
  ring

theorem computeS2_of_swaps (h2 : (2 : K) ≠ 0) (S : SetSem) (ho : SwapsRight S c) (hn : c.nholes + c.nbeta ≤ c.nsites)
    (hb : constructBasis c = .ok dets) (v : List K) (hv : v.length = dets.length) :
    ∃ w, computeS2 S c v = .ok w ∧ w.length = dets.length ∧ ∀ k (hk : k < dets.length),
      w.getD k 0 = spin2 (amp c dets v) (conf c dets[k]) := by
  have hx : ∀ p m : Nat, ∃ w : List K, ∀ (hp : p < c.nsites) (hm : m < c.nsites), sPlusSMinus S c v p m = .ok w ∧ w.length = dets.length ∧
      ∀ k (hk : k < dets.length), w.getD k 0 = if conf c dets[k] ⟨p, hp⟩ = .up ∧ conf c dets[k] ⟨m, hm⟩ = .down then
        amp c dets v (exch (conf c dets[k]) ⟨p, hp⟩ ⟨m, hm⟩) else 0 := by
    intro p m
    by_cases h : p < c.nsites ∧ m < c.nsites
    · obtain ⟨w, h1, h2, h3⟩ := sPlusSMinus_of_swaps S ho hn hb v hv ⟨p, h.1⟩ ⟨m, h.2⟩
      exact ⟨w, fun _ _ => ⟨h1, h2, h3⟩⟩
    · exact ⟨[], fun hp hm => absurd ⟨hp, hm⟩ h⟩
  choose X hX using hx
  have hfold : computeS2 S c v = .ok ((sitePairs c.nsites).foldl (fun w p => vadd w (vadd (X p.1 p.2) (X p.2 p.1)))
      (v.map (fun x => s2Diag K c * x))) := by
    unfold computeS2
    refine foldlM_ok_of (fun _ => True) _ _ trivial ?_
    intro w p _ hp
    have hp := mem_sitePairs.1 hp
    have hp1 : p.1 < c.nsites := by omega
    exact ⟨bind_ok (hX p.1 p.2 hp1 hp.2).1 (bind_ok (hX p.2 p.1 hp.2 hp1).1 rfl), trivial⟩
  obtain ⟨g1, g2⟩ := foldl_vadd (fun p : Nat × Nat => X p.1 p.2) (fun p => X p.2 p.1) dets.length (sitePairs c.nsites)
    (v.map (fun x => s2Diag K c * x)) (by rw [List.length_map, hv]) (by
      intro p hp
      have hp := mem_sitePairs.1 hp
      have hp1 : p.1 < c.nsites := by omega
      exact ⟨(hX p.1 p.2 hp1 hp.2).2.1, (hX p.2 p.1 hp.2 hp1).2.1⟩)
  refine ⟨_, hfold, g1, ?_⟩
  intro k hk
  rw [g2 k, sum_sitePairs c.nsites (fun a b => (X a b).getD k 0 + (X b a).getD k 0), spin2_eq h2, amp_conf hb v hk]
  have hval := (canonical_getElem hb k hk).1
  congr 1
  · have hd : (v.map (fun x => s2Diag K c * x)).getD k 0 = s2Diag K c * v.getD k 0 := by
      simp [List.getD_eq_getElem?_getD, List.getElem?_eq_getElem (show k < v.length by omega)]
    rw [hd]
    congr 1
    have u1 : ((conf c dets[k]).count .up : K) = (c.nalpha : K) := by
      rw [← count_conf_up hn hval, Int.cast_natCast]
    unfold s2Diag Conf.electrons
    rw [Nat.cast_add, u1, count_conf_down hn hval]
    have h4 : (4 : K) = 2 * 2 := by norm_num
    rw [h4]
    field_simp
    ring
  · refine sum_congr rfl fun a _ => sum_congr rfl fun b _ => ?_
    by_cases hab : a < b
    · rw [if_pos hab, (hX a b a.2 b.2).2.2 k hk, (hX b a b.2 a.2).2.2 k hk]
      simp only [Fin.eta]
      rw [exch_comm _ b a]
      cases h : conf c dets[k] a <;> cases h' : conf c dets[k] b <;> simp [hab]
    · rw [if_neg hab, if_neg (fun g => hab g.1)]

theorem computeS2_spec (h2 : (2 : K) ≠ 0) (S : SetSem) (hf : c.Full) (ho : HolesInOrder S c) (hn : c.nholes + c.nbeta ≤ c.nsites)
    (hb : constructBasis c = .ok dets) (v : List K) (hv : v.length = dets.length) :
    ∃ w, computeS2 S c v = .ok w ∧ w.length = dets.length ∧ ∀ k (hk : k < dets.length),
      w.getD k 0 = spin2 (amp c dets v) (conf c dets[k]) :=
  computeS2_of_swaps h2 S (swapsRight_of_order S hf ho hn) hn hb v hv

/-- With parallel spins there is nothing to exchange. -/
theorem swapsRight_parallel (S : SetSem) (hf : c.Full) (hn : c.nholes + c.nbeta ≤ c.nsites) (h : c.nalpha = 0 ∨ c.nbeta = 0) :
    SwapsRight S c := by
  intro det hc p m hp hm
  have hno : ¬ (occC c det p = .down ∧ occC c det m = .up) := by
    rintro ⟨q1, q2⟩
    have d0 := count_conf_down hn hc.1
    have u0 := count_conf_up hn hc.1
    have r1 : 0 < (conf c det).count .down := card_pos.2 ⟨⟨p, hp⟩, mem_filter.2 ⟨mem_univ _, q1⟩⟩
    have r2 : 0 < (conf c det).count .up := card_pos.2 ⟨⟨m, hm⟩, mem_filter.2 ⟨mem_univ _, q2⟩⟩
    omega
  rw [if_neg hno]
  exact sPlusSMinusDet_none S hf hc hno

end

end

end TJ
