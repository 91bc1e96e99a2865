/-
`get_target_hash`: the loop enumerates combinations in lexicographic order.
-/
import Verif.Lemmas.Basis

namespace TJ

theorem sublist_range_iff {n : Nat} {xs : List Nat} :
    xs.Sublist (List.range n) ↔ xs.Pairwise (· < ·) ∧ ∀ x ∈ xs, x < n := by
  constructor
  · intro h
    exact ⟨List.pairwise_lt_range.sublist h, fun x hx => List.mem_range.1 (h.subset hx)⟩
  · rintro ⟨h1, h2⟩
    have : (List.range n).filter (fun y => y ∈ xs) = xs := by
      apply sorted_perm_eq _ (List.pairwise_lt_range.filter _) h1
      refine (List.perm_ext_iff_of_nodup (List.nodup_range.filter _) (h1.imp (fun h => Nat.ne_of_lt h))).2 ?_
      intro a
      simp only [List.mem_filter, List.mem_range, decide_eq_true_eq]
      exact ⟨fun h => h.2, fun h => ⟨h2 a h, h⟩⟩
    rw [← this]
    exact List.filter_sublist

/-- Start of the range available after the prefix `pre`. -/
def nxt : Nat → List Nat → Nat
  | a, [] => a
  | _, x :: pre => nxt (x + 1) pre

theorem rankFrom_prefix {m a t : Nat} {pre r r' : List Nat} (hl : r.length = r'.length)
    (h : rankFrom m (nxt a pre) r' = rankFrom m (nxt a pre) r + t) :
    rankFrom m a (pre ++ r') = rankFrom m a (pre ++ r) + t := by
  induction pre generalizing a with
  | nil => exact h
  | cons x pre ih =>
    simp only [List.cons_append, rankFrom, List.length_append, hl]
    have := ih (a := x + 1) h
    omega

theorem nxt_le {a x : Nat} {pre : List Nat} (ha : a ≤ x) (h : ∀ y ∈ pre, y < x) : nxt a pre ≤ x := by
  induction pre generalizing a with
  | nil => exact ha
  | cons y pre ih =>
    exact ih (h y (by simp)) (fun z hz => h z (List.mem_cons_of_mem _ hz))

theorem rankFrom_single (m a x : Nat) : rankFrom m a [x] = x - a := by
  simp [rankFrom]

theorem rankFrom_consec (m a t : Nat) : rankFrom m a (List.range' a t) = 0 := by
  induction t generalizing a with
  | zero => rfl
  | succ t ih =>
    rw [List.range'_succ]
    simp [rankFrom, ih]

theorem rankFrom_max (d t a : Nat) :
    rankFrom (a + d + t) a (List.range' (a + d) t) + 1 = (d + t).choose t := by
  induction d generalizing a with
  | zero => simp [rankFrom_consec]
  | succ d ih =>
    cases t with
    | zero => simp [rankFrom]
    | succ t =>
      have := ih (a + 1)
      rw [List.range'_succ] at this ⊢
      rw [rankFrom_cons_eq _ _ _ _ (by omega), List.length_range']
      have e1 : a + (d + 1) + (t + 1) = a + 1 + d + (t + 1) := by omega
      have e2 : a + (d + 1) = a + 1 + d := by omega
      rw [e1, e2]
      have e3 : a + 1 + d + (t + 1) - 1 - a = d + (t + 1) := by omega
      rw [e3]
      have e4 : d + 1 + (t + 1) = (d + (t + 1)) + 1 := by omega
      rw [e4, Nat.choose_succ_succ, Nat.succ_eq_add_one]
      omega

theorem rankFrom_succ {m a x t : Nat} (ha : a ≤ x) (hx : x + 1 + t ≤ m) :
    rankFrom m a ((x + 1) :: List.range' (x + 2) t) = rankFrom m a (x :: List.range' (m - t) t) + 1 := by
  simp only [rankFrom, List.length_range', rankFrom_consec, Nat.add_zero]
  have h := rankFrom_max (m - (x + 1) - t) t (x + 1)
  have e1 : x + 1 + (m - (x + 1) - t) + t = m := by omega
  have e2 : x + 1 + (m - (x + 1) - t) = m - t := by omega
  have e3 : m - (x + 1) - t + t = m - 1 - x := by omega
  rw [e1, e2, e3] at h
  obtain ⟨d, rfl⟩ : ∃ d, x = a + d := ⟨x - a, by omega⟩
  have e4 : a + d + 1 - a = d + 1 := by omega
  have e5 : a + d - a = d := by omega
  rw [e4, e5, List.range'_concat, List.map_append, List.sum_append]
  simp only [List.map_cons, List.map_nil, List.sum_cons, List.sum_nil, Nat.one_mul]
  omega

theorem findRank_spec {n : Nat} {l : List Nat} (hb : ∀ x ∈ l, x < n) :
    ∀ p, p ≤ l.length → l.drop p = List.range' (n - (l.length - p)) (l.length - p) →
      l.length - p ≤ n →
      (findRank n l p = .error .indexError ∧ l = List.range' (n - l.length) l.length ∧ l.length ≤ n) ∨
      ∃ q x, findRank n l p = .ok q ∧ q < p ∧ l[q]? = some x ∧
        l.drop (q + 1) = List.range' (n - (l.length - (q + 1))) (l.length - (q + 1)) ∧
        x + (l.length - q) ≠ n := by
  intro p
  induction p with
  | zero =>
    intro _ hd hn
    left
    refine ⟨rfl, ?_, by simpa using hn⟩
    simpa using hd
  | succ p ih =>
    intro hp hd hn
    have hlt : p < l.length := by omega
    have hx : l[p]? = some l[p] := List.getElem?_eq_getElem hlt
    have hxn : l[p] < n := hb _ (List.getElem_mem _)
    simp only [findRank, hx]
    by_cases hc : (n : Int) + ((p : Int) - l.length) - (l[p] : Nat) = 0
    · rw [if_pos hc]
      have hd' : l.drop p = List.range' (n - (l.length - p)) (l.length - p) := by
        rw [List.drop_eq_getElem_cons hlt, hd]
        have e : l.length - p = (l.length - (p + 1)) + 1 := by omega
        rw [e, List.range'_succ]
        congr 1
        · omega
        · congr 1; omega
      rcases ih (by omega) hd' (by omega) with h | ⟨q, x, h1, h2, h3⟩
      · exact Or.inl h
      · exact Or.inr ⟨q, x, h1, by omega, h3⟩
    · rw [if_neg hc]
      right
      exact ⟨p, l[p], rfl, by omega, hx, hd, by omega⟩

theorem fillAfter_aux (rest : List Nat) : ∀ (pre : List Nat) (y : Nat),
    (List.range' (pre.length + 1) rest.length).foldl (fun l j => l.set j (l.getD (j - 1) 0 + 1)) (pre ++ y :: rest)
      = pre ++ List.range' y (rest.length + 1) := by
  induction rest with
  | nil => intro pre y; simp
  | cons z rest ih =>
    intro pre y
    rw [List.length_cons, List.range'_succ, List.foldl_cons]
    have e1 : (pre ++ y :: z :: rest).getD (pre.length + 1 - 1) 0 = y := by
      simp [List.getD_eq_getElem?_getD]
    have e2 : (pre ++ y :: z :: rest).set (pre.length + 1) (y + 1) = (pre ++ [y]) ++ (y + 1) :: rest := by
      rw [List.set_append_right _ _ (by omega)]
      simp
    rw [e1, e2]
    have := ih (pre ++ [y]) (y + 1)
    rw [List.length_append, List.length_singleton] at this
    rw [this, List.range'_succ (s := y)]
    simp

theorem fillAfter_eq {l : List Nat} {q y : Nat} (hq : q < l.length) :
    fillAfter (l.set q y) q = l.take q ++ List.range' y (l.length - q) := by
  have e : l.set q y = l.take q ++ y :: l.drop (q + 1) := List.set_eq_take_append_cons_drop .. |>.trans (by simp [hq])
  unfold fillAfter
  have hlen : (l.take q).length = q := by rw [List.length_take]; omega
  have := fillAfter_aux (l.drop (q + 1)) (l.take q) y
  rw [hlen, List.length_drop] at this
  rw [List.length_set, e, this]
  congr 2
  omega

/-- The answer of `get_target_hash` for the rank `r`. -/
def nthComb (n k r : Nat) : Py (List Nat) :=
  match (combinations (List.range n) k)[r]? with
  | some x => .ok x
  | none => .error .indexError

theorem nthComb_rank {n : Nat} {xs : List Nat} (h : xs.Sublist (List.range n)) {k r : Nat} (hk : xs.length = k)
    (hr : rankFrom n 0 xs = r) : nthComb n k r = .ok xs := by
  subst hk; subst hr
  rw [nthComb, getElem?_rank n xs h]

theorem targetLoop_eq (n k : Nat) : ∀ (fuel ind : Nat) (l : List Nat), ind ≤ fuel → l.Sublist (List.range n) →
    l.length = k → 0 < k → targetLoop n fuel ind l = nthComb n k (rankFrom n 0 l + ind) := by
  intro fuel
  induction fuel with
  | zero =>
    intro ind l hi hs hk hpos
    obtain rfl : ind = 0 := by omega
    rw [targetLoop, Nat.add_zero, nthComb_rank hs hk rfl]
  | succ fuel ih =>
    intro ind l hi hs hk hpos
    cases ind with
    | zero => rw [targetLoop, Nat.add_zero, nthComb_rank hs hk rfl]
    | succ ind =>
      simp only [targetLoop]
      obtain ⟨hsort, hlt⟩ := sublist_range_iff.1 hs
      have hne : l ≠ [] := by intro h; simp [h] at hk; omega
      obtain ⟨pre, x, rfl⟩ : ∃ pre x, l = pre ++ [x] := ⟨l.dropLast, l.getLast hne, (List.dropLast_append_getLast hne).symm⟩
      have hlast : (pre ++ [x]).length - 1 = pre.length := by simp
      have hx : (pre ++ [x]).getD pre.length 0 = x := by simp [List.getD_eq_getElem?_getD]
      have hset : ∀ y, (pre ++ [x]).set pre.length y = pre ++ [y] := by
        intro y; rw [List.set_append_right _ _ (by omega)]; simp
      have hxn : x < n := hlt x (by simp)
      have hpre : ∀ y ∈ pre, y < x := by
        intro y hy
        rw [List.pairwise_append] at hsort
        exact hsort.2.2 y hy x (by simp)
      have hpsort : pre.Pairwise (· < ·) := (List.pairwise_append.1 hsort).1
      have hnew : ∀ y, x ≤ y → y < n → (pre ++ [y]).Sublist (List.range n) := by
        intro y h1 h2
        rw [sublist_range_iff]
        constructor
        · rw [List.pairwise_append]
          refine ⟨hpsort, by simp, ?_⟩
          intro z hz w hw
          have := hpre z hz
          simp at hw
          omega
        · intro z hz
          rw [List.mem_append] at hz
          rcases hz with hz | hz
          · have := hpre z hz; omega
          · simp at hz; omega
      have hrank : ∀ t, rankFrom n 0 (pre ++ [x + t]) = rankFrom n 0 (pre ++ [x]) + t := by
        intro t
        apply rankFrom_prefix (by simp)
        rw [rankFrom_single, rankFrom_single]
        have := nxt_le (Nat.zero_le x) hpre
        omega
      rw [hlast, hx, hset, hset]
      by_cases hrest : (n : Int) - 1 - (x : Nat) > 0
      · rw [if_pos hrest]
        by_cases hle : ((ind + 1 : Nat) : Int) ≤ (n : Int) - 1 - (x : Nat)
        · rw [if_pos hle]
          exact (nthComb_rank (hnew (x + (ind + 1)) (by omega) (by omega)) (by simpa using hk) (hrank _)).symm
        · rw [if_neg hle]
          have ht : ((n : Int) - 1 - (x : Nat)).toNat = n - 1 - x := by omega
          rw [ht, ih _ _ (by omega) (hnew (n - 1) (by omega) (by omega)) (by simpa using hk) hpos]
          have e : n - 1 = x + (n - 1 - x) := by omega
          have := hrank (n - 1 - x)
          rw [← e] at this
          rw [this]
          congr 1
          omega
      · rw [if_neg hrest]
        rcases findRank_spec hlt (pre ++ [x]).length (Nat.le_refl _) (by simp) (by simp) with ⟨h1, h2, h3⟩ | ⟨q, y, h1, h2, h3, h4, h5⟩
        · rw [h1]
          have hm := rankFrom_max (n - (pre ++ [x]).length) (pre ++ [x]).length 0
          have e : 0 + (n - (pre ++ [x]).length) + (pre ++ [x]).length = n := by omega
          have e' : n - (pre ++ [x]).length + (pre ++ [x]).length = n := by omega
          rw [e, Nat.zero_add, ← h2, e', hk] at hm
          simp only [nthComb]
          rw [List.getElem?_eq_none (by rw [length_combinations, List.length_range]; omega)]
        · rw [h1]
          generalize hL : pre ++ [x] = L at *
          have hd : L.getD q 0 = y := by simp [List.getD_eq_getElem?_getD, h3]
          simp only [hd]
          rw [fillAfter_eq h2]
          have hyl : L[q] = y := by
            rw [List.getElem?_eq_getElem h2] at h3; simpa using h3
          have hsplit : L = L.take q ++ y :: List.range' (n - (L.length - (q + 1))) (L.length - (q + 1)) := by
            rw [← h4, ← hyl, ← List.drop_eq_getElem_cons h2, List.take_append_drop]
          have hbound : y + (L.length - q) ≤ n := by
            rcases Nat.eq_zero_or_pos (L.length - (q + 1)) with hz | hz
            · have := hlt y (hyl ▸ List.getElem_mem _)
              omega
            · have h6 : n - (L.length - (q + 1)) ∈ L.drop (q + 1) := by
                rw [h4, List.mem_range'_1]; omega
              rw [hsplit] at hsort
              have h7 := (List.pairwise_cons.1 (List.pairwise_append.1 hsort).2.1).1 (n - (L.length - (q + 1)))
                (by rw [List.mem_range'_1]; omega)
              have h8 := hlt _ (List.mem_of_mem_drop h6)
              by_contra hcon
              omega
          have hpre' : ∀ z ∈ L.take q, z < y := by
            intro z hz
            rw [hsplit] at hsort
            exact (List.pairwise_append.1 hsort).2.2 z hz y (by simp)
          have hnewsub : (L.take q ++ List.range' (y + 1) (L.length - q)).Sublist (List.range n) := by
            rw [sublist_range_iff]
            constructor
            · rw [List.pairwise_append]
              refine ⟨hsort.sublist (List.take_sublist _ _), List.pairwise_lt_range', ?_⟩
              intro z hz w hw
              have := hpre' z hz
              rw [List.mem_range'_1] at hw
              omega
            · intro z hz
              rw [List.mem_append] at hz
              rcases hz with hz | hz
              · exact hlt z (List.mem_of_mem_take hz)
              · rw [List.mem_range'_1] at hz; omega
          rw [Nat.succ_sub_one, ih _ _ (by omega) hnewsub (by simp only [List.length_append, List.length_take, List.length_range']; omega) hpos]
          congr 1
          have e : L.length - q = (L.length - (q + 1)) + 1 := by omega
          have : rankFrom n 0 (L.take q ++ List.range' (y + 1) (L.length - q)) = rankFrom n 0 L + 1 := by
            conv_rhs => rw [hsplit]
            rw [e, List.range'_succ]
            apply rankFrom_prefix (by simp)
            apply rankFrom_succ (nxt_le (Nat.zero_le _) hpre') (by omega)
          omega

theorem getTargetHash_eq {n k ind : Nat} (hk : k ≤ n) (hpos : 0 < k) : getTargetHash n k ind = nthComb n k ind := by
  unfold getTargetHash
  simp only [show k ≠ 0 by omega, ne_eq, not_false_eq_true, if_true]
  rw [targetLoop_eq n k ind ind (List.range k) (Nat.le_refl _)
    (sublist_range_iff.2 ⟨List.pairwise_lt_range, fun x hx => by rw [List.mem_range] at hx; omega⟩) (by simp) hpos]
  rw [List.range_eq_range', rankFrom_consec, Nat.zero_add]

theorem getTargetHash_zero (n ind : Nat) : getTargetHash n 0 ind = .ok [] := by
  simp [getTargetHash]

theorem getTargetHash_ok {n k ind : Nat} (hk : k ≤ n) (hi : ind < n.choose k) :
    ∃ x, (combinations (List.range n) k)[ind]? = some x ∧ getTargetHash n k ind = .ok x := by
  have hlt : ind < (combinations (List.range n) k).length := by rw [length_combinations, List.length_range]; exact hi
  refine ⟨_, List.getElem?_eq_getElem hlt, ?_⟩
  rcases Nat.eq_zero_or_pos k with rfl | hpos
  · rw [getTargetHash_zero]
    simp only [Nat.choose_zero_right, Nat.lt_one_iff] at hi
    subst hi
    simp [combinations]
  · rw [getTargetHash_eq hk hpos, nthComb, List.getElem?_eq_getElem hlt]

theorem fusionHash_eq (hs bs : List Nat) : fusionHash hs bs = hs ++ bs.map (fuse hs) := rfl

theorem getHashBasis_eq {h a b i : Nat} (hi : i < (basisList (h + a + b) h b).length) :
    ∃ d, (basisList (h + a + b) h b)[i]? = some d ∧ getHashBasis h a b i = .ok d := by
  refine ⟨_, List.getElem?_eq_getElem hi, ?_⟩
  have hlen := hi
  rw [length_basisList, show h + a + b - h = a + b by omega] at hlen
  have hm : 0 < (a + b).choose b := Nat.choose_pos (by omega)
  unfold getHashBasis
  have e1 : ((h + a + b : Nat) : Int) - (h : Nat) = ((a + b : Nat) : Int) := by omega
  simp only [e1, pyComb_nat]
  rw [if_neg (by omega)]
  obtain ⟨hs, hh1, hh2⟩ := getTargetHash_ok (n := h + a + b) (k := h) (ind := i / (a + b).choose b) (by omega)
    (by rw [Nat.div_lt_iff_lt_mul hm]; exact hlen)
  obtain ⟨bl, hb1, hb2⟩ := getTargetHash_ok (n := a + b) (k := b) (ind := i % (a + b).choose b) (by omega)
    (Nat.mod_lt _ hm)
  have e2 : h + a + b - h = a + b := by omega
  rw [e2, hh2, hb2]
  obtain ⟨hsub, hsl⟩ := mem_combinations.1 (List.mem_of_getElem? hh1)
  obtain ⟨bsub, bsl⟩ := mem_combinations.1 (List.mem_of_getElem? hb1)
  have hsort : hs.Pairwise (· < ·) := List.pairwise_lt_range.sublist hsub
  have hfree := freeOf_eq_map_fuse hsub
  rw [hsl, e2] at hfree
  have hbs : (bl.map (fuse hs)).Sublist (freeOf (h + a + b) hs) := by
    rw [hfree]; exact bsub.map _
  have hcomb : (combinations (freeOf (h + a + b) hs) b)[i % (a + b).choose b]? = some (bl.map (fuse hs)) := by
    rw [hfree, combinations_map, List.getElem?_map, hb1]; rfl
  have hbl : (basisList (h + a + b) h b)[i]? =
      some (hs ++ bl.map (fuse hs) ++ (freeOf (h + a + b) hs).filter (fun y => y ∉ bl.map (fuse hs))) := by
    have := getElem?_flatMap_const (f := basisBlock (h + a + b) b) (m := (a + b).choose b)
      (fun x hx => by rw [length_basisBlock hx, e2]) hh1 (Nat.mod_lt i hm)
    rw [Nat.div_add_mod'] at this
    rw [basisList, this, basisBlock, List.getElem?_map, hcomb]
    rfl
  rw [List.getElem?_eq_getElem hi] at hbl
  rw [Option.some.inj hbl]
  have hnd : (hs ++ bl.map (fuse hs)).Nodup := by
    rw [List.nodup_append]
    refine ⟨hsort.imp (fun h => Nat.ne_of_lt h), (freeOf_nodup _ _).sublist hbs, ?_⟩
    intro x hx y hy hxy
    subst hxy
    have := hbs.subset hy
    simp only [freeOf, List.mem_filter, decide_eq_true_eq] at this
    exact this.2 hx
  show (removeAll (List.range (h + a + b)) (hs ++ bl.map (fuse hs)) >>= fun listA =>
    pure (hs ++ bl.map (fuse hs) ++ listA)) = _
  rw [removeAll_eq List.nodup_range hnd]
  · show Except.ok _ = Except.ok _
    congr 2
    rw [freeOf, List.filter_filter]
    apply List.filter_congr
    intro y _
    by_cases h1 : y ∈ hs <;> by_cases h2 : y ∈ bl.map (fuse hs) <;> simp [h1, h2, List.mem_append]
  · intro x hx
    rw [List.mem_append] at hx
    rcases hx with hx | hx
    · exact hsub.subset hx
    · have := hbs.subset hx
      exact (List.mem_filter.1 this).1

end TJ
