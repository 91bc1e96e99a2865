/-
`construct_basis` as a pure list, its members, length, order and ranking.
-/
import Verif.Lemmas.Comb
import Verif.Lemmas.Occ

namespace TJ

theorem mapM_ok {α β : Type} {f : α → Py β} {g : α → β} {l : List α} (h : ∀ x ∈ l, f x = .ok (g x)) :
    l.mapM f = .ok (l.map g) := by
  induction l with
  | nil => rfl
  | cons a l ih =>
    rw [List.mapM_cons, h a (by simp), ih (fun x hx => h x (List.mem_cons_of_mem _ hx))]
    rfl

theorem removeAll_eq {l xs : List Nat} (hl : l.Nodup) (hx : xs.Nodup) (hs : ∀ x ∈ xs, x ∈ l) :
    removeAll l xs = .ok (l.filter (fun y => y ∉ xs)) := by
  induction xs generalizing l with
  | nil => simp [removeAll]; rfl
  | cons x xs ih =>
    rw [List.nodup_cons] at hx
    have : removeAll l (x :: xs) = removeAll (l.erase x) xs := by
      simp [removeAll, pyRemove, hs x (by simp)]; rfl
    rw [this, ih (hl.erase x) hx.2]
    · congr 1
      rw [hl.erase_eq_filter, List.filter_filter]
      apply List.filter_congr
      intro y _
      by_cases h1 : y = x <;> simp [h1]
    · intro y hy
      rw [hl.mem_erase_iff]
      exact ⟨fun h => hx.1 (h ▸ hy), hs y (List.mem_cons_of_mem _ hy)⟩

/-- Sites not in `hs`, increasing. -/
def freeOf (n : Nat) (hs : List Nat) : List Nat := (List.range n).filter (fun y => y ∉ hs)

/-- The determinants for one placement of the holes. -/
def basisBlock (n b : Nat) (hs : List Nat) : List (List Nat) :=
  (combinations (freeOf n hs) b).map (fun bs => hs ++ bs ++ (freeOf n hs).filter (fun y => y ∉ bs))

/-- The list of determinants built by `construct_basis`. -/
def basisList (n h b : Nat) : List (List Nat) :=
  (combinations (List.range n) h).flatMap (basisBlock n b)

theorem freeOf_nodup (n : Nat) (hs : List Nat) : (freeOf n hs).Nodup := List.nodup_range.filter _

theorem freeOf_sorted (n : Nat) (hs : List Nat) : (freeOf n hs).Pairwise (· < ·) :=
  List.pairwise_lt_range.filter _

theorem length_freeOf {n : Nat} {hs : List Nat} (h : hs.Sublist (List.range n)) :
    (freeOf n hs).length = n - hs.length := by
  have hp : (hs ++ freeOf n hs).Perm (List.range n) := by
    refine (List.perm_ext_iff_of_nodup ?_ List.nodup_range).2 ?_
    · rw [List.nodup_append]
      refine ⟨List.nodup_range.sublist h, freeOf_nodup _ _, ?_⟩
      intro a ha b hb hab
      subst hab
      simp [freeOf] at hb
      exact hb.2 ha
    · intro a
      simp only [List.mem_append, freeOf, List.mem_filter, decide_eq_true_eq]
      constructor
      · rintro (h' | h')
        · exact h.subset h'
        · exact h'.1
      · intro h'
        by_cases h'' : a ∈ hs
        · exact Or.inl h''
        · exact Or.inr ⟨h', h''⟩
  have := hp.length_eq
  simp at this
  omega

theorem filter_mem_sublist {l xs : List Nat} (hl : l.Pairwise (· < ·)) (h : xs.Sublist l) :
    l.filter (fun y => y ∈ xs) = xs := by
  have hnd : l.Nodup := hl.imp (fun h => Nat.ne_of_lt h)
  apply sorted_perm_eq _ (hl.filter _) (hl.sublist h)
  refine (List.perm_ext_iff_of_nodup (hnd.filter _) (hnd.sublist h)).2 ?_
  intro a
  simp only [List.mem_filter, decide_eq_true_eq]
  exact ⟨fun h => h.2, fun h' => ⟨h.subset h', h'⟩⟩

theorem constructBasisInt_eq (n h b : Nat) : constructBasisInt n h b = .ok (basisList n h b) := by
  unfold constructBasisInt
  rw [if_neg (by omega : ¬ ((h : Int) < 0))]
  have hcomb : ∀ (l : List Nat) (k : Nat), pyCombinations l k = .ok (combinations l k) := by
    intro l k
    unfold pyCombinations
    rw [if_neg (by omega : ¬ ((k : Int) < 0)), Int.toNat_natCast]
  simp only [hcomb]
  change ((combinations (List.range n) h).mapM (fun sitesHoles => do
      let sitesElectrons ← removeAll (List.range n) sitesHoles
      (combinations sitesElectrons b).mapM (fun sitesBeta => do
        let sitesAlpha ← removeAll sitesElectrons sitesBeta
        return sitesHoles ++ sitesBeta ++ sitesAlpha)) >>= fun p => (pure p.flatten : Py _)) = _
  have h1 : (combinations (List.range n) h).mapM (fun sitesHoles => do
      let sitesElectrons ← removeAll (List.range n) sitesHoles
      (combinations sitesElectrons b).mapM (fun sitesBeta => do
        let sitesAlpha ← removeAll sitesElectrons sitesBeta
        return sitesHoles ++ sitesBeta ++ sitesAlpha))
      = (.ok ((combinations (List.range n) h).map (basisBlock n b)) : Py _) := by
    apply mapM_ok
    intro hs hm
    obtain ⟨hsub, _⟩ := mem_combinations.1 hm
    rw [removeAll_eq List.nodup_range (List.nodup_range.sublist hsub) (fun x hx => hsub.subset hx)]
    show (combinations (freeOf n hs) b).mapM _ = _
    apply mapM_ok
    intro bs hm
    obtain ⟨hsub, _⟩ := mem_combinations.1 hm
    change (removeAll (freeOf n hs) bs >>= fun sitesAlpha => pure (hs ++ bs ++ sitesAlpha)) = _
    rw [removeAll_eq (freeOf_nodup _ _) ((freeOf_nodup _ _).sublist hsub) (fun x hx => hsub.subset hx)]
    rfl
  rw [h1]
  show Except.ok _ = _
  rw [basisList, List.flatMap_def]

theorem constructBasis_eq (c : Config) :
    constructBasis c = .ok (basisList c.nsites c.nholes c.nbeta) := constructBasisInt_eq _ _ _

theorem length_basisBlock {n h b : Nat} {hs : List Nat} (hm : hs ∈ combinations (List.range n) h) :
    (basisBlock n b hs).length = (n - h).choose b := by
  obtain ⟨hsub, hl⟩ := mem_combinations.1 hm
  rw [basisBlock, List.length_map, length_combinations, length_freeOf hsub, hl]

theorem length_flatMap_const {α β : Type*} {l : List α} {f : α → List β} {m : Nat}
    (h : ∀ a ∈ l, (f a).length = m) : (l.flatMap f).length = l.length * m := by
  induction l with
  | nil => simp
  | cons a l ih =>
    rw [List.flatMap_cons, List.length_append, h a (by simp), ih (fun x hx => h x (List.mem_cons_of_mem _ hx))]
    simp [Nat.add_mul]; omega

theorem getElem?_flatMap_const {α β : Type*} {l : List α} {f : α → List β} {m : Nat}
    (h : ∀ a ∈ l, (f a).length = m) {i j : Nat} {a : α} (hi : l[i]? = some a) (hj : j < m) :
    (l.flatMap f)[i * m + j]? = (f a)[j]? := by
  induction l generalizing i with
  | nil => simp at hi
  | cons x l ih =>
    rw [List.flatMap_cons]
    cases i with
    | zero =>
      simp at hi
      subst hi
      rw [Nat.zero_mul, Nat.zero_add, List.getElem?_append_left (by rw [h x (by simp)]; exact hj)]
    | succ i =>
      rw [List.getElem?_append_right (by rw [h x (by simp), Nat.succ_mul]; omega), h x (by simp)]
      have : (i + 1) * m + j - m = i * m + j := by rw [Nat.succ_mul]; omega
      rw [this]
      exact ih (fun y hy => h y (List.mem_cons_of_mem _ hy)) (by simpa using hi)

theorem length_basisList (n h b : Nat) : (basisList n h b).length = n.choose h * (n - h).choose b := by
  rw [basisList, length_flatMap_const (fun a ha => length_basisBlock ha), length_combinations, List.length_range]

theorem mem_basisList {n h b : Nat} {d : List Nat} :
    d ∈ basisList n h b ↔ ∃ σ, cnt n σ .hole = h ∧ cnt n σ .down = b ∧ d = detOf n σ := by
  simp only [basisList, basisBlock, List.mem_flatMap, List.mem_map]
  constructor
  · rintro ⟨hs, hm, bs, hb, rfl⟩
    obtain ⟨h1, h2⟩ := mem_combinations.1 hm
    obtain ⟨b1, b2⟩ := mem_combinations.1 hb
    have hdis : ∀ x ∈ bs, x ∉ hs := by
      intro x hx
      have := b1.subset hx
      simp [freeOf] at this
      exact this.2
    let σ : Nat → Occ := fun s => if s ∈ hs then .hole else if s ∈ bs then .down else .up
    have e1 : sitesOf n σ .hole = hs := by
      rw [← filter_mem_sublist List.pairwise_lt_range h1]
      apply List.filter_congr
      intro s _
      by_cases h : s ∈ hs
      · simp [σ, h]
      · by_cases h' : s ∈ bs <;> simp [σ, h, h']
    have e2 : sitesOf n σ .down = bs := by
      conv_rhs => rw [← filter_mem_sublist (freeOf_sorted n hs) b1]
      rw [freeOf, List.filter_filter]
      apply List.filter_congr
      intro s _
      by_cases h : s ∈ hs
      · have : s ∉ bs := fun h' => hdis s h' h
        simp [σ, h, this]
      · by_cases h' : s ∈ bs <;> simp [σ, h, h']
    have e3 : sitesOf n σ .up = (freeOf n hs).filter (fun y => y ∉ bs) := by
      rw [freeOf, List.filter_filter]
      apply List.filter_congr
      intro s _
      by_cases h : s ∈ hs
      · simp [σ, h]
      · by_cases h' : s ∈ bs <;> simp [σ, h, h']
    refine ⟨σ, ?_, ?_, ?_⟩
    · rw [← length_sitesOf, e1, h2]
    · rw [← length_sitesOf, e2, b2]
    · rw [detOf, e1, e2, e3]
  · rintro ⟨σ, h1, h2, rfl⟩
    have ed : sitesOf n σ .down = (freeOf n (sitesOf n σ .hole)).filter (fun s => σ s = .down) := by
      rw [freeOf, List.filter_filter, sitesOf]
      apply List.filter_congr
      intro s hs
      have hs' := List.mem_range.1 hs
      simp only [mem_sitesOf, hs', true_and]
      cases σ s <;> simp
    refine ⟨sitesOf n σ .hole, mem_combinations.2 ⟨List.filter_sublist, h1⟩, sitesOf n σ .down,
      mem_combinations.2 ⟨?_, h2⟩, ?_⟩
    · rw [ed]; exact List.filter_sublist
    · rw [detOf]
      congr 1
      rw [freeOf, List.filter_filter, sitesOf]
      apply List.filter_congr
      intro s hs
      have hs' := List.mem_range.1 hs
      simp only [mem_sitesOf, hs', true_and]
      cases h : σ s <;> simp [h, hs']

theorem mem_basisBlock_parts {n h b : Nat} {hs d : List Nat} (hl : hs.length = h)
    (hd : d ∈ basisBlock n b hs) : d.take h = hs := by
  obtain ⟨bs, _, rfl⟩ := List.mem_map.1 hd
  rw [List.append_assoc]
  exact List.take_left' hl

theorem pairwise_flatMap' {α β : Type*} {R : β → β → Prop} {l : List α} {f : α → List β} {Q : α → α → Prop}
    (hl : l.Pairwise Q) (h1 : ∀ a ∈ l, (f a).Pairwise R)
    (h2 : ∀ a ∈ l, ∀ a' ∈ l, Q a a' → ∀ x ∈ f a, ∀ y ∈ f a', R x y) : (l.flatMap f).Pairwise R := by
  induction l with
  | nil => simp
  | cons a l ih =>
    rw [List.pairwise_cons] at hl
    rw [List.flatMap_cons, List.pairwise_append]
    refine ⟨h1 a (by simp), ih hl.2 (fun x hx => h1 x (List.mem_cons_of_mem _ hx))
      (fun x hx y hy => h2 x (List.mem_cons_of_mem _ hx) y (List.mem_cons_of_mem _ hy)), ?_⟩
    intro x hx y hy
    obtain ⟨a', ha', hy'⟩ := List.mem_flatMap.1 hy
    exact h2 a (by simp) a' (List.mem_cons_of_mem _ ha') (hl.1 a' ha') x hx y hy'

theorem pairwise_basisList (n h b : Nat) : (basisList n h b).Pairwise (LexHB h b) := by
  apply pairwise_flatMap' (pairwise_lex_combinations List.pairwise_lt_range h)
  · intro hs hm
    obtain ⟨hsub, hl⟩ := mem_combinations.1 hm
    rw [basisBlock, List.pairwise_map]
    apply (pairwise_lex_combinations (freeOf_sorted n hs) b).imp_of_mem
    intro x y hx hy hxy
    obtain ⟨_, lx⟩ := mem_combinations.1 hx
    obtain ⟨_, ly⟩ := mem_combinations.1 hy
    have e : ∀ (u v : List Nat), u.length = b → ((hs ++ u ++ v).drop h).take b = u := by
      intro u v hu
      rw [List.append_assoc, List.drop_left' hl]
      exact List.take_left' hu
    right
    refine ⟨?_, ?_⟩
    · rw [List.append_assoc, List.append_assoc, List.take_left' hl, List.take_left' hl]
    · rw [e _ _ lx, e _ _ ly]; exact hxy
  · intro a ha a' ha' hq x hx y hy
    left
    rw [mem_basisBlock_parts (mem_combinations.1 ha).2 hx, mem_basisBlock_parts (mem_combinations.1 ha').2 hy]
    exact hq

theorem lex_irrefl (l : List Nat) : ¬ List.Lex (· < ·) l l := by
  induction l with
  | nil => intro h; cases h
  | cons a l ih =>
    intro h
    cases h with
    | cons h => exact ih h
    | rel h => exact Nat.lt_irrefl _ h

theorem nodup_basisList (n h b : Nat) : (basisList n h b).Nodup := by
  apply (pairwise_basisList n h b).imp
  intro x y hxy hEq
  subst hEq
  rcases hxy with h | h
  · exact lex_irrefl _ h
  · exact lex_irrefl _ h.2

/-! ### Ranking -/

/-- Number of elements of `hs` below or equal to `y`. -/
def countLe (hs : List Nat) (y : Nat) : Nat := (hs.map (fun h => if h ≤ y then 1 else 0)).sum

theorem countLe_cons (h : Nat) (hs : List Nat) (y : Nat) :
    countLe (h :: hs) y = (if h ≤ y then 1 else 0) + countLe hs y := by
  simp [countLe]

theorem countLe_le_length (hs : List Nat) (y : Nat) : countLe hs y ≤ hs.length := by
  induction hs with
  | nil => simp [countLe]
  | cons h hs ih => rw [countLe_cons, List.length_cons]; split <;> omega

theorem countLe_eq_zero {hs : List Nat} {y : Nat} (h : ∀ x ∈ hs, y < x) : countLe hs y = 0 := by
  induction hs with
  | nil => simp [countLe]
  | cons a hs ih =>
    rw [countLe_cons, ih (fun x hx => h x (List.mem_cons_of_mem _ hx))]
    have := h a (by simp)
    rw [if_neg (by omega)]

theorem countLe_eq_length {hs : List Nat} {y : Nat} (h : ∀ x ∈ hs, x ≤ y) : countLe hs y = hs.length := by
  induction hs with
  | nil => simp [countLe]
  | cons a hs ih =>
    rw [countLe_cons, ih (fun x hx => h x (List.mem_cons_of_mem _ hx)), if_pos (h a (by simp)), List.length_cons]
    omega

/-- The shift of `fusion_hash`. -/
def fuse (hs : List Nat) (b : Nat) : Nat := hs.foldl (fun b h => b + (if h ≤ b then 1 else 0)) b

theorem fuse_of_lt {hs : List Nat} {b : Nat} (h : ∀ x ∈ hs, b < x) : fuse hs b = b := by
  induction hs with
  | nil => rfl
  | cons a hs ih =>
    have : ¬ a ≤ b := by have := h a (by simp); omega
    simp only [fuse, List.foldl_cons, this, if_false, Nat.add_zero]
    exact ih (fun x hx => h x (List.mem_cons_of_mem _ hx))

theorem le_fuse (hs : List Nat) (b : Nat) : b ≤ fuse hs b := by
  induction hs generalizing b with
  | nil => exact Nat.le_refl b
  | cons a hs ih =>
    simp only [fuse, List.foldl_cons]
    exact Nat.le_trans (by omega) (ih _)

theorem fuse_spec {hs : List Nat} (hsort : hs.Pairwise (· < ·)) (b : Nat) :
    fuse hs b = b + countLe hs (fuse hs b) ∧ fuse hs b ∉ hs := by
  induction hs generalizing b with
  | nil => simp [fuse, countLe]
  | cons a hs ih =>
    rw [List.pairwise_cons] at hsort
    by_cases hab : a ≤ b
    · have e : fuse (a :: hs) b = fuse hs (b + 1) := by simp [fuse, hab]
      obtain ⟨i1, i2⟩ := ih hsort.2 (b + 1)
      have hle := le_fuse hs (b + 1)
      rw [e, countLe_cons, if_pos (by omega)]
      refine ⟨by omega, ?_⟩
      rw [List.mem_cons]
      rintro (h | h)
      · omega
      · exact i2 h
    · have hall : ∀ x ∈ a :: hs, b < x := by
        intro x hx
        rcases List.mem_cons.1 hx with rfl | hx
        · omega
        · have := hsort.1 x hx; omega
      rw [fuse_of_lt hall, countLe_eq_zero hall]
      exact ⟨rfl, fun h => Nat.lt_irrefl _ (hall b h)⟩

/-- Projection of a free site: its position among the free sites. -/
def proj (hs : List Nat) (y : Nat) : Nat := y - countLe hs y

theorem countLe_bound {hs : List Nat} {a y : Nat} (hsort : (a :: hs).Pairwise (· < ·)) (hy : y ∉ hs) (h : a < y) :
    countLe hs y + a + 1 ≤ y := by
  induction hs generalizing a with
  | nil => simp [countLe]; omega
  | cons c hs ih =>
    rw [List.pairwise_cons] at hsort
    have hac := hsort.1 c (by simp)
    rw [List.mem_cons, not_or] at hy
    by_cases hc : c ≤ y
    · have := ih hsort.2 hy.2 (by omega)
      rw [countLe_cons, if_pos hc]
      omega
    · rw [countLe_eq_zero]
      · omega
      · intro x hx
        rcases List.mem_cons.1 hx with rfl | hx
        · omega
        · have := (List.pairwise_cons.1 hsort.2).1 x hx; omega

theorem countLe_le_self {hs : List Nat} (hsort : hs.Pairwise (· < ·)) {y : Nat} (hy : y ∉ hs) :
    countLe hs y ≤ y := by
  cases hs with
  | nil => simp [countLe]
  | cons a hs =>
    rw [List.mem_cons, not_or] at hy
    by_cases h : a < y
    · have := countLe_bound hsort hy.2 h
      rw [countLe_cons, if_pos (by omega)]
      omega
    · rw [countLe_eq_zero]
      · omega
      · intro x hx
        rcases List.mem_cons.1 hx with rfl | hx
        · omega
        · have := (List.pairwise_cons.1 hsort).1 x hx; omega

theorem fuse_strictMono {hs : List Nat} (hsort : hs.Pairwise (· < ·)) {a b : Nat} (h : a < b) :
    fuse hs a < fuse hs b := by
  induction hs generalizing a b with
  | nil => exact h
  | cons x hs ih =>
    simp only [fuse, List.foldl_cons]
    apply ih (List.pairwise_cons.1 hsort).2
    split <;> split <;> omega

theorem fuse_proj {hs : List Nat} (hsort : hs.Pairwise (· < ·)) {y : Nat} (hy : y ∉ hs) :
    fuse hs (proj hs y) = y := by
  induction hs with
  | nil => simp [fuse, proj, countLe]
  | cons a hs ih =>
    have hy' := hy
    rw [List.mem_cons, not_or] at hy
    by_cases h : a < y
    · have hb := countLe_bound hsort hy.2 h
      have e1 : proj (a :: hs) y = y - (1 + countLe hs y) := by
        rw [proj, countLe_cons, if_pos (by omega)]
      have e2 : a ≤ y - (1 + countLe hs y) := by omega
      have e3 : y - (1 + countLe hs y) + 1 = proj hs y := by unfold proj; omega
      have : fuse (a :: hs) (proj (a :: hs) y) = fuse hs (proj hs y) := by
        rw [e1, ← e3]
        simp only [fuse, List.foldl_cons, e2, if_true]
      rw [this, ih (List.pairwise_cons.1 hsort).2 hy.2]
    · have hall : ∀ x ∈ a :: hs, y < x := by
        intro x hx
        rcases List.mem_cons.1 hx with rfl | hx
        · omega
        · have := (List.pairwise_cons.1 hsort).1 x hx; omega
      rw [proj, countLe_eq_zero hall, Nat.sub_zero, fuse_of_lt hall]

theorem proj_fuse {hs : List Nat} (hsort : hs.Pairwise (· < ·)) (b : Nat) : proj hs (fuse hs b) = b := by
  have := (fuse_spec hsort b).1
  unfold proj
  omega

theorem freeOf_eq_map_fuse {n : Nat} {hs : List Nat} (h : hs.Sublist (List.range n)) :
    freeOf n hs = (List.range (n - hs.length)).map (fuse hs) := by
  have hsort : hs.Pairwise (· < ·) := List.pairwise_lt_range.sublist h
  have hs2 : ((List.range (n - hs.length)).map (fuse hs)).Pairwise (· < ·) := by
    rw [List.pairwise_map]
    exact List.pairwise_lt_range.imp (fun hab => fuse_strictMono hsort hab)
  symm
  apply sorted_perm_eq _ hs2 (freeOf_sorted n hs)
  apply List.Subperm.perm_of_length_le
  · apply List.subperm_of_subset (hs2.imp (fun h => Nat.ne_of_lt h))
    intro y hy
    obtain ⟨b, hb, rfl⟩ := List.mem_map.1 hy
    rw [List.mem_range] at hb
    have hf := fuse_spec hsort b
    have := countLe_le_length hs (fuse hs b)
    simp only [freeOf, List.mem_filter, List.mem_range, decide_eq_true_eq]
    exact ⟨by omega, hf.2⟩
  · rw [length_freeOf h]; simp

theorem map_proj_freeOf {n : Nat} {hs : List Nat} (h : hs.Sublist (List.range n)) :
    (freeOf n hs).map (proj hs) = List.range (n - hs.length) := by
  rw [freeOf_eq_map_fuse h, List.map_map]
  have hsort : hs.Pairwise (· < ·) := List.pairwise_lt_range.sublist h
  have : (proj hs ∘ fuse hs) = id := by funext b; exact proj_fuse hsort b
  rw [this, List.map_id]

/-- Rank of the down spins among the combinations of the free sites. -/
theorem getElem?_rank_free {n : Nat} {hs bs : List Nat} (h : hs.Sublist (List.range n))
    (hb : bs.Sublist (freeOf n hs)) :
    (combinations (freeOf n hs) bs.length)[rankFrom (n - hs.length) 0 (bs.map (proj hs))]? = some bs := by
  have hsort : hs.Pairwise (· < ·) := List.pairwise_lt_range.sublist h
  have hsub : (bs.map (proj hs)).Sublist (List.range (n - hs.length)) := by
    rw [← map_proj_freeOf h]
    exact hb.map _
  have := getElem?_rank _ _ hsub
  rw [List.length_map] at this
  rw [freeOf_eq_map_fuse h, combinations_map, List.getElem?_map, this]
  simp only [Option.map_some, Option.some.injEq, List.map_map]
  conv_rhs => rw [← List.map_id bs]
  apply List.map_congr_left
  intro y hy
  have := hb.subset hy
  simp only [freeOf, List.mem_filter, decide_eq_true_eq] at this
  exact fuse_proj hsort this.2

theorem proj_zip {hs bs : List Nat} (hsort : hs.Pairwise (· < ·)) (h : ∀ b ∈ bs, b ∉ hs) :
    List.zipWith (fun (b bh : Nat) => (b : Int) - (bh : Int)) bs (projectHash hs bs)
      = (bs.map (proj hs)).map (fun (y : Nat) => (y : Int)) := by
  induction bs with
  | nil => simp [projectHash]
  | cons b bs ih =>
    have ih := ih (fun x hx => h x (List.mem_cons_of_mem _ hx))
    simp only [projectHash, List.map_cons, List.zipWith_cons_cons] at ih ⊢
    rw [ih]
    congr 1
    have h1 := countLe_le_self hsort (h b (by simp))
    change (b : Int) - (countLe hs b : Int) = _
    unfold proj
    omega

/-- Value of `compute_hash_table` on a determinant given by its parts. -/
theorem hash_parts {c : Config} {hs bs as : List Nat} (h : hs.Sublist (List.range c.nsites))
    (hl : hs.length = c.nholes) (hb : bs.Sublist (freeOf c.nsites hs)) (hlb : bs.length = c.nbeta) :
    computeHashTable c (hs ++ bs ++ as) =
      rankFrom c.nsites 0 hs * (c.nsites - c.nholes).choose c.nbeta
        + rankFrom (c.nsites - c.nholes) 0 (bs.map (proj hs)) := by
  have hsort : hs.Pairwise (· < ·) := List.pairwise_lt_range.sublist h
  have hle : hs.length ≤ c.nsites := by simpa using h.length_le
  have e1 : holesOf c (hs ++ bs ++ as) = hs := by
    rw [holesOf, List.append_assoc]; exact List.take_left' hl
  have e2 : betaOf c (hs ++ bs ++ as) = bs := by
    rw [betaOf, List.append_assoc, List.drop_left' hl]; exact List.take_left' hlb
  have hsub : (bs.map (proj hs)).Sublist (List.range (c.nsites - hs.length)) := by
    rw [← map_proj_freeOf h]
    exact hb.map _
  have d1 : getDistanceHash c.nsites [] hs = rankFrom c.nsites 0 hs := by
    have := getDistanceHash_eq c.nsites [] hs hs (by
      rw [proj_zip List.Pairwise.nil (by simp), show proj [] = id by funext y; simp [proj, countLe], List.map_id])
      (by simp) (fun y hy => by simpa using h.subset hy)
    simpa using this
  have d2 : getDistanceHash c.nsites hs bs = rankFrom (c.nsites - hs.length) 0 (bs.map (proj hs)) := by
    apply getDistanceHash_eq c.nsites hs bs _ _ hle
    · intro y hy; simpa using hsub.subset hy
    · apply proj_zip hsort
      intro b hb'
      have := hb.subset hb'
      simp only [freeOf, List.mem_filter, decide_eq_true_eq] at this
      exact this.2
  simp only [computeHashTable, e1, e2, d1, d2]
  rw [show (c.nsites : Int) - c.nholes = ((c.nsites - c.nholes : Nat) : Int) by omega, pyComb_nat, hl]

theorem parts_of_mem_basisList {n h b : Nat} {d : List Nat} (hd : d ∈ basisList n h b) :
    ∃ hs bs, hs.Sublist (List.range n) ∧ hs.length = h ∧ bs.Sublist (freeOf n hs) ∧ bs.length = b ∧
      d = hs ++ bs ++ (freeOf n hs).filter (fun y => y ∉ bs) := by
  simp only [basisList, basisBlock, List.mem_flatMap, List.mem_map] at hd
  obtain ⟨hs, hm, bs, hb, rfl⟩ := hd
  obtain ⟨h1, h2⟩ := mem_combinations.1 hm
  obtain ⟨b1, b2⟩ := mem_combinations.1 hb
  exact ⟨hs, bs, h1, h2, b1, b2, rfl⟩

/-- The hash of a basis element is its position. -/
theorem getElem?_hash {c : Config} {d : List Nat} (hd : d ∈ basisList c.nsites c.nholes c.nbeta) :
    (basisList c.nsites c.nholes c.nbeta)[computeHashTable c d]? = some d := by
  obtain ⟨hs, bs, h1, h2, b1, b2, rfl⟩ := parts_of_mem_basisList hd
  rw [hash_parts h1 h2 b1 b2]
  have r1 := getElem?_rank _ _ h1
  rw [h2] at r1
  have r2 := getElem?_rank_free h1 b1
  rw [b2, h2] at r2
  have hlt : rankFrom (c.nsites - c.nholes) 0 (bs.map (proj hs)) < (c.nsites - c.nholes).choose c.nbeta := by
    by_contra hc
    rw [List.getElem?_eq_none (by rw [length_combinations, length_freeOf h1, h2]; omega)] at r2
    simp at r2
  rw [basisList, getElem?_flatMap_const (fun a ha => length_basisBlock ha) r1 hlt, basisBlock, List.getElem?_map, r2]
  rfl

theorem canonical_of_mem_basisList {n h b : Nat} {d : List Nat} (hd : d ∈ basisList n h b) :
    Canonical n h b d := by
  obtain ⟨σ, h1, h2, rfl⟩ := mem_basisList.1 hd
  exact detOf_canonical h1 h2

theorem mem_basisList_iff_canonical {n h b : Nat} {d : List Nat} (hn : h + b ≤ n) :
    d ∈ basisList n h b ↔ Canonical n h b d := by
  refine ⟨canonical_of_mem_basisList, fun hc => mem_basisList.2 ⟨occ h b d, cnt_occ_hole hc.1 hn, cnt_occ_down hc.1 hn, ?_⟩⟩
  exact (detOf_occ hc).symm

theorem reorder_mem {c : Config} {det : List Nat} (hv : ValidDet c.nsites det) (hn : c.nholes + c.nbeta ≤ c.nsites) :
    reorder c det ∈ basisList c.nsites c.nholes c.nbeta :=
  mem_basisList.2 ⟨_, cnt_occ_hole hv hn, cnt_occ_down hv hn, reorder_eq hv⟩

theorem reorder_of_canonical {c : Config} {det : List Nat} (hc : Canonical c.nsites c.nholes c.nbeta det) :
    reorder c det = det := by
  rw [reorder_eq hc.1, detOf_occ hc]

theorem getElem?_index {c : Config} {det : List Nat} (hv : ValidDet c.nsites det) (hn : c.nholes + c.nbeta ≤ c.nsites) :
    (basisList c.nsites c.nholes c.nbeta)[getIndexInBasis c det]? = some (reorder c det) :=
  getElem?_hash (reorder_mem hv hn)

end TJ
