/-
Lemmas for the dynamic dressing of embedding_blocks: what one perturbator adds.
-/
import Verif.Spec.SecondOrder
import Verif.Lemmas.Restricted
import Verif.Lemmas.Dynamic
import Verif.Lemmas.SpinPos
import Verif.Lemmas.EmbedExchange
import Verif.Lemmas.Repulsion
import Verif.Lemmas.EmbedRot
import Verif.Props.Embedding5
import Verif.Props.EmbeddingTotal

namespace TJ

open Finset

/-! ### Occupations as functions of all numbers -/

/-- An occupation extended by holes. -/
def Conf.ext {n : Nat} (σ : Conf n) : Nat → Occ := fun s => if h : s < n then σ ⟨s, h⟩ else .hole

theorem Conf.ext_lt {n : Nat} (σ : Conf n) {s : Nat} (h : s < n) : σ.ext s = σ ⟨s, h⟩ := dif_pos h

theorem Conf.ext_fin {n : Nat} (σ : Conf n) : (fun s : Fin n => σ.ext s) = σ := by
  funext s; exact σ.ext_lt s.2

theorem Conf.cnt_ext {n : Nat} (σ : Conf n) (o : Occ) : cnt n σ.ext o = σ.count o := by
  rw [← count_eq_cnt, Conf.ext_fin]

/-- The sites of the second block follow those of the first one. -/
def Conf2.join {n : Nat} (P : Conf2 n) : Nat → Occ := fun s => if s < n then P.1.ext s else P.2.ext (s - n)

theorem Conf2.join_left {n : Nat} (P : Conf2 n) {s : Nat} (h : s < n) : Conf2.join P s = P.1 ⟨s, h⟩ := by
  unfold Conf2.join; rw [if_pos h, Conf.ext_lt _ h]

theorem Conf2.join_right {n : Nat} (P : Conf2 n) {s : Nat} (h : s < n) : Conf2.join P (n + s) = P.2 ⟨s, h⟩ := by
  unfold Conf2.join; rw [if_neg (by omega), Nat.add_sub_cancel_left, Conf.ext_lt _ h]

theorem sitesOf_join {n : Nat} (P : Conf2 n) (o : Occ) :
    sitesOf (n + n) (Conf2.join P) o = sitesOf n P.1.ext o ++ (sitesOf n P.2.ext o).map (fun s => n + s) := by
  unfold sitesOf
  rw [List.range_add, List.filter_append, List.filter_map]
  congr 1
  · apply List.filter_congr
    intro s hs
    simp [Conf2.join, List.mem_range.1 hs]
  · congr 1
    apply List.filter_congr
    intro s _
    simp [Conf2.join]

theorem cnt_join {n : Nat} (P : Conf2 n) (o : Occ) : cnt (n + n) (Conf2.join P) o = P.1.count o + P.2.count o := by
  rw [← length_sitesOf, sitesOf_join, List.length_append, List.length_map, length_sitesOf, length_sitesOf, Conf.cnt_ext, Conf.cnt_ext]

/-- The determinant of both blocks. -/
def Conf2.det {n : Nat} (P : Conf2 n) : List Nat := detOf (n + n) (Conf2.join P)

theorem Conf2.det_left {n : Nat} (P : Conf2 n) : P.det.filter (fun s => s < n) = detOf n P.1.ext := by
  have h1 : ∀ o, (sitesOf (n + n) (Conf2.join P) o).filter (fun s => s < n) = sitesOf n P.1.ext o := by
    intro o
    rw [sitesOf_join, List.filter_append]
    rw [List.filter_eq_self.2 (fun s hs => by simpa using (mem_sitesOf.1 hs).1), List.filter_eq_nil_iff.2, List.append_nil]
    intro s hs
    obtain ⟨r, _, rfl⟩ := List.mem_map.1 hs
    simp
  unfold Conf2.det detOf
  rw [List.filter_append, List.filter_append, h1, h1, h1]

theorem Conf2.det_right {n : Nat} (P : Conf2 n) : (P.det.filter (fun s => n ≤ s)).map (fun s => s - n) = detOf n P.2.ext := by
  have h1 : ∀ o, ((sitesOf (n + n) (Conf2.join P) o).filter (fun s => n ≤ s)).map (fun s => s - n) = sitesOf n P.2.ext o := by
    intro o
    rw [sitesOf_join, List.filter_append]
    rw [List.filter_eq_nil_iff.2, List.nil_append, List.filter_eq_self.2, List.map_map]
    · conv_rhs => rw [← List.map_id (sitesOf n P.2.ext o)]
      apply List.map_congr_left
      intro s _
      simp
    · intro s hs
      obtain ⟨r, _, rfl⟩ := List.mem_map.1 hs
      simp
    · intro s hs
      have := (mem_sitesOf.1 hs).1
      simp; omega
  unfold Conf2.det detOf
  rw [List.filter_append, List.filter_append, List.map_append, List.map_append, h1, h1, h1]

theorem Conf2.ext_join {n : Nat} {P Q : Conf2 n} (h : ∀ s < n + n, Conf2.join P s = Conf2.join Q s) : P = Q := by
  refine Prod.ext ?_ ?_
  · funext s
    have := h s (by omega)
    rwa [Conf2.join_left _ s.2, Conf2.join_left _ s.2] at this
  · funext s
    have := h (n + s) (by omega)
    rwa [Conf2.join_right _ s.2, Conf2.join_right _ s.2] at this

/-- In one sector determinants and occupations are the same. -/
theorem Conf2.det_inj {n : Nat} {P Q : Conf2 n} (h1 : ∀ o, P.1.count o + P.2.count o = Q.1.count o + Q.2.count o) (h : P.det = Q.det) : P = Q := by
  refine Conf2.ext_join fun s hs => ?_
  have e : ∀ o, cnt (n + n) (Conf2.join P) o = cnt (n + n) (Conf2.join Q) o := fun o => by rw [cnt_join, cnt_join, h1]
  rw [← occ_detOf (σ := Conf2.join P) rfl rfl hs, ← occ_detOf (σ := Conf2.join Q) rfl rfl hs, e .hole, e .down]
  exact congrArg (fun d => occ _ _ d s) h

/-- The electron on the left site `x` and the hole on the right site `y` exchanged. -/
def Conf2.back {n : Nat} (P : Conf2 n) (s : Occ) (x y : Fin n) : Conf2 n :=
  (Function.update P.1 x .hole, Function.update P.2 y s)

theorem swap_join {n : Nat} (P : Conf2 n) (s : Occ) (x y : Fin n) (hx : P.1 x = s) (hy : P.2 y = .hole) :
    ∀ z < n + n, swapOcc (Conf2.join P) (n + y) x z = Conf2.join (P.back s x y) z := by
  intro z hz
  have jx : Conf2.join P x = s := by rw [Conf2.join_left P x.2]; exact hx
  have jy : Conf2.join P (n + y) = .hole := by rw [Conf2.join_right P y.2]; exact hy
  unfold swapOcc
  by_cases h1 : z < n
  · rw [Conf2.join_left _ h1]
    by_cases h2 : z = x
    · subst h2
      rw [Equiv.swap_apply_right, jy]
      simp [Conf2.back]
    · rw [Equiv.swap_apply_of_ne_of_ne (by omega) h2, Conf2.join_left _ h1]
      have : (⟨z, h1⟩ : Fin n) ≠ x := fun h => h2 (congrArg Fin.val h)
      simp [Conf2.back, this]
  · obtain ⟨w, rfl⟩ := Nat.exists_eq_add_of_le (Nat.le_of_not_lt h1)
    have hw : w < n := by omega
    rw [Conf2.join_right _ hw]
    by_cases h2 : w = y
    · subst h2
      rw [Equiv.swap_apply_left, jx]
      simp [Conf2.back]
    · rw [Equiv.swap_apply_of_ne_of_ne (by omega) (by omega), Conf2.join_right _ hw]
      have : (⟨w, hw⟩ : Fin n) ≠ y := fun h => h2 (congrArg Fin.val h)
      simp [Conf2.back, this]

theorem count_set {n : Nat} (σ : Conf n) (x : Fin n) (o : Occ) {old new : Occ} (ho : σ x = old) :
    ((Conf.count (Function.update σ x new) o : Nat) : Int) = σ.count o + (if o = new then 1 else 0) - (if o = old then 1 else 0) := by
  by_cases hne : new = old
  · subst hne
    rw [← ho, Function.update_eq_self]
    simp
  · have h := cnt_update (σ := σ.ext) x.2 ((σ.ext_lt x.2).trans ho) hne o
    rw [Conf.cnt_ext, ← count_eq_cnt] at h
    rw [← h]
    congr 2
    funext s
    simp only [Function.update_apply, Fin.ext_iff, σ.ext_lt s.2]

theorem count_back {n : Nat} (P : Conf2 n) (s : Occ) (x y : Fin n) (hx : P.1 x = s) (hy : P.2 y = .hole) (o : Occ) :
    (P.back s x y).1.count o + (P.back s x y).2.count o = P.1.count o + P.2.count o := by
  have h1 := count_set P.1 x o (new := .hole) hx
  have h2 := count_set P.2 y o (new := s) hy
  show Conf.count (Function.update P.1 x .hole) o + Conf.count (Function.update P.2 y s) o = _
  omega

/-! ### The states coupled to a perturbator -/

/-- Both states have the same particles. -/
def SameParticles {n : Nat} (P Q : Conf2 n) : Prop := ∀ o, P.1.count o + P.2.count o = Q.1.count o + Q.2.count o

theorem sum_split_filter {α M : Type} [AddCommMonoid M] (l : List α) (p : α → Bool) (f : α → M) :
    ((l.filter p).map f).sum + ((l.filter (fun a => !p a)).map f).sum = (l.map f).sum := by
  induction l with
  | nil => simp
  | cons a l ih =>
    cases h : p a <;> simp only [List.filter_cons, h, List.map_cons, List.sum_cons, Bool.not_true, Bool.not_false, if_true,
      if_false, Bool.false_eq_true, ← ih]
    · rw [add_left_comm]
    · rw [add_assoc]

section
variable {K : Type} [Field K]

theorem coupled_spec (E : Env) (I : Interactions K) {cR : Config} {n : Nat} (hN : cR.nsites = n + n) {pos : Nat → Pt}
    (g : GeomLattice E cR pos) {P : Conf2 n} {s : Occ} (hs : s ≠ .hole) {pert : List Nat} (hv : ValidDet cR.nsites pert)
    (hocc : ∀ z < n + n, occC cR pert z = Conf2.join P z)
    (h1 : ∀ a ∈ cR.restr.1, n ≤ a ∧ a < n + n ∧ Conf2.join P a = .hole) (h2 : ∀ b ∈ cR.restr.2, b < n ∧ Conf2.join P b = s)
    (h3 : ∀ x y : Fin n, Near (pos (lsite x)) (pos (rsite y)) ∨ TwoBonds (fpos (n + n) pos) (lsite x) (rsite y) →
      P.1 x = s → P.2 y = .hole → n + y.val ∈ cR.restr.1 ∧ x.val ∈ cR.restr.2) :
    ∃ D, computeDynamic E cR I ⟨true, false, false, true, true, false⟩ pert = .ok D ∧ (dkeys D).Nodup ∧
      (∀ k ∈ dkeys D, ∃ x y, P.1 x = s ∧ P.2 y = .hole ∧ k = (P.back s x y).det) ∧
      ∀ Q : Conf2 n, SameParticles Q P → dval D Q.det = returnAmp I (fpos (n + n) pos) s P Q := by
  set e : Fin n × Fin n → Nat × Nat := fun z => (n + z.2.val, z.1.val) with he
  have hinj : Function.Injective e := by
    rintro ⟨x, y⟩ ⟨x', y'⟩ h
    simp only [he, Prod.mk.injEq] at h
    exact Prod.ext (Fin.ext h.2) (Fin.ext (Nat.add_left_cancel h.1))
  have hb : ∀ {i j : Nat}, i < n + n → j < n + n → (cR.bond.e i j = 1 ↔ Near (pos i) (pos j)) :=
    fun hi hj => g.bond_iff (by omega) (by omega)
  have hjx : ∀ x : Fin n, Conf2.join P x.val = P.1 x := fun x => Conf2.join_left P x.2
  have hjy : ∀ y : Fin n, Conf2.join P (n + y.val) = P.2 y := fun y => Conf2.join_right P y.2
  -- the images
  have himg : ∀ x y : Fin n, P.1 x = s → P.2 y = .hole →
      detOf cR.nsites (swapOcc (occC cR pert) (n + y.val) x.val) = (P.back s x y).det := by
    intro x y hx hy
    rw [hN]
    unfold Conf2.det
    apply detOf_congr
    intro z hz
    rw [← swap_join P s x y hx hy z hz]
    unfold swapOcc
    exact hocc _ (swap_lt (by omega) (by omega) hz)
  -- hopping
  obtain ⟨L1, l1, l2, l3⟩ := computeHopping_restr E.toSetSem hv (fun z hz _ => by
    obtain ⟨z1, z2⟩ := h2 z hz
    rw [hocc z (by omega), z2]; exact hs)
  have m1 : ∀ p, p ∈ L1 ↔ ∃ z, e z = p ∧ (P.1 z.1 = s ∧ P.2 z.2 = .hole ∧ Near (pos (lsite z.1)) (pos (rsite z.2))) := by
    intro p
    rw [l2]
    constructor
    · rintro ⟨_, _, _, q4, q5, q6⟩
      obtain ⟨a1, a2, a3⟩ := h1 _ q4
      obtain ⟨b1, b2⟩ := h2 _ q5
      have hp1 : n + (p.1 - n) = p.1 := by omega
      refine ⟨(⟨p.2, b1⟩, ⟨p.1 - n, by omega⟩), ?_, ?_, ?_, ?_⟩
      · simp only [he, hp1]
      · rw [← hjx]; exact b2
      · rw [← hjy]; simp only [hp1]; exact a3
      · have := (hb (by omega) (by omega)).1 q6
        simp only [Fin.val_castAdd, Fin.val_natAdd, hp1]
        exact (near_comm _ _).1 this
    · rintro ⟨⟨x, y⟩, rfl, hx, hy, hnear⟩
      simp only [Fin.val_castAdd, Fin.val_natAdd] at hnear
      obtain ⟨k1, k2⟩ := h3 x y (Or.inl hnear) hx hy
      refine ⟨by simp only [he]; omega, by simp only [he]; omega, ?_, k1, k2, ?_⟩
      · simp only [he]; rw [hocc _ (by omega), hjy]; exact hy
      · exact (hb (by simp only [he]; omega) (by simp only [he]; omega)).2 ((near_comm _ _).1 hnear)
  -- next-neighbour hopping
  obtain ⟨W, w1, w2, w3, w4⟩ := computeNextHopping_restr E hv (fun a ha m hm b hb' hab ham hmb =>
    ⟨_, g.linear a ha m hm b hb' hab ((g.bond_iff ha hm).1 ham) ((g.bond_iff hm hb').1 hmb) b m a
      (by simpa using (List.reverse_perm [a, m, b]))⟩)
  have m2 : ∀ p, p ∈ W.map Prod.fst ↔ ∃ z, e z = p ∧ (P.1 z.1 = s ∧ P.2 z.2 = .hole ∧
      TwoBonds (fpos (n + n) pos) (lsite z.1) (rsite z.2)) := by
    intro p
    rw [w2]
    constructor
    · rintro ⟨_, _, _, _, q4, q5, m, q6, q7, q8⟩
      obtain ⟨a1, a2, a3⟩ := h1 _ q4
      obtain ⟨b1, b2⟩ := h2 _ q5
      have hp1 : n + (p.1 - n) = p.1 := by omega
      rw [hN] at q6
      refine ⟨(⟨p.2, b1⟩, ⟨p.1 - n, by omega⟩), ?_, ?_, ?_, ?_⟩
      · simp only [he, hp1]
      · rw [← hjx]; exact b2
      · rw [← hjy]; simp only [hp1]; exact a3
      · refine ⟨⟨m, q6⟩, ?_, ?_⟩
        · exact (near_comm _ _).1 ((hb q6 (by omega)).1 q8)
        · simp only [fpos, Fin.val_natAdd, hp1]
          exact (near_comm _ _).1 ((hb (by omega) q6).1 q7)
    · rintro ⟨⟨x, y⟩, rfl, hx, hy, htwo⟩
      obtain ⟨k1, k2⟩ := h3 x y (Or.inr htwo) hx hy
      obtain ⟨m, t1, t2⟩ := htwo
      simp only [fpos, Fin.val_natAdd, Fin.val_castAdd] at t1 t2
      refine ⟨by simp only [he]; omega, by simp only [he]; omega, ?_, ?_, k1, k2, m.val, by omega, ?_, ?_⟩
      · simp only [he]; rw [hocc _ (by omega), hjy]; exact hy
      · simp only [he]; rw [hocc _ (by omega), hjx]; simp only at hx; rw [hx]; exact hs
      · exact (hb (by simp only [he]; omega) m.2).2 ((near_comm _ _).1 t2)
      · exact (hb m.2 (by simp only [he]; omega)).2 ((near_comm _ _).1 t1)
  -- no singlet is displaced
  have hsd : computeSD E cR pert = .ok ([], []) := computeSD_nil E hv (fun m hm b hb' hm1 hb1 _ => by
    rw [hocc m (by omega), hocc b (by omega), (h2 m hm).2, (h2 b hb').2]
    cases s <;> simp [Occ.rev] at hs ⊢)
  set F := fun p : Nat × Nat => detOf cR.nsites (swapOcc (occC cR pert) p.1 p.2) with hF
  set ev : List (List (List Nat) × K) := [(L1.map F, I.t)] ++ [((W.filter (fun w => w.2)).map (fun w => F w.1), I.tnNNN),
    ((W.filter (fun w => !w.2)).map (fun w => F w.1), I.tNNN)] ++ [] with hev
  obtain ⟨d1, d2, d3⟩ := foldl_events ev [] List.nodup_nil
  set D := ev.foldl (fun d (e : List (List Nat) × K) => e.1.foldl (fun d im => dictAdd d im e.2) d) [] with hD
  have hev_mem : ∀ k, (∃ f ∈ ev, k ∈ f.1) → ∃ z : Fin n × Fin n, P.1 z.1 = s ∧ P.2 z.2 = .hole ∧ k = (P.back s z.1 z.2).det := by
    rintro k ⟨f, hf, hk⟩
    have hk' : ∃ p, (p ∈ L1 ∨ p ∈ W.map Prod.fst) ∧ F p = k := by
      rw [hev] at hf
      simp only [List.append_nil, List.cons_append, List.nil_append, List.mem_cons, List.not_mem_nil, or_false] at hf
      rcases hf with rfl | rfl | rfl
      · obtain ⟨p, hp, rfl⟩ := List.mem_map.1 hk
        exact ⟨p, Or.inl hp, rfl⟩
      · obtain ⟨w, hw, rfl⟩ := List.mem_map.1 hk
        exact ⟨w.1, Or.inr (List.mem_map.2 ⟨w, (List.mem_filter.1 hw).1, rfl⟩), rfl⟩
      · obtain ⟨w, hw, rfl⟩ := List.mem_map.1 hk
        exact ⟨w.1, Or.inr (List.mem_map.2 ⟨w, (List.mem_filter.1 hw).1, rfl⟩), rfl⟩
    obtain ⟨p, hp, rfl⟩ := hk'
    rcases hp with hp | hp
    · obtain ⟨z, rfl, z1, z2, _⟩ := (m1 p).1 hp
      exact ⟨z, z1, z2, himg z.1 z.2 z1 z2⟩
    · obtain ⟨z, rfl, z1, z2, _⟩ := (m2 p).1 hp
      exact ⟨z, z1, z2, himg z.1 z.2 z1 z2⟩
  refine ⟨D, ?_, d1, ?_, ?_⟩
  · unfold computeDynamic selected
    simp only [if_true, if_false, Bool.false_eq_true]
    refine bind_ok (bind_ok l3 rfl) (bind_ok (bind_ok w4 rfl) (bind_ok rfl (bind_ok (bind_ok hsd rfl) ?_)))
    rfl
  · intro k hk
    rcases (d2 k).1 hk with hk | hk
    · simp [dkeys] at hk
    · obtain ⟨z, z1, z2, rfl⟩ := hev_mem k hk
      exact ⟨z.1, z.2, z1, z2, rfl⟩
  · intro Q hQ
    have hkey : ∀ x y : Fin n, P.1 x = s → P.2 y = .hole → (F (e (x, y)) = Q.det ↔ Q = P.back s x y) := by
      intro x y hx hy
      show detOf cR.nsites (swapOcc (occC cR pert) (n + y.val) x.val) = _ ↔ _
      rw [himg x y hx hy]
      constructor
      · intro h
        refine (Conf2.det_inj (fun o => ?_) h).symm
        rw [count_back P s x y hx hy o, hQ o]
      · rintro rfl; rfl
    rw [d3]
    have e0 : dval ([] : List (List Nat × K)) Q.det = 0 := rfl
    rw [e0, zero_add, hev]
    simp only [List.append_nil, List.cons_append, List.nil_append, List.map_cons, List.map_nil, List.sum_cons, List.sum_nil, add_zero,
      List.map_map, Function.comp_def]
    have s1 : (L1.map (fun p => if F p = Q.det then I.t else 0)).sum = ∑ x, ∑ y,
        if P.1 x = s ∧ P.2 y = .hole ∧ Q = P.back s x y then (if Near (pos (lsite x)) (pos (rsite y)) then I.t else 0) else 0 := by
      rw [sum_list_fintype l1 hinj m1, Fintype.sum_prod_type]
      refine sum_congr rfl fun x _ => sum_congr rfl fun y _ => ?_
      by_cases hc : P.1 x = s ∧ P.2 y = .hole
      · simp only [hkey x y hc.1 hc.2, hc.1, hc.2, true_and]
        split_ifs <;> rfl
      · rw [if_neg (fun h => hc ⟨h.1, h.2.1⟩), if_neg (fun h => hc ⟨h.1, h.2.1⟩)]
    have s2 : ((W.filter (fun w => w.2)).map (fun w => if F w.1 = Q.det then I.tnNNN else 0)).sum +
        ((W.filter (fun w => !w.2)).map (fun w => if F w.1 = Q.det then I.tNNN else 0)).sum = ∑ x, ∑ y,
        if P.1 x = s ∧ P.2 y = .hole ∧ Q = P.back s x y then (if TwoBonds (fpos (n + n) pos) (lsite x) (rsite y) then
          (if (pos (lsite x)).1 = (pos (rsite y)).1 ∨ (pos (lsite x)).2 = (pos (rsite y)).2 then I.tnNNN else I.tNNN) else 0) else 0 := by
      set G : Nat × Nat → K := fun p => if F p = Q.det then
        (if (pos p.2).1 = (pos p.1).1 ∨ (pos p.2).2 = (pos p.1).2 then I.tnNNN else I.tNNN) else 0 with hG
      have hw : ∀ w ∈ W, (w.2 = true ↔ ((pos w.1.2).1 = (pos w.1.1).1 ∨ (pos w.1.2).2 = (pos w.1.1).2)) := by
        intro w hw
        obtain ⟨m, t1, t2, t3, t4⟩ := w3 w hw
        obtain ⟨q1, q2, q3, q4, _⟩ := (w2 w.1).1 (List.mem_map.2 ⟨w, hw, rfl⟩)
        have hne : w.1.1 ≠ w.1.2 := fun h => q4 (h ▸ q3)
        have n1 := (g.bond_iff q1 t1).1 t2
        have n2 := (g.bond_iff t1 q2).1 t3
        rw [g.linear _ q1 m t1 _ q2 hne n1 n2 w.1.2 m w.1.1 (by simpa using (List.reverse_perm [w.1.1, m, w.1.2]))] at t4
        have := Except.ok.inj t4
        rw [← this, decide_eq_true_iff, straight_iff (g := g) q1 q2 hne n1 n2]
        constructor <;> (rintro (h | h); exacts [Or.inl h.symm, Or.inr h.symm])
      have c1 : ((W.filter (fun w => w.2)).map (fun w => if F w.1 = Q.det then I.tnNNN else 0)) = (W.filter (fun w => w.2)).map (fun w => G w.1) := by
        apply List.map_congr_left
        intro w hw'
        obtain ⟨a1, a2⟩ := List.mem_filter.1 hw'
        simp only [hG]
        rw [if_pos ((hw w a1).1 a2)]
      have c2 : ((W.filter (fun w => !w.2)).map (fun w => if F w.1 = Q.det then I.tNNN else 0)) = (W.filter (fun w => !w.2)).map (fun w => G w.1) := by
        apply List.map_congr_left
        intro w hw'
        obtain ⟨a1, a2⟩ := List.mem_filter.1 hw'
        have hno : ¬ ((pos w.1.2).1 = (pos w.1.1).1 ∨ (pos w.1.2).2 = (pos w.1.1).2) := fun h => by
          rw [(hw w a1).2 h] at a2; simp at a2
        simp only [hG]
        rw [if_neg hno]
      rw [c1, c2, sum_split_filter W (fun w => w.2) (fun w => G w.1)]
      have c3 : (W.map (fun w => G w.1)) = (W.map Prod.fst).map G := by rw [List.map_map]; rfl
      rw [c3, sum_list_fintype w1 hinj m2, Fintype.sum_prod_type]
      refine sum_congr rfl fun x _ => sum_congr rfl fun y _ => ?_
      by_cases hc : P.1 x = s ∧ P.2 y = .hole
      · simp only [hG, hkey x y hc.1 hc.2, hc.1, hc.2, true_and]
        simp only [he, Fin.val_castAdd, Fin.val_natAdd]
        split_ifs <;> rfl
      · rw [if_neg (fun h => hc ⟨h.1, h.2.1⟩), if_neg (fun h => hc ⟨h.1, h.2.1⟩)]
    rw [s1, s2]
    unfold returnAmp
    rw [← sum_add_distrib]
    refine sum_congr rfl fun x _ => ?_
    rw [← sum_add_distrib]
    refine sum_congr rfl fun y _ => ?_
    show _ = if P.1 x = s ∧ P.2 y = .hole ∧ Q = P.back s x y then moveAmp I (fpos (n + n) pos) (lsite x) (rsite y) else 0
    unfold moveAmp
    split_ifs <;> simp

end

end TJ
