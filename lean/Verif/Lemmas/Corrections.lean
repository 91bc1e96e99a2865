/-
Lemmas about the corrections, the deflation loop and complete search spaces.
-/
import Verif.Lemmas.DavidsonLoop
import Mathlib.LinearAlgebra.Matrix.DotProduct
import Mathlib.Tactic.FieldSimp

namespace TJ

open Matrix Finset

section
variable {K : Type} [Field K] [LinearOrder K] {d : Nat}

theorem ortho_iff (V : List (Fin d → K)) : Ortho V ↔ (∀ v ∈ V, v ⬝ᵥ v = 1) ∧ V.Pairwise (fun v w => v ⬝ᵥ w = 0) := by
  constructor
  · intro h
    refine ⟨?_, ?_⟩
    · intro v hv
      obtain ⟨i, hi, rfl⟩ := List.getElem_of_mem hv
      simpa using h ⟨i, hi⟩ ⟨i, hi⟩
    · rw [List.pairwise_iff_getElem]
      intro i j hi hj hij
      have := h ⟨i, hi⟩ ⟨j, hj⟩
      rw [if_neg (by simp only [Fin.mk.injEq]; omega)] at this
      simpa using this
  · rintro ⟨h1, h2⟩ i j
    rw [List.pairwise_iff_getElem] at h2
    split_ifs with e
    · rw [e]; exact h1 _ (List.get_mem _ _)
    · rcases Nat.lt_or_ge i j with h | h
      · exact h2 i j i.2 j.2 h
      · rw [dotProduct_comm]
        exact h2 j i j.2 i.2 (by have : (i : Nat) ≠ j := fun g => e (Fin.ext g); omega)

theorem ortho_append {V : List (Fin d → K)} (hV : Ortho V) {w : Fin d → K} (hw : w ⬝ᵥ w = 1) (h : ∀ v ∈ V, v ⬝ᵥ w = 0) :
    Ortho (V ++ [w]) := by
  rw [ortho_iff] at hV ⊢
  refine ⟨?_, ?_⟩
  · intro v hv
    rcases List.mem_append.1 hv with h | h
    · exact hV.1 v h
    · rw [List.mem_singleton.1 h]; exact hw
  · rw [List.pairwise_append]
    refine ⟨hV.2, List.pairwise_singleton _ _, ?_⟩
    intro a ha b hb
    rw [List.mem_singleton.1 hb]
    exact h a ha

theorem project_one (q t : Fin d → K) : (1 - vecMulVec q q) *ᵥ t = t - (q ⬝ᵥ t) • q := by
  rw [sub_mulVec, one_mulVec, vecMulVec_mulVec]
  ext i
  simp [mul_comm]

theorem inSpan_zero (V : List (Fin d → K)) : InSpan V 0 := ⟨0, by simp⟩

theorem inSpan_get {V : List (Fin d → K)} {v : Fin d → K} (h : v ∈ V) : InSpan V v := by
  obtain ⟨i, hi, rfl⟩ := List.getElem_of_mem h
  refine ⟨fun j => if j = ⟨i, hi⟩ then 1 else 0, ?_⟩
  rw [sum_eq_single ⟨i, hi⟩]
  · simp
  · intro b _ hb; simp [hb]
  · simp

theorem inSpan_add {V : List (Fin d → K)} {v w : Fin d → K} (h1 : InSpan V v) (h2 : InSpan V w) : InSpan V (v + w) := by
  obtain ⟨y, rfl⟩ := h1
  obtain ⟨z, rfl⟩ := h2
  exact ⟨y + z, by simp [add_smul, sum_add_distrib]⟩

theorem inSpan_smul {V : List (Fin d → K)} {v : Fin d → K} (h1 : InSpan V v) (a : K) : InSpan V (a • v) := by
  obtain ⟨y, rfl⟩ := h1
  exact ⟨a • y, by simp [smul_sum, smul_smul]⟩

/-- A property that holds for the columns and is closed under combinations holds on the span. -/
theorem InSpan.mono {V W : List (Fin d → K)} {v : Fin d → K} (h : InSpan V v) (hVW : ∀ x ∈ V, InSpan W x) : InSpan W v := by
  obtain ⟨y, rfl⟩ := h
  have : ∀ s : Finset (Fin V.length), InSpan W (∑ i ∈ s, y i • V.get i) := by
    intro s
    induction s using Finset.induction_on with
    | empty => simpa using inSpan_zero W
    | insert a s ha ih =>
      rw [sum_insert ha]
      exact inSpan_add (inSpan_smul (hVW _ (List.get_mem _ _)) _) ih
  exact this univ

theorem inSpan_append {V W : List (Fin d → K)} {v : Fin d → K} (h : InSpan V v) : InSpan (V ++ W) v :=
  h.mono fun _ hx => inSpan_get (List.mem_append_left _ hx)

/-- One pass of projections. -/
theorem project_pass (cols : List (Fin d → K)) (hV : Ortho cols) (t : Fin d → K) :
    (∀ q ∈ cols, q ⬝ᵥ cols.foldl (fun t q => (1 - vecMulVec q q) *ᵥ t) t = 0) ∧
    InSpan cols (t - cols.foldl (fun t q => (1 - vecMulVec q q) *ᵥ t) t) := by
  induction cols using List.reverseRecOn with
  | nil => exact ⟨by simp, by simpa using inSpan_zero _⟩
  | append_singleton cols q ih =>
    have hV' := (ortho_iff _).1 hV
    have hc : Ortho cols := (ortho_iff _).2 ⟨fun v hv => hV'.1 v (List.mem_append_left _ hv), (List.pairwise_append.1 hV'.2).1⟩
    obtain ⟨i1, i2⟩ := ih hc
    rw [List.foldl_append, List.foldl_cons, List.foldl_nil, project_one]
    set s := cols.foldl (fun t q => (1 - vecMulVec q q) *ᵥ t) t
    refine ⟨?_, ?_⟩
    · intro p hp
      rw [dotProduct_sub, dotProduct_smul, smul_eq_mul]
      rcases List.mem_append.1 hp with h | h
      · rw [i1 p h, (List.pairwise_append.1 hV'.2).2.2 p h q (by simp), mul_zero, sub_zero]
      · rw [List.mem_singleton.1 h, hV'.1 q (by simp), mul_one, sub_self]
    · have : t - (s - (q ⬝ᵥ s) • q) = (t - s) + (q ⬝ᵥ s) • q := by
        ext i; simp only [Pi.sub_apply, Pi.add_apply]; ring
      rw [this]
      exact inSpan_add (inSpan_append i2) (inSpan_smul (inSpan_get (by simp)) _)

theorem projectLoop_eq (L : LinAlg K) (eta : K) (cols : List (Fin d → K)) (t : Fin d → K) :
    projectLoop L eta cols 2 0 t = .ok (cols.foldl (fun t q => (1 - vecMulVec q q) *ᵥ t) t) := by
  unfold projectLoop
  simp

variable [IsStrictOrderedRing K]

theorem norm_inv_smul {L : LinAlg K} (hL : L.ExactSqrt) {t : Fin d → K} (h : 0 < L.norm t) :
    ((L.norm t)⁻¹ • t) ⬝ᵥ ((L.norm t)⁻¹ • t) = 1 := by
  have h2 := (hL _ (dot_self_nonneg t)).2
  rw [smul_dotProduct, dotProduct_smul, smul_eq_mul, smul_eq_mul, ← h2]
  have : L.sqrt (t ⬝ᵥ t) ≠ 0 := ne_of_gt h
  unfold LinAlg.norm
  field_simp

/-- The loop of `get_meaningful_corrections`. -/
theorem corrections_loop {L : LinAlg K} (hL : L.ExactSqrt) {krylov temp : List (Fin d → K)} (hV : Ortho krylov) {droptol eta : K}
    (h0 : 0 ≤ droptol) : ∀ nu ≤ temp.length, ∃ new : List (Fin d → K),
      (List.range nu).foldlM (fun (st : List (Fin d → K) × Nat) corr => (do
        let t0 ← pyGet temp corr
        let t ← projectLoop L eta st.1 2 0 t0
        if droptol < L.norm t then return (st.1 ++ [(L.norm t)⁻¹ • t], st.2 + 1)
        else return st : Py (List (Fin d → K) × Nat))) (krylov, 0) = .ok (krylov ++ new, new.length) ∧
      Ortho (krylov ++ new) ∧ new.length ≤ nu ∧
      ∀ k < nu, ∃ e, L.norm e ≤ droptol ∧ InSpan (krylov ++ new) (temp.getD k 0 - e)
  | 0, _ => ⟨[], by simp; rfl, by simpa using hV, by simp, by simp⟩
  | nu + 1, hn => by
    obtain ⟨new, n1, n2, n3, n4⟩ := corrections_loop (temp := temp) hL hV (eta := eta) h0 nu (by omega)
    have hlt : nu < temp.length := by omega
    obtain ⟨p1, p2⟩ := project_pass (krylov ++ new) n2 (temp.getD nu 0)
    set t := (krylov ++ new).foldl (fun t q => (1 - vecMulVec q q) *ᵥ t) (temp.getD nu 0) with ht
    have hget : pyGet temp nu = .ok (temp.getD nu 0) := by
      rw [pyGet_get hlt, List.getD_eq_getElem?_getD, List.getElem?_eq_getElem hlt]; rfl
    have hz : L.norm (0 : Fin d → K) ≤ droptol := by
      rw [norm_le_iff hL]
      refine ⟨h0, ?_⟩
      simpa using mul_self_nonneg droptol
    by_cases hc : droptol < L.norm t
    · refine ⟨new ++ [(L.norm t)⁻¹ • t], ?_, ?_, ?_, ?_⟩
      · refine foldlM_range_succ n1 (bind_ok hget (bind_ok (projectLoop_eq _ _ _ _) ?_))
        rw [← ht, if_pos hc]
        simp
        rfl
      · rw [← List.append_assoc]
        refine ortho_append n2 (norm_inv_smul hL (h0.trans_lt hc)) ?_
        intro v hv
        rw [dotProduct_smul, p1 v hv, smul_zero]
      · rw [List.length_append, List.length_singleton]; omega
      · intro k hk
        rw [← List.append_assoc]
        by_cases e : k = nu
        · subst e
          refine ⟨0, hz, ?_⟩
          have hne : L.norm t ≠ 0 := ne_of_gt (h0.trans_lt hc)
          have : temp.getD k 0 - 0 = (temp.getD k 0 - t) + L.norm t • ((L.norm t)⁻¹ • t) := by
            rw [smul_smul, mul_inv_cancel₀ hne, one_smul]; simp
          rw [this]
          exact inSpan_add (inSpan_append p2) (inSpan_smul (inSpan_get (by simp)) _)
        · obtain ⟨x, x1, x2⟩ := n4 k (by omega)
          exact ⟨x, x1, inSpan_append x2⟩
    · refine ⟨new, ?_, n2, by omega, ?_⟩
      · refine foldlM_range_succ n1 (bind_ok hget (bind_ok (projectLoop_eq _ _ _ _) ?_))
        rw [← ht, if_neg hc]
        rfl
      · intro k hk
        by_cases e : k = nu
        · subst e
          exact ⟨t, not_lt.1 hc, p2⟩
        · exact n4 k (by omega)

/-- A complete orthonormal search space: all residues vanish. -/
theorem full_space {L : LinAlg K} (he : L.ExactEigh) {A : Matrix (Fin d) (Fin d) K} (hA : A.IsSymm) {V : List (Fin d → K)}
    (hV : Ortho V) (hd : V.length = d) {nb : Nat} {vals : List K} {us rs : List (Fin d → K)}
    (h : ritz L A V nb = .ok (vals, us, rs)) : ∀ r ∈ rs, r = 0 := by
  have hnb := (ritz_ok h).1
  obtain ⟨idx, _, _, _, h4⟩ := ritz_spec L A V nb hnb
  obtain ⟨e1, _⟩ := he V.length (rayleigh A V) (rayleigh_symm hA V)
  rw [h4] at h
  have h := Except.ok.inj h
  simp only [Prod.mk.injEq] at h
  obtain ⟨rfl, rfl, rfl⟩ := h
  intro r hr
  obtain ⟨k, _, rfl⟩ := List.mem_map.1 hr
  set lam := (L.eigh V.length (rayleigh A V)).1 k
  set w := (L.eigh V.length (rayleigh A V)).2 k with hw
  have horth : ∀ i, V.get i ⬝ᵥ (lam • combine V w - A *ᵥ combine V w) = 0 := by
    intro i
    have hone : V.get i = combine V (Pi.single i 1) := by
      unfold combine
      rw [sum_eq_single i]
      · simp
      · intro j _ hj; simp [hj]
      · simp
    rw [dotProduct_sub, dotProduct_smul, hone, combine_dot hV, combine_rayleigh, hw, e1 k, dotProduct_smul, sub_self]
  have hV' : ∀ i j : Fin d, V.get (Fin.cast hd.symm i) ⬝ᵥ V.get (Fin.cast hd.symm j) = if i = j then 1 else 0 := by
    intro i j
    rw [hV]
    simp [Fin.ext_iff]
  have := complete (w := fun i => V.get (Fin.cast hd.symm i)) hV' (lam • combine V w - A *ᵥ combine V w) (lam • combine V w - A *ᵥ combine V w)
  rw [sum_eq_zero (fun i _ => by rw [horth, zero_mul])] at this
  exact dotProduct_self_eq_zero.1 this

theorem norm_zero_le {L : LinAlg K} (hL : L.ExactSqrt) {tol : K} (h : 0 ≤ tol) : L.norm (0 : Fin d → K) ≤ tol := by
  rw [norm_le_iff hL]
  exact ⟨h, by simpa using mul_self_nonneg tol⟩

end

/-! ### The deflation loop -/

section
variable {K : Type} [Field K] [LinearOrder K] {d : Nat}

/-- Columns marked as converged. -/
def marked (l : List (Nat × Bool)) : List Nat := (l.filter (fun p => p.2)).map Prod.fst

theorem deflate_loop {nbVal nbFound : Nat} (hf : nbFound < nbVal) {vals : List K} {us : List (Fin d → K)} :
    ∀ (l : List (Nat × Bool)) (ev : List K) (es rz : List (Fin d → K)), (l.map Prod.fst).Nodup →
      (∀ p ∈ l, p.1 < vals.length ∧ p.1 < us.length) → nbFound < es.length → rz.length = us.length →
      (∀ p ∈ l, rz[p.1]? = us[p.1]?) → (0 < us.length) →
      ∃ rz', l.foldlM (deflateTurn nbVal nbFound vals) (ev, es, rz) =
          .ok (ev ++ (marked l).map (fun c => vals.getD c 0),
            (match (marked l).getLast? with | none => es | some c => es.set nbFound (us.getD c 0)), rz') ∧ rz'.length = us.length
  | [], ev, es, rz, _, _, _, hl, _, _ => ⟨rz, by simp [marked]; rfl, hl⟩
  | (c, b) :: l, ev, es, rz, hnd, hlt, hes, hl, hrz, h0 => by
    rw [List.foldlM_cons]
    have hnd' := List.nodup_cons.1 (by simpa using hnd : (c :: l.map Prod.fst).Nodup)
    cases b with
    | false =>
      obtain ⟨rz', h1, h2⟩ := deflate_loop hf l ev es rz hnd'.2 (fun p hp => hlt p (List.mem_cons_of_mem _ hp)) hes hl
        (fun p hp => hrz p (List.mem_cons_of_mem _ hp)) h0
      refine ⟨rz', bind_ok (a := (ev, es, rz)) (by simp [deflateTurn]; rfl) ?_, h2⟩
      rw [h1]
      simp [marked]
    | true =>
      obtain ⟨hc1, hc2⟩ := hlt (c, true) (by simp)
      simp only at hc1 hc2
      have hcu := hrz (c, true) (by simp)
      simp only at hcu
      have hcr : c < rz.length := by omega
      have h0r : 0 < rz.length := by omega
      have hturn : deflateTurn nbVal nbFound vals (ev, es, rz) (c, true) =
          .ok (ev ++ [vals.getD c 0], es.set nbFound (us.getD c 0), (rz.set c rz[0]).set 0 rz[0]) := by
        unfold deflateTurn
        rw [if_pos ⟨rfl, hf⟩]
        have hu : pyGet rz c = .ok (us.getD c 0) := by
          rw [pyGet_get hcr]
          rw [List.getElem?_eq_getElem hcr, List.getElem?_eq_getElem hc2] at hcu
          rw [List.getD_eq_getElem?_getD, List.getElem?_eq_getElem hc2, Option.some.inj hcu]; rfl
        have hv : pyGet vals c = .ok (vals.getD c 0) := by
          rw [pyGet_get hc1, List.getD_eq_getElem?_getD, List.getElem?_eq_getElem hc1]; rfl
        refine bind_ok hv (bind_ok hu (bind_ok (a := es.set nbFound (us.getD c 0)) (if_pos (by simpa using hes)) (bind_ok (pyGet_get h0r)
          (bind_ok (a := rz.set c rz[0]) (if_pos hcr) (bind_ok (a := rz[0]) ?_ (bind_ok (a := (rz.set c rz[0]).set 0 rz[0]) (if_pos (by simpa using h0r)) rfl))))))
        rw [pyGet_get (by simpa using hcr)]
        simp
      have hrz' : ∀ p ∈ l, ((rz.set c rz[0]).set 0 rz[0])[p.1]? = us[p.1]? := by
        intro p hp
        have hpc : p.1 ≠ c := fun e => hnd'.1 (e ▸ List.mem_map_of_mem hp)
        have hp' := hrz p (List.mem_cons_of_mem _ hp)
        by_cases e0 : p.1 = 0
        · rw [e0] at hp' ⊢
          rw [List.getElem?_set_self (by simpa using h0r), ← hp', List.getElem?_eq_getElem h0r]
        · rw [List.getElem?_set_ne (Ne.symm e0), List.getElem?_set_ne (Ne.symm hpc)]
          exact hp'
      obtain ⟨rz', h1, h2⟩ := deflate_loop hf l (ev ++ [vals.getD c 0]) (es.set nbFound (us.getD c 0)) ((rz.set c rz[0]).set 0 rz[0])
        hnd'.2 (fun p hp => hlt p (List.mem_cons_of_mem _ hp)) (by simpa using hes) (by simpa using hl) hrz' h0
      · refine ⟨rz', bind_ok hturn ?_, h2⟩
        rw [h1]
        congr 2
        · simp [marked]
        · congr 1
          have hm : marked ((c, true) :: l) = c :: marked l := by simp [marked]
          rw [hm]
          cases hml : marked l with
          | nil => rfl
          | cons a t =>
            rw [List.getLast?_cons_cons]
            have : ∃ z, (a :: t).getLast? = some z := ⟨_, List.getLast?_eq_some_getLast (by simp)⟩
            obtain ⟨z, hz⟩ := this
            simp [hz]

end

end TJ
