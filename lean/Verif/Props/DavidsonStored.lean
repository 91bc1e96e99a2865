/-
Property C53, exact condition: every value stored by `modified_davidson_algorithm_opt` has its vector if and only if no two residues are
accepted in the same iteration.
-/
import Verif.Props.Davidson2

namespace TJ

open Matrix

section
variable {K : Type} [Field K] [LinearOrder K] {d : Nat}

/-- What the columns of the stored vectors are after any number of iterations. -/
structure Stored (nbVal : Nat) (s : OptState K d) : Prop where
  len : s.eigvects.length = nbVal
  vals : s.eigvals.length = s.nbFound
  krylov : Ortho s.krylov
  later : ∀ k, s.nbFound ≤ k → s.eigvects.getD k 0 = 0
  unit : (∀ n ∈ s.accepted, n ≤ 1) → ∀ k < s.nbFound, s.eigvects.getD k 0 ⬝ᵥ s.eigvects.getD k 0 = 1
  lost : (∃ n ∈ s.accepted, 2 ≤ n) → ∃ k < s.nbFound, s.eigvects.getD k 0 = 0

theorem optStep_krylov {L : LinAlg K} (hq : L.ExactQr) {A : Matrix (Fin d) (Fin d) K} {nbVal nu0 : Nat} {tol droptol eta : K} {dimMax : Nat}
    {s s' : OptState K d} {fin : Bool} (ho : Ortho s.krylov) (h : optStep L A nbVal nu0 tol droptol eta dimMax s = .ok (s', fin)) :
    Ortho s'.krylov := by
  unfold optStep at h
  obtain ⟨r, _, h⟩ := bind_ok_inv h
  obtain ⟨st, _, h⟩ := bind_ok_inv h
  dsimp only at h
  split_ifs at h
  · obtain ⟨rfl, _⟩ := Prod.mk.inj (Except.ok.inj h)
    exact ho
  · obtain ⟨temp, _, h⟩ := bind_ok_inv h
    obtain ⟨corr, _, h⟩ := bind_ok_inv h
    obtain ⟨rfl, _⟩ := Prod.mk.inj (Except.ok.inj h)
    dsimp only
    split_ifs <;> exact (hq d _).2.1

theorem getD_set_ne {l : List (Fin d → K)} {i k : Nat} (h : k ≠ i) (x : Fin d → K) : (l.set i x).getD k 0 = l.getD k 0 := by
  rw [List.getD_eq_getElem?_getD, List.getD_eq_getElem?_getD, List.getElem?_set_ne (Ne.symm h)]

theorem getD_set_self {l : List (Fin d → K)} {i : Nat} (h : i < l.length) (x : Fin d → K) : (l.set i x).getD i 0 = x := by
  rw [List.getD_eq_getElem?_getD, List.getElem?_set_self h]; rfl

theorem stored_step {L : LinAlg K} (he : L.ExactEigh) (hq : L.ExactQr) {A : Matrix (Fin d) (Fin d) K} (hA : A.IsSymm) {nbVal nu0 : Nat}
    {tol droptol eta : K} {dimMax : Nat} {s s' : OptState K d} {fin : Bool} (hs : Stored nbVal s) (hf : s.nbFound < nbVal)
    (h : optStep L A nbVal nu0 tol droptol eta dimMax s = .ok (s', fin)) : Stored nbVal s' ∧ (fin = true ↔ nbVal ≤ s'.nbFound) := by
  obtain ⟨vals, us, rs, g0, m, g1, g2, g3, g4, g5, g6⟩ := optStep_store hs.len hf h
  obtain ⟨_, r2, r3, r4, _⟩ := ritz_ok g0
  obtain ⟨o1, _, _⟩ := ritz_exact he hA hs.krylov g0
  have hcol : ∀ k, k ≠ s.nbFound → s'.eigvects.getD k 0 = s.eigvects.getD k 0 := by
    intro k hk
    rw [g5]
    cases m.getLast? with
    | none => rfl
    | some c => exact getD_set_ne hk _
  refine ⟨⟨?_, ?_, optStep_krylov hq hs.krylov h, ?_, ?_, ?_⟩, g6⟩
  · rw [g5]; cases m.getLast? <;> simp [hs.len]
  · rw [g4, g3]; simp [hs.vals]
  · intro k hk
    by_cases e : k = s.nbFound
    · have : m = [] := List.length_eq_zero_iff.1 (by omega)
      rw [g5, this]
      exact hs.later k (by omega)
    · rw [hcol k e]
      exact hs.later k (by omega)
  · intro hall k hk
    have hm : m.length ≤ 1 := hall _ (by rw [g2]; simp)
    by_cases e : k = s.nbFound
    · obtain ⟨c, hc⟩ : ∃ c, m = [c] := List.length_eq_one_iff.1 (by omega)
      have hc2 := (mem_marked (x := c) (by rw [← g1, hc]; simp)).2
      have hcu : c < us.length := by omega
      rw [g5, hc, e]
      simp only [List.getLast?_singleton]
      rw [getD_set_self (by rw [hs.len]; exact hf), List.getD_eq_getElem?_getD, List.getElem?_eq_getElem hcu]
      exact ((ortho_iff _).1 o1).1 _ (List.getElem_mem _)
    · rw [hcol k e]
      exact hs.unit (fun n hn => hall n (by rw [g2]; exact List.mem_append_left _ hn)) k (by omega)
  · rintro ⟨n, hn, h2⟩
    rw [g2] at hn
    rcases List.mem_append.1 hn with hn | hn
    · obtain ⟨k, hk, hk0⟩ := hs.lost ⟨n, hn, h2⟩
      exact ⟨k, by omega, by rw [hcol k (by omega)]; exact hk0⟩
    · obtain rfl := List.mem_singleton.1 hn
      exact ⟨s.nbFound + 1, by omega, by rw [hcol _ (by omega)]; exact hs.later _ (by omega)⟩

theorem stored_loop {L : LinAlg K} (he : L.ExactEigh) (hq : L.ExactQr) {A : Matrix (Fin d) (Fin d) K} (hA : A.IsSymm) {nbVal nu0 : Nat}
    {tol droptol eta : K} {dimMax : Nat} : ∀ stp {s s' : OptState K d}, Stored nbVal s → s.nbFound < nbVal →
      optLoop L A nbVal nu0 tol droptol eta dimMax stp s = .ok s' → Stored nbVal s' := by
  intro stp
  induction stp with
  | zero =>
    intro s s' hs _ h
    unfold optLoop at h
    obtain rfl := Except.ok.inj h
    exact hs
  | succ stp ih =>
    intro s s' hs hf h
    unfold optLoop at h
    obtain ⟨⟨s1, fin⟩, h1, h2⟩ := bind_ok_inv h
    obtain ⟨g1, g2⟩ := stored_step he hq hA hs hf h1
    by_cases hfin : fin = true
    · rw [if_pos hfin] at h2
      obtain rfl := Except.ok.inj h2
      exact g1
    · rw [if_neg hfin] at h2
      refine ih g1 ?_ h2
      by_contra hc
      exact hfin (g2.2 (by omega))

/-- C53. With an exact library: every value that is returned has, at its place, a vector of norm one whose residue is within the tolerance, if
and only if no iteration accepted two residues. -/
theorem C53_aligned_iff (L : LinAlg K) (he : L.ExactEigh) (hq : L.ExactQr) (A : Matrix (Fin d) (Fin d) K) (hA : A.IsSymm)
    (nbVal initBlockSize stp : Nat) (tol droptol eta : K) (dimMax : Nat) (hnb : 1 ≤ nbVal) (s : OptState K d)
    (h : modifiedDavidsonOpt L A nbVal initBlockSize stp tol droptol eta dimMax = .ok s) :
    (∀ k < s.eigvals.length, k < s.eigvects.length ∧ s.eigvects.getD k 0 ⬝ᵥ s.eigvects.getD k 0 = 1 ∧
      L.norm (s.eigvals.getD k 0 • s.eigvects.getD k 0 - A *ᵥ s.eigvects.getD k 0) ≤ tol) ↔ ∀ n ∈ s.accepted, n ≤ 1 := by
  have hs : Stored nbVal s := by
    refine stored_loop he hq hA stp (s := ⟨0, [], List.replicate nbVal 0, L.qr d (L.rand d (max initBlockSize nbVal)), []⟩) ?_ hnb h
    refine ⟨by simp, rfl, (hq d _).2.1, fun k _ => ?_, fun _ k hk => absurd hk (by simp), fun ⟨n, hn, _⟩ => absurd hn (by simp)⟩
    show (List.replicate nbVal (0 : Fin d → K)).getD k 0 = 0
    rw [List.getD_eq_getElem?_getD, List.getElem?_replicate]
    split_ifs <;> rfl
  constructor
  · intro hall
    by_contra hcon
    push Not at hcon
    obtain ⟨n, hn, h2⟩ := hcon
    obtain ⟨k, hk, hk0⟩ := hs.lost ⟨n, hn, h2⟩
    have := (hall k (by rw [hs.vals]; exact hk)).2.1
    rw [hk0] at this
    simp at this
  · intro hacc k hk
    obtain ⟨p1, _⟩ := C53_aligned_partial L A nbVal initBlockSize stp tol droptol eta dimMax hnb s h hacc
    exact ⟨(p1 k hk).1, hs.unit hacc k (by rw [← hs.vals]; exact hk), (p1 k hk).2⟩

/-- C53. In all runs the number of values is the number of residues accepted, and an iteration that accepts two or more of them leaves a
column of zeros beside a value. -/
theorem C53_lost (L : LinAlg K) (he : L.ExactEigh) (hq : L.ExactQr) (A : Matrix (Fin d) (Fin d) K) (hA : A.IsSymm)
    (nbVal initBlockSize stp : Nat) (tol droptol eta : K) (dimMax : Nat) (hnb : 1 ≤ nbVal) (s : OptState K d)
    (h : modifiedDavidsonOpt L A nbVal initBlockSize stp tol droptol eta dimMax = .ok s) (n : Nat) (hn : n ∈ s.accepted) (h2 : 2 ≤ n) :
    ∃ k < s.eigvals.length, s.eigvects.getD k 0 = 0 := by
  have hs : Stored nbVal s := by
    refine stored_loop he hq hA stp (s := ⟨0, [], List.replicate nbVal 0, L.qr d (L.rand d (max initBlockSize nbVal)), []⟩) ?_ hnb h
    refine ⟨by simp, rfl, (hq d _).2.1, fun k _ => ?_, fun _ k hk => absurd hk (by simp), fun ⟨n, hn, _⟩ => absurd hn (by simp)⟩
    show (List.replicate nbVal (0 : Fin d → K)).getD k 0 = 0
    rw [List.getD_eq_getElem?_getD, List.getElem?_replicate]
    split_ifs <;> rfl
  obtain ⟨k, hk, hk0⟩ := hs.lost ⟨n, hn, h2⟩
  exact ⟨k, by rw [hs.vals]; exact hk, hk0⟩

end

/-- Both sides occur: a matrix of order one is right, one of order two with a block of two is not. -/
example : (∃ s, modifiedDavidsonOpt realLib (!![7] : Matrix (Fin 1) (Fin 1) ℝ) 1 1 100 (1 / 1000) (1 / 1000000) (1 / 10) 0 = .ok s ∧
      ∀ n ∈ s.accepted, n ≤ 1) ∧
    ∃ s, modifiedDavidsonOpt realLib (!![1, 0; 0, 2] : Matrix (Fin 2) (Fin 2) ℝ) 2 2 100 (1 / 1000) (1 / 1000000) (1 / 10) 0 = .ok s ∧
      ∃ k < s.eigvals.length, s.eigvects.getD k 0 = 0 := by
  constructor
  · obtain ⟨s, h1, h2, _⟩ := C53_simultaneous realLib realLib_sqrt realLib_eigh realLib_qr realLib_rand
      (!![7] : Matrix (Fin 1) (Fin 1) ℝ) (by ext i j; fin_cases i; fin_cases j; rfl) 1 100 (by omega) (by omega) (by omega)
      (1 / 1000) (1 / 1000000) (1 / 10) (by norm_num) 0
    exact ⟨s, h1, by rw [h2]; simp⟩
  · have hA : (!![1, 0; 0, 2] : Matrix (Fin 2) (Fin 2) ℝ).IsSymm := by ext i j; fin_cases i <;> fin_cases j <;> rfl
    obtain ⟨s, h1, h2, _⟩ := C53_simultaneous realLib realLib_sqrt realLib_eigh realLib_qr realLib_rand
      (!![1, 0; 0, 2] : Matrix (Fin 2) (Fin 2) ℝ) hA 2 100 (by omega) (by omega) (by omega)
      (1 / 1000) (1 / 1000000) (1 / 10) (by norm_num) 0
    exact ⟨s, h1, C53_lost realLib realLib_eigh realLib_qr _ hA 2 2 100 _ _ _ 0 (by omega) s h1 2 (by rw [h2]; simp) (le_refl _)⟩

end TJ
