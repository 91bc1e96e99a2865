/-
C92, C93: the diagonalisation used by the embeddings gives non-zero vectors of the right length, and both embeddings with it
always end.
-/
import Verif.Props.Embedding5
import Verif.Props.Det
import Verif.Props.Davidson
import Verif.Lemmas.ExactLib

namespace TJ

open Matrix Finset

variable {K : Type} [Field K] [LinearOrder K] [IsStrictOrderedRing K]

/-- The starting vector of a search for one state in dimension `n` is not zero: the given one, or the random one. -/
def GoodStart {K : Type} [Field K] (L : Nat → LinAlg K) (n : Nat) : Option (List K) → Prop
  | none => ∀ k, ∃ v, (L k).rand n 1 = [v] ∧ v ≠ 0
  | some g => ∃ i < n, g.getD i 0 ≠ 0

omit [IsStrictOrderedRing K] in
theorem combine_one {d : Nat} (v : Fin d → K) (hv : v ≠ 0) (y : Fin 1 → K) (hy : y ≠ 0) : combine [v] y ≠ 0 := by
  intro h
  have h1 : combine [v] y = y 0 • v := by
    unfold combine
    exact Fin.sum_univ_one _
  rw [h1] at h
  rcases smul_eq_zero.1 h with h | h
  · apply hy
    ext i
    rw [Subsingleton.elim i 0]
    exact h
  · exact hv h

theorem combine_ortho {d : Nat} {V : List (Fin d → K)} (hV : Ortho V) (y : Fin V.length → K) (hy : y ≠ 0) : combine V y ≠ 0 := by
  intro h
  have h1 := combine_dot hV y y
  rw [h, zero_dotProduct] at h1
  exact hy (dotProduct_self_eq_zero.1 h1.symm)

/-- The vectors returned by `modified_davidson_algorithm` are not zero. -/
theorem davidson_ne_zero {d : Nat} (L : LinAlg K) (hq : L.ExactQr) (he : ∀ n M i, (L.eigh n M).2 i ≠ 0) (A : Matrix (Fin d) (Fin d) K)
    (nbVal : Nat) (guess : Option (List (Fin d → K))) (stp : Nat) (tol : K) (dimMax : Nat)
    (hg : 1 < min nbVal (if dimMax = 0 then d else dimMax) ∨
      ∃ v, guess.getD (L.rand d (min nbVal (if dimMax = 0 then d else dimMax))) = [v] ∧ v ≠ 0)
    (r : DavidsonResult K d) (h : modifiedDavidson L A nbVal guess stp tol dimMax = .ok r) : ∀ u ∈ r.eigvects, u ≠ 0 := by
  unfold modifiedDavidson at h
  dsimp only at h
  set nb := min nbVal (if dimMax = 0 then d else dimMax)
  cases stp with
  | zero => cases h
  | succ stp =>
    obtain ⟨T, W, rs, h1, h2, h3, h4, _⟩ := davidsonLoop_result h
    have hW := List.mem_of_getLast? h2
    have key : ∀ y : Fin W.length → K, y ≠ 0 → combine W y ≠ 0 := by
      rcases mem_chain h3 W hW with e | ⟨y, _, hy⟩
      · rcases hg with hg | ⟨v, hv, hv0⟩
        · rw [if_pos hg] at e
          rw [e]
          exact combine_ortho (hq d _).2.1
        · by_cases h1 : 1 < nb
          · rw [if_pos h1] at e
            rw [e]
            exact combine_ortho (hq d _).2.1
          · rw [if_neg h1, hv] at e
            rw [e]
            exact combine_one v hv0
      · exact combine_ortho (hy.ortho hq)
    obtain ⟨idx, _, _, _, e⟩ := ritz_spec L A W nb (ritz_ok h4).1
    rw [e] at h4
    have h5 : _ = r.eigvects := congrArg (fun x => x.2.1) (Except.ok.inj h4)
    intro u hu
    rw [← h5] at hu
    obtain ⟨i, _, rfl⟩ := List.mem_map.1 hu
    exact key _ (he _ _ i)

/-- C92, first clause. The diagonalisation of the embeddings is `Solver.Good`: this discharges the hypothesis of C59, C73 and C74. -/
theorem C92_nonzero_vectors (L : Nat → LinAlg K) (hq : ∀ k, (L k).ExactQr) (he : ∀ k n M i, ((L k).eigh n M).2 i ≠ 0) (nbVal : Nat)
    (guess : Option (List K)) (stp : Nat) (tol : K) (dimMax n : Nat)
    (hg : min nbVal (if dimMax = 0 then n else dimMax) = 1 → GoodStart L n guess) :
    (davidsonSolver L nbVal guess stp tol dimMax).Good n := by
  rintro k M vals vects gs rfl h hgs
  unfold davidsonSolver at h
  obtain ⟨r, h1, h2⟩ := bind_eq_ok.1 h
  obtain ⟨rfl, rfl⟩ := Prod.mk.inj (Except.ok.inj h2)
  obtain ⟨c1, c2, _⟩ := C50_converged (L k) M.toMatrix nbVal _ stp tol dimMax r h1
  rw [List.getElem?_map] at hgs
  obtain ⟨u, hu, rfl⟩ := Option.map_eq_some_iff.1 hgs
  have hlen := (List.getElem?_eq_some_iff.1 hu).1
  refine ⟨by simp, ?_⟩
  have h0 : u ≠ 0 := by
    refine davidson_ne_zero (L k) (hq k) (he k) M.toMatrix nbVal _ stp tol dimMax ?_ r h1 u (List.mem_of_getElem? hu)
    by_cases h1 : 1 < min nbVal (if dimMax = 0 then M.dim else dimMax)
    · exact Or.inl h1
    · right
      have hn : min nbVal (if dimMax = 0 then M.dim else dimMax) = 1 := by omega
      have hg := hg hn
      rw [hn]
      cases guess with
      | none => exact hg k
      | some g =>
        obtain ⟨i, hi, hg⟩ := hg
        refine ⟨_, rfl, fun h => hg ?_⟩
        exact congrFun h ⟨i, hi⟩
  by_contra hc
  push Not at hc
  apply h0
  ext i
  exact hc _ (List.mem_ofFn.2 ⟨i, rfl⟩)

/-- C92, second clause. The diagonalisation of the embeddings always gives at least one eigenvalue and one vector, so the loops which
repeat it until there is one run once. -/
theorem C92_always_solves (L : Nat → LinAlg K) (hq : ∀ k, (L k).ExactQr) (hrand : ∀ k d m, ((L k).rand d m).length = m) (nbVal : Nat)
    (guess : Option (List K)) (stp : Nat) (hs : 1 ≤ stp) (tol : K) (dimMax : Nat) (k : Nat) (M : SpMat K)
    (h1 : 1 ≤ min nbVal (if dimMax = 0 then M.dim else dimMax)) (hd : min nbVal (if dimMax = 0 then M.dim else dimMax) ≤ M.dim)
    (hg : guess = none ∨ nbVal = 1) :
    ∃ vals vects, davidsonSolver L nbVal guess stp tol dimMax k M = .ok (vals, vects) ∧ vals ≠ [] ∧ vects ≠ [] := by
  obtain ⟨r, hr⟩ := C50_no_failure (L k) (hq k) (hrand k) M.toMatrix nbVal (guess.map (fun v => [fun i => v.getD i 0])) stp hs tol dimMax hd
    (by
      intro g e
      rcases hg with rfl | rfl
      · cases e
      · obtain ⟨v, _, rfl⟩ := Option.map_eq_some_iff.1 e
        simp only [List.length_singleton]
        omega)
  obtain ⟨c1, c2, _⟩ := C50_converged (L k) M.toMatrix nbVal _ stp tol dimMax r hr
  refine ⟨r.eigvals, r.eigvects.map List.ofFn, ?_, ?_, ?_⟩
  · unfold davidsonSolver
    rw [hr]
    rfl
  · intro e
    rw [e] at c1
    simp only [List.length_nil] at c1
    omega
  · intro e
    rw [List.map_eq_nil_iff.1 e] at c2
    simp only [List.length_nil] at c2
    omega

theorem neelLoop_total (E : Env) (sqrt : K → K) (solve : Solver K) (fuel : Nat) (I : Interactions K) (c : Config)
    (hc : RectConf c c.nbh c.nbv c.nblocs) (hW : 2 ≤ c.nbh * c.nblocs) (hH : 2 ≤ c.nbv * c.nblocs) (dets : List (List Nat))
    (hsol : solve.Good dets.length)
    (htot : ∀ k M, M.dim = dets.length → ∃ vals vects, solve k M = .ok (vals, vects) ∧ vals ≠ [] ∧ vects ≠ [])
    (hb : constructBasis c = .ok dets) (hn : c.nholes + c.nbeta ≤ c.nsites) (ham : SpMat K) (hd : ham.dim = dets.length)
    (hin : ∀ t ∈ ham.coo, t.2.1 < ham.dim ∧ t.2.2 < ham.dim) (tol : K) (su : NeelSetup) (hs : neelSetup E.toSetSem c = .ok su) :
    ∀ (iter k : Nat) (pR : List (Int × List K)) (f : Occ → Nat → K) (gs : List K) (last : Option (List K × List (List K)))
      (trace : List (NeelStep K)), IsLaw pR (2 * (c.nbh + c.nbv) * c.nblocs) f → gs.length = dets.length →
      (iter = 0 → last ≠ none) →
      ∃ r, neelLoop E sqrt solve (fuel + 1) I c su dets ham tol iter k pR gs last trace = .ok r
  | 0, k, pR, f, gs, none, trace, _, _, h => absurd rfl (h rfl)
  | 0, k, pR, f, gs, some (a, b), trace, _, _, _ => ⟨_, rfl⟩
  | iter + 1, k, pR, f, gs, last, trace, hR, hgs, _ => by
    obtain ⟨h, h1, h2, _⟩ := neelDressed_eq E I c hc hW hH dets hb hn ham hd hin su hs pR f hR
    obtain ⟨vals, vects, s1, s2, s3⟩ := htot k h (h2.trans hd)
    obtain ⟨g, vs, rfl⟩ := List.exists_cons_of_ne_nil s3
    obtain ⟨hg, _⟩ := hsol k h vals _ g (h2.trans hd) s1 rfl
    obtain ⟨A, a1, _⟩ := C43_placement_partial c hc dets hb hn g hg .hole
    have e1 : neelSolve solve c dets h (fuel + 1) k = .ok (k + 1, vals, g :: vs, g) := by
      unfold neelSolve
      refine bind_eq_ok.2 ⟨_, s1, bind_eq_ok.2 ⟨g, rfl, ?_⟩⟩
      rw [if_pos s2]
      exact bind_eq_ok.2 ⟨A, a1, rfl⟩
    obtain ⟨pL, pR', f', u1, u2, u3, _⟩ := update_ok E.toSetSem hc hs hb hn g hg
    have e2 : ∃ b, converged sqrt tol g gs = .ok b := by
      unfold converged
      rw [if_neg (not_not.2 (hg.trans hgs.symm))]
      split_ifs
      · exact ⟨_, rfl⟩
      · exact ⟨_, rfl⟩
    obtain ⟨b, e2⟩ := e2
    have step : ∀ r, (if b then (Except.ok ⟨ham, vals, g :: vs, trace ++ [⟨h, pR, g⟩], true⟩ : Py (NeelResult K))
        else neelLoop E sqrt solve (fuel + 1) I c su dets ham tol iter (k + 1) pR' g (some (vals, g :: vs)) (trace ++ [⟨h, pR, g⟩])) = .ok r →
        neelLoop E sqrt solve (fuel + 1) I c su dets ham tol (iter + 1) k pR gs last trace = .ok r := by
      intro r hr
      unfold neelLoop
      exact bind_eq_ok.2 ⟨h, h1, bind_eq_ok.2 ⟨_, e1, bind_eq_ok.2 ⟨_, u1, bind_eq_ok.2 ⟨_, u2, bind_eq_ok.2 ⟨b, e2, hr⟩⟩⟩⟩⟩
    cases b with
    | true => exact ⟨_, step _ rfl⟩
    | false =>
      obtain ⟨r, hr⟩ := neelLoop_total E sqrt solve fuel I c hc hW hH dets hsol htot hb hn ham hd hin tol su hs iter (k + 1) pR' f' g
        (some (vals, g :: vs)) (trace ++ [⟨h, pR, g⟩]) u3 hg (by simp)
      exact ⟨r, step r hr⟩

/-- C92, third clause. `embedding_neel` always returns: no exception and no endless loop, for every block with at least two
rows and columns, every legal filling, and every library with exact QR decompositions, non-zero eigenvectors and
non-zero random vectors. -/
theorem C92_neel_returns (E : Env) (sqrt : K → K) (L : Nat → LinAlg K) (hq : ∀ k, (L k).ExactQr)
    (he : ∀ k n M i, ((L k).eigh n M).2 i ≠ 0) (hrand : ∀ k d m, ((L k).rand d m).length = m)
    (hr0 : ∀ k d, 1 ≤ d → ∀ v ∈ (L k).rand d 1, v ≠ 0) (fuel : Nat) (I : Interactions K) (c : Config)
    (hc : RectConf c c.nbh c.nbv c.nblocs) (hW : 2 ≤ c.nbh * c.nblocs) (hH : 2 ≤ c.nbv * c.nblocs) (dets : List (List Nat))
    (hb : constructBasis c = .ok dets) (hn : c.nholes + c.nbeta ≤ c.nsites) (ham : SpMat K) (hd : ham.dim = dets.length)
    (hin : ∀ t ∈ ham.coo, t.2.1 < ham.dim ∧ t.2.2 < ham.dim) (gs0 : List K) (hgs0 : gs0.length = dets.length) (rest : List (List K))
    (nbVal stp dimMax : Nat) (hnb : 1 ≤ nbVal) (hnb' : nbVal ≤ dets.length) (hs : 1 ≤ stp) (tol tolSelf : K) (maxIter : Nat) (hm : 1 ≤ maxIter) :
    ∃ r, embeddingNeel E sqrt (davidsonSolver L nbVal none stp tol dimMax) (fuel + 1) I c dets ham (gs0 :: rest) tolSelf maxIter = .ok r := by
  obtain ⟨su, e1, _⟩ := neelSetup_ok E.toSetSem hc
  obtain ⟨P, p1, p2, p3⟩ := initialProb_ok (K := K) E.toSetSem c.nbh c.nbv c.nblocs hc.hh hc.hv hc.hb
  unfold embeddingNeel
  suffices h : ∃ r, neelLoop E sqrt (davidsonSolver L nbVal none stp tol dimMax) (fuel + 1) I c su dets ham tolSelf maxIter 0
      [(-1, P .down), (0, P .hole), (1, P .up)] gs0 none [] = .ok r by
    obtain ⟨r, h⟩ := h
    exact ⟨r, bind_eq_ok.2 ⟨gs0, rfl, bind_eq_ok.2 ⟨su, e1, bind_eq_ok.2 ⟨_, p1, h⟩⟩⟩⟩
  refine neelLoop_total E sqrt _ fuel I c hc hW hH dets ?_ ?_ hb hn ham hd hin tolSelf su e1 maxIter 0 _ _ gs0 none []
    (isLaw_three (P .down) (P .hole) (P .up) _ (p2 _) (p2 _) (p2 _)) hgs0 (fun h => absurd h (by omega))
  · refine C92_nonzero_vectors L hq he nbVal none stp tol dimMax dets.length fun _ k => ?_
    obtain ⟨v, hv⟩ := List.length_eq_one_iff.1 (hrand k dets.length 1)
    exact ⟨v, hv, hr0 k _ (by omega) v (by simp [hv])⟩
  · intro k M hM
    refine C92_always_solves L hq hrand nbVal none stp hs tol dimMax k M ?_ ?_ (Or.inl rfl)
    · split_ifs <;> omega
    · omega

/-! ### C93 -/

/-- What is computed before the iterations of `embedding_blocks` never fails on an unrestricted rectangular block. -/
theorem blockSetup_ok (S : SetSem) {c : Config} (hc : RectConf c c.nbh c.nbv c.nblocs) (hf : c.Full) (hn : c.nholes + c.nbeta ≤ c.nsites)
    {dets : List (List Nat)} (hb : constructBasis c = .ok dets) (reverse : Bool) : ∃ su, blockSetup S c dets reverse = .ok su := by
  obtain ⟨hs, _⟩ := hc.spec
  obtain ⟨emb, b1, b2, _⟩ := C16_two_blocks c.nbh c.nbv c.nblocs hc.hh hc.hv hc.hb
  have e2 : c.nbh * c.nbv * c.nblocs ^ 2 = c.nbh * c.nblocs * (c.nbv * c.nblocs) := by ring
  rw [e2, ← hs] at b2
  have hpos : 0 < c.nsites := by
    rw [hs]; exact Nat.mul_pos (Nat.mul_pos hc.hh hc.hb) (Nat.mul_pos hc.hv hc.hb)
  obtain ⟨nb, hnb, hns⟩ : ∃ nb : Config × List (List Nat), (if reverse then reverseSpinsBasis S c dets else .ok (c, dets)) = .ok nb ∧
      nb.1.nsites = c.nsites := by
    cases reverse with
    | false => exact ⟨_, rfl, rfl⟩
    | true =>
      obtain ⟨c', l', r1, _, _, r2, _⟩ := C10_reverse_basis S c hf hn dets hb
      refine ⟨_, r1, ?_⟩
      unfold Config.nsites
      rw [r2]
  have hfr : ∃ fr, frontierBlocks S c nb.1.nsites emb = .ok fr := by
    have hone : ∀ shift, shift ≤ c.nsites → ∀ a ∈ List.range c.nsites, ∃ b, (do
        let x ← getNeighbors S a c.bond (.list [])
        let y ← getNeighbors S (a + shift) emb (.list [])
        return if x.length < y.length then y else [] : Py (List Nat)) = .ok b ∧ True := by
      intro shift hsh a ha
      have ha := List.mem_range.1 ha
      obtain ⟨x, x1, _⟩ := getNeighbors_spec S c.bond (.list []) a ha
      obtain ⟨y, y1, _⟩ := getNeighbors_spec S emb (.list []) (a + shift) (by omega)
      exact ⟨_, bind_eq_ok.2 ⟨x, x1, bind_eq_ok.2 ⟨y, y1, rfl⟩⟩, trivial⟩
    obtain ⟨l1, m1, _⟩ := mapM_ok_exists (P := fun _ _ => True) _ (hone 0 (by omega))
    obtain ⟨l2, m2, _⟩ := mapM_ok_exists (P := fun _ _ => True) _ (hone c.nsites (le_refl _))
    rw [hns]
    unfold frontierBlocks
    exact ⟨_, bind_eq_ok.2 ⟨l1, m1, bind_eq_ok.2 ⟨l2, m2, rfl⟩⟩⟩
  obtain ⟨fr, hfr⟩ := hfr
  have hinit : ∀ a b r, ∃ cE, Config.init emb a b r .clusters (2 * c.nbh) c.nbv c.nblocs = .ok cE := by
    intro a b r
    unfold Config.init
    rw [if_neg (by omega)]
    exact ⟨_, rfl⟩
  obtain ⟨cE, e4⟩ := hinit (c.nholes + nb.1.nholes) (c.nbeta + nb.1.nbeta)
    (.pair (fr.filter (fun s => s < c.nsites)) (fr.filter (fun s => c.nsites ≤ s)))
  obtain ⟨cF, e5⟩ := hinit (c.nholes + nb.1.nholes) (c.nbeta + nb.1.nbeta) (.list [])
  unfold blockSetup
  cases reverse with
  | false => exact ⟨_, bind_eq_ok.2 ⟨nb, hnb, bind_eq_ok.2 ⟨emb, b1, bind_eq_ok.2 ⟨fr, hfr, bind_eq_ok.2 ⟨cE, e4, bind_eq_ok.2 ⟨cF, e5, rfl⟩⟩⟩⟩⟩⟩
  | true => exact ⟨_, bind_eq_ok.2 ⟨nb, hnb, bind_eq_ok.2 ⟨emb, b1, bind_eq_ok.2 ⟨fr, hfr, bind_eq_ok.2 ⟨cE, e4, bind_eq_ok.2 ⟨cF, e5, rfl⟩⟩⟩⟩⟩⟩

omit [LinearOrder K] [IsStrictOrderedRing K] in
theorem foldlM_keeps {α : Type} {f : SpMat K → α → Py (SpMat K)} {P : SpMat K → Prop} :
    ∀ (l : List α) (M : SpMat K), P M → (∀ M, P M → ∀ a ∈ l, ∃ M', f M a = .ok M' ∧ P M') → ∃ M', l.foldlM f M = .ok M' ∧ P M'
  | [], M, h, _ => ⟨M, rfl, h⟩
  | a :: l, M, h, hf => by
    obtain ⟨M1, h1, h2⟩ := hf M h a (by simp)
    obtain ⟨M2, h3, h4⟩ := foldlM_keeps l M1 h2 (fun M hM a ha => hf M hM a (List.mem_cons_of_mem _ ha))
    exact ⟨M2, by rw [List.foldlM_cons]; exact bind_eq_ok.2 ⟨M1, h1, h3⟩, h4⟩

/-- The dressing without dynamical effects never fails. -/
theorem blockDressed_total (E : Env) (I : Interactions K) {c : Config} {su : BlockSetup} (g : BlockGeom c su)
    (hg : GeomLattice E su.cE (twoPos (c.nbh * c.nblocs) (c.nbv * c.nblocs))) {dets : List (List Nat)} (hb : constructBasis c = .ok dets)
    (hn : c.nholes + c.nbeta ≤ c.nsites) (o : BlockOptions K) (ho : o.dynamic = false)
    (hsq : o.neighbor = false → c.nbh * c.nblocs = c.nbv * c.nblocs) (ham : SpMat K) (hd : ham.dim = dets.length)
    (hin : ∀ t ∈ ham.coo, t.2.1 < ham.dim ∧ t.2.2 < ham.dim) (gs : List K) (hv : gs.length = dets.length) (en : K) :
    ∃ h, blockDressed E I c su o dets ham gs en = .ok h := by
  obtain ⟨pB, b1, b2⟩ := neighbourLaw_ok hb hn gs hv o.reverse
  unfold blockDressed
  have hadd : ∀ (M : SpMat K) (x : K) (r : Nat), (M.dim = dets.length ∧ ∀ t ∈ M.coo, t.2.1 < dets.length ∧ t.2.2 < dets.length) →
      r < dets.length → ∃ M', addHamCoo M x r r = .ok M' ∧ (M'.dim = dets.length ∧ ∀ t ∈ M'.coo, t.2.1 < dets.length ∧ t.2.2 < dets.length) := by
    rintro M x r ⟨h1, h2⟩ hr
    refine ⟨_, addHamCoo_ok (by rw [h1]; exact h2) x (by omega) (by omega), h1, ?_⟩
    intro t ht
    rcases List.mem_append.1 ht with h | h
    · exact h2 t h
    · rw [List.mem_singleton.1 h]
      exact ⟨hr, hr⟩
  obtain ⟨M, hM, _⟩ := foldlM_keeps (P := fun M => M.dim = dets.length ∧ ∀ t ∈ M.coo, t.2.1 < dets.length ∧ t.2.2 < dets.length)
    (f := fun (h : SpMat K) (p : List Nat × Nat) => do
      let intr ← blockIntr E I c su dets pB p.2
      let h ← addStaticDressing c o.neighbor p.1 p.2 intr h
      if o.dynamic then blockDynamic E I c su o.neighbor o.threshold gs en p.1 h else return h)
    dets.zipIdx ham ⟨hd, by rw [← hd]; exact hin⟩ (by
      intro M hM p hp
      have hp' := List.mem_zipIdx hp
      have hlt : p.2 < dets.length := by omega
      have hpd : p.1 = dets.getD p.2 [] := by
        rw [List.getD_eq_getElem dets [] hlt]
        simpa using hp'.2.2
      have hst : ∀ x, ∃ M', addStaticDressing c o.neighbor p.1 p.2 x M = .ok M' ∧
          (M'.dim = dets.length ∧ ∀ t ∈ M'.coo, t.2.1 < dets.length ∧ t.2.2 < dets.length) := by
        intro x
        unfold addStaticDressing
        by_cases hnb : o.neighbor = true
        · rw [if_pos hnb]
          exact hadd M x p.2 hM hlt
        · rw [if_neg hnb]
          have hnf : o.neighbor = false := by simpa using hnb
          have hq : SquareConf c (c.nbh * c.nblocs) := ⟨rfl, (hsq hnf).symm, by rw [g.rows, ← hsq hnf]⟩
          refine foldlM_keeps (P := fun M => M.dim = dets.length ∧ ∀ t ∈ M.coo, t.2.1 < dets.length ∧ t.2.2 < dets.length) _ M hM ?_
          intro M hM q _
          refine hadd M x _ hM ?_
          rw [hpd]
          exact rotIdx_lt hq hn hb (q : Int) hlt
      obtain ⟨M', m1, m2⟩ := hst (borderEnergy I c.nsites c.nsites
        (fun a r => Near (twoPos (c.nbh * c.nblocs) (c.nbv * c.nblocs) a) (twoPos (c.nbh * c.nblocs) (c.nbv * c.nblocs) (c.nsites + r)))
        (fun a r => Diagonal (twoPos (c.nbh * c.nblocs) (c.nbv * c.nblocs) a) (twoPos (c.nbh * c.nblocs) (c.nbv * c.nblocs) (c.nsites + r)))
        (occ c.nholes c.nbeta dets[p.2]) (neighbourLaw c dets o.reverse gs))
      refine ⟨M', bind_eq_ok.2 ⟨_, blockIntr_eq E I g hg hb hn b2 hlt, bind_eq_ok.2 ⟨M', m1, ?_⟩⟩, m2⟩
      rw [ho]
      rfl)
  exact ⟨M, bind_eq_ok.2 ⟨pB, b1, hM⟩⟩

omit [IsStrictOrderedRing K] in
theorem blockLoop_total (E : Env) (sqrt : K → K) (solve : Solver K) (fuel : Nat) (I : Interactions K) (c : Config)
    (dets : List (List Nat)) (hsol : solve.Good dets.length)
    (htot : ∀ k M, M.dim = dets.length → ∃ vals vects, solve k M = .ok (vals, vects) ∧ vals ≠ [] ∧ vects ≠ [])
    (su : BlockSetup) (o : BlockOptions K) (ham : SpMat K) (tol : K)
    (hP : ∀ gs en, gs.length = dets.length → ∃ h, blockDressed E I c su o dets ham gs en = .ok h ∧ h.dim = dets.length) :
    ∀ (iter k : Nat) (gs : List K) (en : K) (b : Bool) (trace : List (BlockStep K)), gs.length = dets.length → (iter = 0 → b = true) →
      ∃ r, blockLoop E sqrt solve (fuel + 1) I c su o dets ham tol iter k gs en b trace = .ok r
  | 0, k, gs, en, false, trace, _, h => absurd (h rfl) (by simp)
  | 0, k, gs, en, true, trace, _, _ => ⟨_, rfl⟩
  | iter + 1, k, gs, en, b, trace, hgs, _ => by
    obtain ⟨h, h1, h2⟩ := hP gs en hgs
    obtain ⟨vals, vects, s1, s2, s3⟩ := htot k h h2
    obtain ⟨g, vs, rfl⟩ := List.exists_cons_of_ne_nil s3
    obtain ⟨e0, es, rfl⟩ := List.exists_cons_of_ne_nil s2
    obtain ⟨hg, _⟩ := hsol k h _ _ g h2 s1 rfl
    have e1 : blockSolve solve h (fuel + 1) k = .ok (k + 1, e0 :: es, g :: vs) := by
      unfold blockSolve
      refine bind_eq_ok.2 ⟨_, s1, ?_⟩
      rw [if_pos s2]
      rfl
    obtain ⟨conv, e2⟩ : ∃ conv, converged sqrt tol g gs = .ok conv := by
      unfold converged
      rw [if_neg (not_not.2 (hg.trans hgs.symm))]
      split_ifs
      · exact ⟨_, rfl⟩
      · exact ⟨_, rfl⟩
    have step : ∀ r, (if conv then (Except.ok (.inl ⟨h, e0 :: es, g :: vs, trace ++ [⟨h, g⟩]⟩) : Py (BlockResult K ⊕ List (BlockStep K)))
        else blockLoop E sqrt solve (fuel + 1) I c su o dets ham tol iter (k + 1) g e0 true (trace ++ [⟨h, g⟩])) = .ok r →
        blockLoop E sqrt solve (fuel + 1) I c su o dets ham tol (iter + 1) k gs en b trace = .ok r := by
      intro r hr
      unfold blockLoop
      exact bind_eq_ok.2 ⟨h, h1, bind_eq_ok.2 ⟨_, e1, bind_eq_ok.2 ⟨g, rfl, bind_eq_ok.2 ⟨e0, rfl, bind_eq_ok.2 ⟨conv, e2, hr⟩⟩⟩⟩⟩
    cases conv with
    | true => exact ⟨_, step _ rfl⟩
    | false =>
      obtain ⟨r, hr⟩ := blockLoop_total E sqrt solve fuel I c dets hsol htot su o ham tol hP iter (k + 1) g e0 true (trace ++ [⟨h, g⟩]) hg
        (fun _ => rfl)
      exact ⟨r, step r hr⟩

/-- C93. `embedding_blocks` without dynamical effects always ends (with data, or with `None` when the iterations are used up):
no exception and no endless loop, for every unrestricted block (a square one if there are blocks on all sides), every
legal filling, every non-zero ground state of the block, and every library with exact QR decompositions and non-zero eigenvectors. -/
theorem C93_blocks_return (E : Env) (sqrt : K → K) (L : Nat → LinAlg K) (hq : ∀ k, (L k).ExactQr)
    (he : ∀ k n M i, ((L k).eigh n M).2 i ≠ 0) (hrand : ∀ k d m, ((L k).rand d m).length = m) (fuel : Nat) (I : Interactions K) (c : Config)
    (hc : RectConf c c.nbh c.nbv c.nblocs) (hf : c.Full) (dets : List (List Nat)) (hb : constructBasis c = .ok dets)
    (hn : c.nholes + c.nbeta ≤ c.nsites) (o : BlockOptions K) (ho : o.dynamic = false)
    (hsq : o.neighbor = false → c.nbh * c.nblocs = c.nbv * c.nblocs)
    (hE : ∀ su, blockSetup E.toSetSem c dets o.reverse = .ok su →
      GeomLattice E su.cE (twoPos (c.nbh * c.nblocs) (c.nbv * c.nblocs)))
    (ham : SpMat K) (hd : ham.dim = dets.length) (hin : ∀ t ∈ ham.coo, t.2.1 < ham.dim ∧ t.2.2 < ham.dim)
    (e0 : K) (es : List K) (gs0 : List K) (rest : List (List K)) (hgs0 : gs0.length = dets.length) (hnz : ∃ x ∈ gs0, x ≠ 0)
    (stp dimMax : Nat) (hs : 1 ≤ stp) (tol tolSelf : K) (maxIter : Nat) (hm : 1 ≤ maxIter) :
    ∃ r, embeddingBlocks E sqrt (davidsonSolver L 1 (some gs0) stp tol dimMax) (fuel + 1) I c o dets ham (e0 :: es) (gs0 :: rest) tolSelf
      maxIter = .ok r := by
  obtain ⟨su, hsu⟩ := blockSetup_ok E.toSetSem hc hf hn hb o.reverse
  have g := blockSetup_geom E.toSetSem hc hsu
  have hpos : 0 < dets.length := by
    obtain ⟨x, hx, _⟩ := hnz
    rw [← hgs0]
    exact List.length_pos_of_mem hx
  suffices h : ∃ r, blockLoop E sqrt (davidsonSolver L 1 (some gs0) stp tol dimMax) (fuel + 1) I c su o dets ham tolSelf maxIter 0
      gs0 e0 false [] = .ok r by
    obtain ⟨r, h⟩ := h
    exact ⟨r, bind_eq_ok.2 ⟨gs0, rfl, bind_eq_ok.2 ⟨e0, rfl, bind_eq_ok.2 ⟨su, hsu, h⟩⟩⟩⟩
  refine blockLoop_total E sqrt _ fuel I c dets ?_ ?_ su o ham tolSelf ?_ maxIter 0 gs0 e0 false [] hgs0 (fun h => absurd h (by omega))
  · refine C92_nonzero_vectors L hq he 1 (some gs0) stp tol dimMax dets.length fun _ => ?_
    obtain ⟨x, hx, hx0⟩ := hnz
    obtain ⟨i, hi, rfl⟩ := List.getElem_of_mem hx
    exact ⟨i, by omega, by rw [List.getD_eq_getElem gs0 0 hi]; exact hx0⟩
  · intro k M hM
    refine C92_always_solves L hq hrand 1 (some gs0) stp hs tol dimMax k M ?_ ?_ (Or.inr rfl)
    · split_ifs <;> omega
    · omega
  · intro gs en hgs
    obtain ⟨h, h1⟩ := blockDressed_total E I g (hE su hsu) hb hn o ho hsq ham hd hin gs hgs en
    exact ⟨h, h1, (blockDressed_static E I g (hE su hsu) hb hn o ho hsq ham h gs hgs en h1).1.trans hd⟩

/-! ### Concrete cases -/

theorem realLib_rand_ne_zero (d : Nat) (hd : 1 ≤ d) : ∀ v ∈ realLib.rand d 1, v ≠ 0 := by
  intro v hv h
  rw [List.eq_of_mem_replicate hv] at h
  exact one_ne_zero (congrFun h ⟨0, hd⟩)

/-- One hole among up spins on the 2×2 block, exact arithmetic over the real numbers, two states asked. -/
noncomputable example := C92_neel_returns exEnv Real.sqrt (fun _ => realLib) (fun _ => realLib_qr) (fun _ => realLib_ne_zero) (fun _ => realLib_rand)
  (fun _ => realLib_rand_ne_zero) 0 ⟨1, 1, 0, 0, 0, 0, 0, 0, 0, 0⟩ (rectConf 1 1 2 1 0)
  (rectConf_ok _ _ _ _ _ (by decide) (by decide) (by decide)) (by decide) (by decide) [[0, 1, 2, 3], [1, 0, 2, 3], [2, 0, 1, 3], [3, 0, 1, 2]]
  rfl (by decide) ⟨4, [(1, 0, 1), (1, 1, 0)]⟩ rfl (by simp) [1, 0, 0, 0] rfl [] 2 10 0 (by decide) (by decide) (by decide) (1 / 1000) (1 / 100) 20
  (by decide)

/-- The same block next to other blocks with reversed spins, on one side or on all sides. -/
noncomputable example (b : Bool) := C93_blocks_return twoEnv Real.sqrt (fun _ => realLib) (fun _ => realLib_qr) (fun _ => realLib_ne_zero) (fun _ => realLib_rand)
  0 ⟨1, 1, 0, 0, 0, 0, 0, 0, 0, 0⟩ (rectConf 1 1 2 1 0) (rectConf_ok _ _ _ _ _ (by decide) (by decide) (by decide))
  (by unfold Config.Full; decide) [[0, 1, 2, 3], [1, 0, 2, 3], [2, 0, 1, 3], [3, 0, 1, 2]] rfl (by decide) ⟨false, b, true, 0⟩ rfl (fun _ => rfl)
  (two_squares_geom 1 0 [[0, 1, 2, 3], [1, 0, 2, 3], [2, 0, 1, 3], [3, 0, 1, 2]] true) ⟨4, [(1, 0, 1), (1, 1, 0)]⟩ rfl (by simp) 0 []
  [1, 0, 0, 0] [] rfl ⟨1, by simp, one_ne_zero⟩ 10 0 (by decide) (1 / 1000) (1 / 100) 20 (by decide)

end TJ
