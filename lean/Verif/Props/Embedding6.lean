/-
The dynamic dressing of embedding_blocks, explicitly (C106, C107).
-/
import Verif.Lemmas.SecondOrder5
import Verif.Props.EmbeddingTotal

namespace TJ

open Finset

section
variable {K : Type} [Field K] [LinearOrder K]

/-! ### C106 -/

/-- C106. What the dynamic part of `embedding_blocks` adds to the matrix for one determinant of the block: for every state of the two
blocks in which an electron of the neighbour has come over one or two bonds onto a hole of the determinant, the second-order couplings of all
pairs of different states reached by an electron of the same spin going back, once for each orientation of the neighbour. Every
such intermediate state counts once. Nothing is added for exchanges of two spins and for electrons that leave the block. The
neighbour has as many holes and down spins as the block. -/
theorem C106_dynamic_dressing (E : Env) (I : Interactions K) (c : Config) (hc : RectConf c c.nbh c.nbv c.nblocs) (hf : c.Full)
    (hn : c.nholes + c.nbeta ≤ c.nsites) (dets : List (List Nat)) (hb : constructBasis c = .ok dets) (reverse : Bool)
    (hr : reverse = false ∨ c.nalpha = c.nbeta) (su : BlockSetup) (hsu : blockSetup E.toSetSem c dets reverse = .ok su)
    (hg : GeomLattice E su.cE (twoPos (c.nbh * c.nblocs) (c.nbv * c.nblocs))) (neighbor : Bool) (L : Nat)
    (hq : neighbor = false → SquareConf c L) (thr : K) (gs : List K) (hgs : gs.length = dets.length) (en : K)
    (h : SpMat K) (hd : h.dim = dets.length) (hin : ∀ t ∈ h.coo, t.2.1 < h.dim ∧ t.2.2 < h.dim) (k : Nat) (hk : k < dets.length) :
    ∃ h', blockDynamic E I c su neighbor thr gs en dets[k] h = .ok h' ∧ h'.dim = h.dim ∧
      ∀ i j, (hi : i < dets.length) → (hj : j < dets.length) → h'.entry i j = h.entry i j +
        ∑ q ∈ range (if neighbor then 1 else 4),
          dressing I (fpos (c.nsites + c.nsites) (twoPos (c.nbh * c.nblocs) (c.nbv * c.nblocs))) c.nholes c.nbeta (amp c dets gs) en thr L q
            (conf c dets[k]) (conf c dets[i]) (conf c dets[j]) := by
  have X := blockCtx E hc hf hn hb hr hsu hg
  obtain ⟨h', h1, h2, h3⟩ := blockDynamic_spec (I := I) X hq thr hgs en (List.getElem_mem hk) (h := h) ⟨hd, hin⟩
  refine ⟨h', h1, h2.1.trans hd.symm, fun i j hi hj => ?_⟩
  have e := congrFun (congrFun h3 ⟨i, hi⟩) ⟨j, hj⟩
  refine e.trans ?_
  show h.entry i j + _ = _
  congr 1
  unfold dressing
  simp only [Finset.sum_apply]
  symm
  rw [sum_comm]
  refine sum_congr rfl fun s _ => ?_
  rw [sum_comm]
  refine sum_congr rfl fun P _ => ?_
  by_cases hB : Borrowed (fpos (c.nsites + c.nsites) (blockPos c)) c.nholes c.nbeta s (conf c dets[k]) P
  · simp only [if_pos hB]
    unfold pertSum pairEl
    rw [sum_comm]
    refine sum_congr rfl fun Q _ => ?_
    rw [sum_comm]
    refine sum_congr rfl fun Q' _ => ?_
    by_cases hQ : Q = Q'
    · simp [hQ]
    · simp [hQ, sides]
  · simp only [if_neg hB]
    simp

/-- C106. The added couplings are symmetric, so the dressed matrix stays symmetric. -/
theorem C106_symmetric (I : Interactions K) {n : Nat} (pos : Fin (n + n) → Pt) (h b : Nat) (ψ : Conf n → K) (en thr : K) (L q : Nat)
    (α a a' : Conf n) : dressing I pos h b ψ en thr L q α a a' = dressing I pos h b ψ en thr L q α a' a := by
  unfold dressing
  refine sum_congr rfl fun s _ => sum_congr rfl fun P _ => ?_
  split_ifs
  · rw [sum_comm]
    refine sum_congr rfl fun Q _ => sum_congr rfl fun Q' _ => ?_
    rw [secondOrder_comm]
    refine if_congr ?_ rfl rfl
    constructor
    · rintro ⟨h1, h2, h3⟩; exact ⟨Ne.symm h1, h3, h2⟩
    · rintro ⟨h1, h2, h3⟩; exact ⟨Ne.symm h1, h3, h2⟩
  · rfl

/-- C106. The dressing does not depend on the sign with which the diagonalisation returns the ground state. -/
theorem C106_sign_of_state (I : Interactions K) {n : Nat} (pos : Fin (n + n) → Pt) (h b : Nat) (ψ : Conf n → K) (en thr : K) (L q : Nat)
    (α a a' : Conf n) : dressing I pos h b (fun β => - ψ β) en thr L q α a a' = dressing I pos h b ψ en thr L q α a a' := by
  unfold dressing secondOrder
  simp only [neg_mul, mul_neg, neg_neg]

/-- C106. Without holes the dynamic part adds nothing. -/
theorem C106_undoped (I : Interactions K) {n : Nat} (pos : Fin (n + n) → Pt) (h b : Nat) (ψ : Conf n → K) (en thr : K) (L q : Nat)
    (α a a' : Conf n) (hα : ∀ x, α x ≠ .hole) : dressing I pos h b ψ en thr L q α a a' = 0 := by
  unfold dressing
  refine sum_eq_zero fun s _ => sum_eq_zero fun P _ => if_neg ?_
  rintro ⟨x, _, _, _, _, h3, _⟩
  exact hα x h3

end

section
variable {K : Type} [Field K] [LinearOrder K] [IsStrictOrderedRing K]

/-! ### C107 -/

theorem sum_zipIdx_range {α M : Type} [AddCommMonoid M] (l : List α) (F : Nat → M) :
    (l.zipIdx.map (fun p => F p.2)).sum = ∑ k ∈ range l.length, F k := by
  have : l.zipIdx.map (fun p => F p.2) = (List.range l.length).map F := by
    apply List.ext_getElem
    · simp
    · intro n h1 h2
      simp
  rw [this]
  rfl

/-- The dressed matrix of one iteration, with dynamical effects. -/
theorem blockDressed_dynamic (E : Env) (I : Interactions K) {c : Config} (hc : RectConf c c.nbh c.nbv c.nblocs) (hf : c.Full)
    (hn : c.nholes + c.nbeta ≤ c.nsites) {dets : List (List Nat)} (hb : constructBasis c = .ok dets) (o : BlockOptions K) (ho : o.dynamic = true)
    (hr : o.reverse = false ∨ c.nalpha = c.nbeta) {su : BlockSetup} (hsu : blockSetup E.toSetSem c dets o.reverse = .ok su)
    (hg : GeomLattice E su.cE (twoPos (c.nbh * c.nblocs) (c.nbv * c.nblocs)))
    (hsq : o.neighbor = false → c.nbh * c.nblocs = c.nbv * c.nblocs)
    (ham : SpMat K) (hd : ham.dim = dets.length) (hin : ∀ t ∈ ham.coo, t.2.1 < ham.dim ∧ t.2.2 < ham.dim) (gs : List K)
    (hgs : gs.length = dets.length) (en : K) :
    ∃ h, blockDressed E I c su o dets ham gs en = .ok h ∧ h.dim = ham.dim ∧ ∀ i j, (hi : i < dets.length) → (hj : j < dets.length) →
      h.entry i j = ham.entry i j +
        (if i = j then
          (if o.neighbor then rightEnergy I c dets o.reverse gs (gridPos (c.nbh * c.nblocs)) dets[i]
           else ∑ q ∈ range 4, rightEnergy I c dets o.reverse gs
            (fun a => (turn (c.nbh * c.nblocs) ^ q) (gridPos (c.nbh * c.nblocs) a)) dets[i])
          else 0) +
        ∑ k : Fin dets.length, ∑ q ∈ range (if o.neighbor then 1 else 4),
          dressing I (fpos (c.nsites + c.nsites) (twoPos (c.nbh * c.nblocs) (c.nbv * c.nblocs))) c.nholes c.nbeta (amp c dets gs) en o.threshold
            (c.nbh * c.nblocs) q (conf c dets[k]) (conf c dets[i]) (conf c dets[j]) := by
  have g := blockSetup_geom E.toSetSem hc hsu
  have hq : o.neighbor = false → SquareConf c (c.nbh * c.nblocs) := fun hnf => ⟨rfl, (hsq hnf).symm, by rw [g.rows, ← hsq hnf]⟩
  set N := dets.length with hN
  set oS : BlockOptions K := { o with dynamic := false } with hoS
  obtain ⟨hS, s1⟩ := blockDressed_total E I g hg hb hn oS rfl hsq ham hd hin gs hgs en
  obtain ⟨s2, s3⟩ := blockDressed_static E I g hg hb hn oS rfl hsq ham hS gs hgs en s1
  obtain ⟨pB, b1, b2⟩ := neighbourLaw_ok hb hn gs hgs o.reverse
  -- the static part of one step
  have hstat : ∀ p ∈ dets.zipIdx, ∃ sg : Fin N → Fin N → K, ∀ M : SpMat K, GoodMat N M → ∃ M', (do
      let intr ← blockIntr E I c su dets pB p.2
      addStaticDressing c o.neighbor p.1 p.2 intr M : Py (SpMat K)) = .ok M' ∧ GoodMat N M' ∧ entries N M' = entries N M + sg := by
    intro p hp
    have hp' := List.mem_zipIdx hp
    have hlt : p.2 < dets.length := by omega
    have hpd : p.1 = dets.getD p.2 [] := by
      rw [List.getD_eq_getElem dets [] hlt]
      simpa using hp'.2.2
    have hintr := blockIntr_eq E I g hg hb hn b2 hlt
    set x := borderEnergy I c.nsites c.nsites
        (fun a r => Near (twoPos (c.nbh * c.nblocs) (c.nbv * c.nblocs) a) (twoPos (c.nbh * c.nblocs) (c.nbv * c.nblocs) (c.nsites + r)))
        (fun a r => Diagonal (twoPos (c.nbh * c.nblocs) (c.nbv * c.nblocs) a) (twoPos (c.nbh * c.nblocs) (c.nbv * c.nblocs) (c.nsites + r)))
        (occ c.nholes c.nbeta dets[p.2]) (neighbourLaw c dets o.reverse gs) with hx
    by_cases hnb : o.neighbor = true
    · refine ⟨fun i j => if p.2 = i ∧ p.2 = j then x else 0, fun M hM => ?_⟩
      obtain ⟨M', m1, m2, m3⟩ := addHamCoo_good hM x hlt hlt
      refine ⟨M', bind_ok hintr ?_, m2, m3⟩
      unfold addStaticDressing
      rw [if_pos hnb]
      exact m1
    · have hnf : o.neighbor = false := by simpa using hnb
      refine ⟨((List.range 4).map (fun q => fun (i j : Fin N) => if rotatedIndex c q p.1 = i ∧ rotatedIndex c q p.1 = j then x else 0)).sum, fun M hM => ?_⟩
      obtain ⟨M', m1, m2, m3⟩ := foldlM_adds (GoodMat N) (entries N) (f := fun (h : SpMat K) rot => addHamCoo h x (rotatedIndex c rot p.1) (rotatedIndex c rot p.1))
        (fun q => fun (i j : Fin N) => if rotatedIndex c q p.1 = i ∧ rotatedIndex c q p.1 = j then x else 0) (List.range 4) M hM (by
          intro q _ M hM
          have hlt' : rotatedIndex c q p.1 < N := by rw [hpd]; exact rotIdx_lt (hq hnf) hn hb (q : Int) hlt
          exact addHamCoo_good hM x hlt' hlt')
      refine ⟨M', bind_ok hintr ?_, m2, m3⟩
      unfold addStaticDressing
      rw [if_neg hnb]
      exact m1
  choose! sg hsg using hstat
  -- the static run
  obtain ⟨hS', f1, _, f3⟩ := foldlM_adds (GoodMat N) (entries N) (f := fun (h : SpMat K) (p : List Nat × Nat) => do
      let intr ← blockIntr E I c su dets pB p.2
      let h ← addStaticDressing c oS.neighbor p.1 p.2 intr h
      if oS.dynamic then blockDynamic E I c su oS.neighbor oS.threshold gs en p.1 h else return h) sg dets.zipIdx ham ⟨hd, hin⟩ (by
    intro p hp M hM
    obtain ⟨M', m1, m2, m3⟩ := hsg p hp M hM
    obtain ⟨x, x1, x2⟩ := bind_eq_ok.1 m1
    exact ⟨M', bind_ok x1 (bind_ok x2 rfl), m2, m3⟩)
  have hSS : hS' = hS := by
    have : blockDressed E I c su oS dets ham gs en = .ok hS' := bind_ok b1 f1
    exact Except.ok.inj (this.symm.trans s1)
  subst hSS
  -- the run with dynamical effects
  set D : Nat → Fin N → Fin N → K := fun k i j => if hk : k < N then ∑ q ∈ range (if o.neighbor then 1 else 4),
    dressing I (fpos (c.nsites + c.nsites) (twoPos (c.nbh * c.nblocs) (c.nbv * c.nblocs))) c.nholes c.nbeta (amp c dets gs) en o.threshold
      (c.nbh * c.nblocs) q (conf c dets[k]) (conf c dets[i]) (conf c dets[j]) else 0 with hD
  obtain ⟨h', g1, g2, g3⟩ := foldlM_adds (GoodMat N) (entries N) (f := fun (h : SpMat K) (p : List Nat × Nat) => do
      let intr ← blockIntr E I c su dets pB p.2
      let h ← addStaticDressing c o.neighbor p.1 p.2 intr h
      if o.dynamic then blockDynamic E I c su o.neighbor o.threshold gs en p.1 h else return h) (fun p => sg p + D p.2) dets.zipIdx ham ⟨hd, hin⟩ (by
    intro p hp M hM
    obtain ⟨M', m1, m2, m3⟩ := hsg p hp M hM
    obtain ⟨x, x1, x2⟩ := bind_eq_ok.1 m1
    have hp' := List.mem_zipIdx hp
    have hlt : p.2 < N := by omega
    have hpd : p.1 = dets[p.2] := by simpa using hp'.2.2
    have X := blockCtx E hc hf hn hb hr hsu hg
    obtain ⟨M2, w1, w2, _⟩ := blockDynamic_spec (I := I) X hq o.threshold hgs en (List.getElem_mem hlt) m2
    obtain ⟨M2', v1, v2, v3⟩ := C106_dynamic_dressing E I c hc hf hn dets hb o.reverse hr su hsu hg o.neighbor (c.nbh * c.nblocs) hq o.threshold gs hgs en
      M' m2.1 m2.2 p.2 hlt
    obtain rfl := Except.ok.inj (w1.symm.trans v1)
    refine ⟨M2, bind_ok x1 (bind_ok x2 ?_), w2, ?_⟩
    · rw [if_pos ho, hpd]; exact v1
    · rw [← add_assoc, ← m3]
      funext i j
      have := v3 i j i.2 j.2
      show M2.entry i j = M'.entry i j + D p.2 i j
      rw [this, hD]
      simp only [dif_pos hlt]
      rfl)
  refine ⟨h', bind_ok b1 g1, g2.1.trans hd.symm, fun i j hi hj => ?_⟩
  have e1 : entries N h' = entries N hS' + (dets.zipIdx.map (fun p => D p.2)).sum := by
    rw [g3, f3, List.sum_map_add, add_assoc]
  have e2 := congrFun (congrFun e1 ⟨i, hi⟩) ⟨j, hj⟩
  refine e2.trans ?_
  rw [sum_zipIdx_range]
  show hS'.entry i j + (∑ k ∈ range dets.length, D k) ⟨i, hi⟩ ⟨j, hj⟩ = _
  rw [s3 i j hi]
  congr 1
  rw [Finset.sum_apply, Finset.sum_apply, Finset.sum_range]
  refine sum_congr rfl fun k _ => ?_
  rw [hD]
  exact dif_pos (show k.val < N from k.2)

omit [IsStrictOrderedRing K] in
/-- The iterations with the energies they start from. -/
theorem blockLoop_energies {E : Env} {sqrt : K → K} {solve : Solver K} {fuel : Nat} {I : Interactions K} {c : Config}
    {su : BlockSetup} {o : BlockOptions K} {dets : List (List Nat)} (hsol : solve.Good dets.length) {ham : SpMat K} (hd : ham.dim = dets.length) {tol : K}
    {P : List K → K → SpMat K → Prop}
    (hP : ∀ gs en h, gs.length = dets.length → blockDressed E I c su o dets ham gs en = .ok h → h.dim = ham.dim ∧ P gs en h) :
    ∀ (iter k : Nat) (gs : List K) (en : K) (b : Bool) (trace : List (BlockStep K)) (r : BlockResult K ⊕ List (BlockStep K)),
      gs.length = dets.length → blockLoop E sqrt solve fuel I c su o dets ham tol iter k gs en b trace = .ok r →
      ∃ l, r.elim (fun r => r.trace) id = trace ++ l ∧ ∀ k x, l[k]? = some x → ∃ ek, P ((gs :: l.map (·.gs)).getD k []) ek x.ham ∧
        (k = 0 → ek = en) ∧ ∀ y, 0 < k → l[k - 1]? = some y → ∃ m vals vects, solve m y.ham = .ok (ek :: vals, y.gs :: vects)
  | 0, k, gs, en, b, trace, r, _, e => by
    cases b with
    | false => cases e
    | true => cases e; exact ⟨[], by simp, by simp⟩
  | iter + 1, k, gs, en, b, trace, r, hl, e => by
    unfold blockLoop at e
    obtain ⟨h, e1, e⟩ := bind_eq_ok.1 e
    obtain ⟨s, e2, e⟩ := bind_eq_ok.1 e
    obtain ⟨g, e3, e⟩ := bind_eq_ok.1 e
    obtain ⟨e0, e4, e⟩ := bind_eq_ok.1 e
    dsimp only at e
    obtain ⟨conv, e5, e⟩ := bind_eq_ok.1 e
    obtain ⟨s1, k', s3⟩ := blockSolve_ok e2
    obtain ⟨d1, d2⟩ := hP gs en h hl e1
    have hgl : g.length = dets.length := (hsol k' h _ _ g (d1.trans hd) s3 (pyGet_inv e3)).1
    have hcons : ∃ vals vects, solve k' h = .ok (e0 :: vals, g :: vects) := by
      have a1 := pyGet_inv e3
      have a2 := pyGet_inv e4
      rw [s3]
      cases h1 : s.2.1 with
      | nil => rw [h1] at a2; cases a2
      | cons u us =>
        cases h2 : s.2.2 with
        | nil => rw [h2] at a1; cases a1
        | cons v vs =>
          rw [h1] at a2
          rw [h2] at a1
          cases a1
          cases a2
          exact ⟨us, vs, rfl⟩
    by_cases hcv : conv = true
    · rw [if_pos hcv] at e
      cases e
      refine ⟨[⟨h, g⟩], rfl, ?_⟩
      intro k x hx
      cases k with
      | zero => cases hx; exact ⟨en, d2, fun _ => rfl, fun _ h => absurd h (by omega)⟩
      | succ k => simp at hx
    · rw [if_neg hcv] at e
      obtain ⟨l, l1, l2⟩ := blockLoop_energies hsol hd hP iter _ _ _ _ _ r hgl e
      refine ⟨⟨h, g⟩ :: l, by rw [l1]; simp, ?_⟩
      intro k x hx
      cases k with
      | zero => cases hx; exact ⟨en, d2, fun _ => rfl, fun _ h => absurd h (by omega)⟩
      | succ k =>
        obtain ⟨ek, p1, p2, p3⟩ := l2 k x (by simpa using hx)
        refine ⟨ek, p1, fun h => absurd h (by omega), fun y _ hy => ?_⟩
        cases k with
        | zero =>
          cases hy
          rw [p2 rfl]
          obtain ⟨vals, vects, h⟩ := hcons
          exact ⟨k', vals, vects, h⟩
        | succ k => exact p3 y (by omega) (by simpa using hy)

/-- C107. In every iteration of `embedding_blocks` with dynamical effects, the diagonalised matrix is the Hamiltonian of the block, plus
on the diagonal the interaction with the neighbour in the state of the iteration before, plus the second-order couplings of C106
summed over all determinants of the block, with the state and the lowest eigenvalue of the iteration before. -/
theorem C107_dressed_matrix (E : Env) (sqrt : K → K) (solve : Solver K) (fuel : Nat) (I : Interactions K) (c : Config)
    (hc : RectConf c c.nbh c.nbv c.nblocs) (hf : c.Full) (dets : List (List Nat)) (hsol : solve.Good dets.length) (hb : constructBasis c = .ok dets)
    (hn : c.nholes + c.nbeta ≤ c.nsites) (o : BlockOptions K) (ho : o.dynamic = true) (hr : o.reverse = false ∨ c.nalpha = c.nbeta)
    (hsq : o.neighbor = false → c.nbh * c.nblocs = c.nbv * c.nblocs)
    (hE : ∀ su, blockSetup E.toSetSem c dets o.reverse = .ok su →
      GeomLattice E su.cE (twoPos (c.nbh * c.nblocs) (c.nbv * c.nblocs)))
    (ham : SpMat K) (hd : ham.dim = dets.length) (hin : ∀ t ∈ ham.coo, t.2.1 < ham.dim ∧ t.2.2 < ham.dim)
    (e0 : K) (es : List K) (gs0 : List K) (rest : List (List K)) (hgs0 : gs0.length = dets.length) (tol : K) (maxIter : Nat)
    (r : BlockResult K ⊕ List (BlockStep K))
    (h : embeddingBlocks E sqrt solve fuel I c o dets ham (e0 :: es) (gs0 :: rest) tol maxIter = .ok r) :
    ∀ k x, (r.elim (fun q => q.trace) id)[k]? = some x → ∃ en gs,
      gs = (gs0 :: (r.elim (fun q => q.trace) id).map (·.gs)).getD k [] ∧ (k = 0 → en = e0) ∧
      (∀ y, 0 < k → (r.elim (fun q => q.trace) id)[k - 1]? = some y → ∃ m vals vects, solve m y.ham = .ok (en :: vals, gs :: vects)) ∧
      x.ham.dim = ham.dim ∧ ∀ i j, (hi : i < dets.length) → (hj : j < dets.length) →
      x.ham.entry i j = ham.entry i j +
        (if i = j then
          (if o.neighbor then rightEnergy I c dets o.reverse gs (gridPos (c.nbh * c.nblocs)) dets[i]
           else ∑ q ∈ range 4, rightEnergy I c dets o.reverse gs
            (fun a => (turn (c.nbh * c.nblocs) ^ q) (gridPos (c.nbh * c.nblocs) a)) dets[i])
          else 0) +
        ∑ k : Fin dets.length, ∑ q ∈ range (if o.neighbor then 1 else 4),
          dressing I (fpos (c.nsites + c.nsites) (twoPos (c.nbh * c.nblocs) (c.nbv * c.nblocs))) c.nholes c.nbeta (amp c dets gs) en o.threshold
            (c.nbh * c.nblocs) q (conf c dets[k]) (conf c dets[i]) (conf c dets[j]) := by
  unfold embeddingBlocks at h
  obtain ⟨gs, e1, h⟩ := bind_eq_ok.1 h
  obtain ⟨e0', e2, h⟩ := bind_eq_ok.1 h
  obtain ⟨su, e3, h⟩ := bind_eq_ok.1 h
  obtain rfl := Option.some.inj (pyGet_inv e1)
  obtain rfl := Option.some.inj (pyGet_inv e2)
  obtain ⟨l, l1, l2⟩ := blockLoop_energies (P := fun gs en M => gs.length = dets.length ∧ M.dim = ham.dim ∧ ∀ i j, (hi : i < dets.length) → (hj : j < dets.length) →
      M.entry i j = ham.entry i j +
        (if i = j then
          (if o.neighbor then rightEnergy I c dets o.reverse gs (gridPos (c.nbh * c.nblocs)) dets[i]
           else ∑ q ∈ range 4, rightEnergy I c dets o.reverse gs
            (fun a => (turn (c.nbh * c.nblocs) ^ q) (gridPos (c.nbh * c.nblocs) a)) dets[i])
          else 0) +
        ∑ k : Fin dets.length, ∑ q ∈ range (if o.neighbor then 1 else 4),
          dressing I (fpos (c.nsites + c.nsites) (twoPos (c.nbh * c.nblocs) (c.nbv * c.nblocs))) c.nholes c.nbeta (amp c dets gs) en o.threshold
            (c.nbh * c.nblocs) q (conf c dets[k]) (conf c dets[i]) (conf c dets[j])) hsol hd (fun gs en M hl hM => by
      obtain ⟨M', m1, m2, m3⟩ := blockDressed_dynamic E I hc hf hn hb o ho hr e3 (hE su e3) hsq ham hd hin gs hl en
      obtain rfl := Except.ok.inj (m1.symm.trans hM)
      exact ⟨m2, hl, m2, m3⟩) maxIter 0 gs0 e0 false [] r hgs0 h
  rw [List.nil_append] at l1
  rw [l1]
  intro k x hx
  obtain ⟨ek, ⟨_, p1, p2⟩, p3, p4⟩ := l2 k x hx
  refine ⟨ek, _, rfl, p3, fun y hk hy => ?_, p1, p2⟩
  obtain ⟨m, vals, vects, hm⟩ := p4 y hk hy
  refine ⟨m, vals, vects, ?_⟩
  rw [hm]
  cases k with
  | zero => omega
  | succ k =>
    simp only [Nat.add_sub_cancel] at hy
    simp [hy]

/-- C107. `embedding_blocks` with dynamical effects always ends when the neighbour has the particles of the block (see C62 for the
case where it does not). -/
theorem C107_dynamic_returns (E : Env) (sqrt : K → K) (L : Nat → LinAlg K) (hq : ∀ k, (L k).ExactQr)
    (he : ∀ k n M i, ((L k).eigh n M).2 i ≠ 0) (hrand : ∀ k d m, ((L k).rand d m).length = m) (fuel : Nat) (I : Interactions K) (c : Config)
    (hc : RectConf c c.nbh c.nbv c.nblocs) (hf : c.Full) (dets : List (List Nat)) (hb : constructBasis c = .ok dets)
    (hn : c.nholes + c.nbeta ≤ c.nsites) (o : BlockOptions K) (ho : o.dynamic = true) (hr : o.reverse = false ∨ c.nalpha = c.nbeta)
    (hsq : o.neighbor = false → c.nbh * c.nblocs = c.nbv * c.nblocs)
    (hE : ∀ su, blockSetup E.toSetSem c dets o.reverse = .ok su →
      GeomLattice E su.cE (twoPos (c.nbh * c.nblocs) (c.nbv * c.nblocs)))
    (ham : SpMat K) (hd : ham.dim = dets.length) (hin : ∀ t ∈ ham.coo, t.2.1 < ham.dim ∧ t.2.2 < ham.dim)
    (e0 : K) (es : List K) (gs0 : List K) (rest : List (List K)) (hgs0 : gs0.length = dets.length) (hnz : ∃ x ∈ gs0, x ≠ 0)
    (stp dimMax : Nat) (hs : 1 ≤ stp) (tol tolSelf : K) (maxIter : Nat) (hm : 1 ≤ maxIter) :
    ∃ r, embeddingBlocks E sqrt (davidsonSolver L 1 (some gs0) stp tol dimMax) (fuel + 1) I c o dets ham (e0 :: es) (gs0 :: rest) tolSelf
      maxIter = .ok r := by
  obtain ⟨su, hsu⟩ := blockSetup_ok E.toSetSem hc hf hn hb o.reverse
  have hpos : 0 < dets.length := by
    obtain ⟨x, hx, _⟩ := hnz
    rw [← hgs0]
    exact List.length_pos_of_mem hx
  suffices h : ∃ r, blockLoop E sqrt (davidsonSolver L 1 (some gs0) stp tol dimMax) (fuel + 1) I c su o dets ham tolSelf maxIter 0
      gs0 e0 false [] = .ok r by
    obtain ⟨r, h⟩ := h
    exact ⟨r, bind_eq_ok.2 ⟨gs0, rfl, bind_eq_ok.2 ⟨e0, rfl, bind_eq_ok.2 ⟨su, hsu, h⟩⟩⟩⟩
  refine blockLoop_total E sqrt _ fuel I c dets ?_ ?_ su o ham tolSelf ?_ maxIter 0 gs0 e0 false [] hgs0 (fun h => absurd h (by omega))
  · refine C92_nonzero_vectors L hq he 1 (some gs0) stp tol dimMax dets.length fun _ => ?_
    obtain ⟨x, hx, hx0⟩ := hnz
    obtain ⟨i, hi, rfl⟩ := List.getElem_of_mem hx
    exact ⟨i, by omega, by rw [List.getD_eq_getElem gs0 0 hi]; exact hx0⟩
  · intro k M hM
    refine C92_always_solves L hq hrand 1 (some gs0) stp hs tol dimMax k M ?_ ?_ (Or.inr rfl)
    · split_ifs <;> omega
    · omega
  · intro gs en hgs
    obtain ⟨h, h1, h2, _⟩ := blockDressed_dynamic E I hc hf hn hb o ho hr hsu (hE su hsu) hsq ham hd hin gs hgs en
    exact ⟨h, h1, h2.trans hd⟩

end

/-! ### Concrete cases -/

/-- One hole among three up spins next to the same block, on one side or on all sides. -/
example (b : Bool) (su : BlockSetup)
    (hsu : blockSetup SetSem.sorted (rectConf 1 1 2 1 0) [[0, 1, 2, 3], [1, 0, 2, 3], [2, 0, 1, 3], [3, 0, 1, 2]] false = .ok su) :=
  C106_dynamic_dressing twoEnv exI (rectConf 1 1 2 1 0) (rectConf_ok _ _ _ _ _ (by decide) (by decide) (by decide))
    (by unfold Config.Full; decide) (by decide) [[0, 1, 2, 3], [1, 0, 2, 3], [2, 0, 1, 3], [3, 0, 1, 2]] rfl false (Or.inl rfl) su hsu
    (two_squares_geom 1 0 _ false su hsu) b 2 (fun _ => ⟨rfl, rfl, rfl⟩) 0 [1, 1, 1, 1] rfl 3 ⟨4, []⟩ rfl (by simp) 1 (by decide)

/-- What is added for the second determinant is not zero. -/
example : (do
    let su ← blockSetup SetSem.sorted (rectConf 1 1 2 1 0) [[0, 1, 2, 3], [1, 0, 2, 3], [2, 0, 1, 3], [3, 0, 1, 2]] false
    let h ← blockDynamic twoEnv exI (rectConf 1 1 2 1 0) su true 0 [1, 1, 1, 1] 3 [1, 0, 2, 3] ⟨4, []⟩
    return (List.range 4).map (fun i => (List.range 4).map (fun j => h.entry i j)) : Py (List (List ℚ))) =
  .ok [[0, -557/13, -289/13, -849/13], [-557/13, -398/13, -849/13, -16981/221], [-289/13, -849/13, 0, -557/13],
    [-849/13, -16981/221, -557/13, -398/13]] := by decide +kernel

/-- Two holes and opposite spins next to the block with reversed spins: as many up as down spins. -/
example (b : Bool) (dets : List (List Nat)) (hb : constructBasis (rectConf 1 1 2 2 1) = .ok dets) (su : BlockSetup)
    (hsu : blockSetup SetSem.sorted (rectConf 1 1 2 2 1) dets true = .ok su) (gs : List ℚ) (hgs : gs.length = dets.length)
    (k : Nat) (hk : k < dets.length) :=
  C106_dynamic_dressing twoEnv exI (rectConf 1 1 2 2 1) (rectConf_ok _ _ _ _ _ (by decide) (by decide) (by decide))
    (by unfold Config.Full; decide) (by decide) dets hb true (Or.inr (by decide)) su hsu
    (two_squares_geom 2 1 _ true su hsu) b 2 (fun _ => ⟨rfl, rfl, rfl⟩) 0 gs hgs 3 ⟨dets.length, []⟩ rfl (by simp) k hk

/-- All four sites of an undoped block carry spins. -/
example := C106_undoped exI (fun _ : Fin (4 + 4) => ((0, 0) : Pt)) 0 2 (fun _ => 1) 3 0 2 0 (fun _ : Fin 4 => Occ.up) (fun _ => Occ.up)
  (fun _ => Occ.up) (by decide)

/-- One hole, exact arithmetic over the real numbers: the run ends, and C107 describes its matrices. -/
noncomputable example (b : Bool) := C107_dynamic_returns twoEnv Real.sqrt (fun _ => realLib) (fun _ => realLib_qr) (fun _ => realLib_ne_zero) (fun _ => realLib_rand)
  0 ⟨1, 1, 0, 0, 0, 0, 0, 0, 0, 0⟩ (rectConf 1 1 2 1 0) (rectConf_ok _ _ _ _ _ (by decide) (by decide) (by decide))
  (by unfold Config.Full; decide) [[0, 1, 2, 3], [1, 0, 2, 3], [2, 0, 1, 3], [3, 0, 1, 2]] rfl (by decide) ⟨true, b, false, 0⟩ rfl (Or.inl rfl)
  (fun _ => rfl) (two_squares_geom 1 0 [[0, 1, 2, 3], [1, 0, 2, 3], [2, 0, 1, 3], [3, 0, 1, 2]] false) ⟨4, [(1, 0, 1), (1, 1, 0)]⟩ rfl (by simp) 0 []
  [1, 0, 0, 0] [] rfl ⟨1, by simp, one_ne_zero⟩ 10 0 (by decide) (1 / 1000) (1 / 100) 20 (by decide)

noncomputable example (b : Bool) := C107_dressed_matrix twoEnv Real.sqrt (davidsonSolver (fun _ => realLib) 1 (some [1, 0, 0, 0]) 10 (1 / 1000) 0) 1
  ⟨1, 1, 0, 0, 0, 0, 0, 0, 0, 0⟩ (rectConf 1 1 2 1 0) (rectConf_ok _ _ _ _ _ (by decide) (by decide) (by decide))
  (by unfold Config.Full; decide) [[0, 1, 2, 3], [1, 0, 2, 3], [2, 0, 1, 3], [3, 0, 1, 2]]
  (C92_nonzero_vectors (fun _ => realLib) (fun _ => realLib_qr) (fun _ => realLib_ne_zero) 1 (some [1, 0, 0, 0]) 10 (1 / 1000) 0 4
    (fun _ => ⟨0, by decide, one_ne_zero⟩)) rfl (by decide) ⟨true, b, false, 0⟩ rfl (Or.inl rfl)
  (fun _ => rfl) (two_squares_geom 1 0 [[0, 1, 2, 3], [1, 0, 2, 3], [2, 0, 1, 3], [3, 0, 1, 2]] false) ⟨4, [(1, 0, 1), (1, 1, 0)]⟩ rfl (by simp) 0 []
  [1, 0, 0, 0] [] rfl (1 / 100) 20

end TJ
