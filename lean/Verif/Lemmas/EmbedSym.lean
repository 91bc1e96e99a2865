/-
Invariants of the two embedding loops: symmetry of the dressed matrices, length of the trace, convergence.
-/
import Verif.Spec.Embedding
import Verif.Lemmas.HamLin

namespace TJ

/-- A property kept by every step of a loop that returns is kept by the loop. -/
theorem foldlM_inv {α β : Type} {f : β → α → Py β} {P : β → Prop} (h : ∀ b a b', P b → f b a = .ok b' → P b') :
    ∀ (l : List α) {b b' : β}, P b → l.foldlM f b = .ok b' → P b'
  | [], b, b', hb, e => by cases e; exact hb
  | a :: l, b, b', hb, e => by
    rw [List.foldlM_cons] at e
    obtain ⟨b1, e1, e2⟩ := bind_eq_ok.1 e
    exact foldlM_inv h l (h b a b1 hb e1) e2

section
variable {K : Type} [Field K]

/-- Same entries at transposed positions. -/
def SpMat.Sym (M : SpMat K) : Prop := ∀ i j, M.entry i j = M.entry j i

theorem entry_append (d : Nat) (l l' : Coo K) (i j : Nat) :
    (SpMat.mk d (l ++ l')).entry i j = (SpMat.mk d l).entry i j + (SpMat.mk d l').entry i j := by
  simp [SpMat.entry]

theorem entry_single (d : Nat) (x : K) (r c i j : Nat) :
    (SpMat.mk d [(x, r, c)]).entry i j = if r = i ∧ c = j then x else 0 := by
  unfold SpMat.entry
  by_cases h : r = i ∧ c = j <;> simp [h]

theorem addHamCoo_entry {M M' : SpMat K} {x : K} {r c : Nat} (h : addHamCoo M x r c = .ok M') :
    M'.dim = M.dim ∧ (∀ i j, M'.entry i j = M.entry i j + if r = i ∧ c = j then x else 0) ∧ r < M.dim ∧ c < M.dim := by
  obtain ⟨rfl, hb⟩ := (cooMatrix_ok_iff _ _ _).1 h
  have := hb (x, r, c) (by simp)
  exact ⟨rfl, fun i j => by rw [entry_append, entry_single], this⟩

theorem addHamCoo_ok {M : SpMat K} (hM : ∀ t ∈ M.coo, t.2.1 < M.dim ∧ t.2.2 < M.dim) (x : K) {r c : Nat} (hr : r < M.dim)
    (hc : c < M.dim) : addHamCoo M x r c = .ok ⟨M.dim, M.coo ++ [(x, r, c)]⟩ := by
  refine (cooMatrix_ok_iff _ _ _).2 ⟨rfl, fun t ht => ?_⟩
  rcases List.mem_append.1 ht with h | h
  · exact hM t h
  · rw [List.mem_singleton.1 h]; exact ⟨hr, hc⟩

theorem addHamCoo_diag_sym {M M' : SpMat K} {x : K} {r : Nat} (hs : M.Sym) (h : addHamCoo M x r r = .ok M') : M'.Sym := by
  obtain ⟨_, he, _⟩ := addHamCoo_entry h
  intro i j
  rw [he, he, hs i j]
  congr 1
  simp only [and_comm]

theorem addHamCoo_pair_sym {M M1 M' : SpMat K} {x : K} {r c : Nat} (hs : M.Sym) (h : addHamCoo M x r c = .ok M1)
    (h' : addHamCoo M1 x c r = .ok M') : M'.Sym := by
  obtain ⟨_, he, _⟩ := addHamCoo_entry h
  obtain ⟨_, he', _⟩ := addHamCoo_entry h'
  intro i j
  rw [he', he', he, he, hs i j]
  have e1 : (c = i ∧ r = j) ↔ (r = j ∧ c = i) := and_comm
  have e2 : (c = j ∧ r = i) ↔ (r = i ∧ c = j) := and_comm
  simp only [e1, e2]
  ring

end

section
variable {K : Type} [Field K] [LinearOrder K]

theorem neelDressed_sym {E : Env} {I : Interactions K} {c cE : Config} {fr : List Nat} {dets : List (List Nat)} {ham h : SpMat K}
    {pR : List (Int × List K)} (hs : ham.Sym) (e : neelDressed E I c cE fr dets ham pR = .ok h) : h.Sym := by
  refine foldlM_inv (P := SpMat.Sym) ?_ _ hs e
  intro b p b' hb e
  obtain ⟨v, _, e⟩ := bind_eq_ok.1 e
  obtain ⟨pA, _, e⟩ := bind_eq_ok.1 e
  obtain ⟨intr, _, e⟩ := bind_eq_ok.1 e
  exact addHamCoo_diag_sym hb e

theorem neelDressed_dim {E : Env} {I : Interactions K} {c cE : Config} {fr : List Nat} {dets : List (List Nat)} {ham h : SpMat K}
    {pR : List (Int × List K)} (e : neelDressed E I c cE fr dets ham pR = .ok h) : h.dim = ham.dim := by
  refine foldlM_inv (P := fun M : SpMat K => M.dim = ham.dim) ?_ _ rfl e
  intro b p b' hb e
  obtain ⟨v, _, e⟩ := bind_eq_ok.1 e
  obtain ⟨pA, _, e⟩ := bind_eq_ok.1 e
  obtain ⟨intr, _, e⟩ := bind_eq_ok.1 e
  exact (addHamCoo_entry e).1.trans hb

theorem addStaticDressing_sym {c : Config} {nbr : Bool} {det : List Nat} {ind : Nat} {intr : K} {h h' : SpMat K} (hs : h.Sym)
    (e : addStaticDressing c nbr det ind intr h = .ok h') : h'.Sym := by
  unfold addStaticDressing at e
  cases nbr with
  | true => exact addHamCoo_diag_sym hs e
  | false => exact foldlM_inv (P := SpMat.Sym) (fun b a b' hb e => addHamCoo_diag_sym hb e) _ hs e

theorem addCoupling_sym {c : Config} {nbr : Bool} {th en enP : K} {gs : List K} {h h' : SpMat K} {p : (List Nat × K) × (List Nat × K)}
    (hs : h.Sym) (e : addCoupling c nbr th gs en enP h p = .ok h') : h'.Sym := by
  unfold addCoupling at e
  obtain ⟨x1, _, e⟩ := bind_eq_ok.1 e
  obtain ⟨x2, _, e⟩ := bind_eq_ok.1 e
  have key : ∀ (x : K) (i j : Nat) (h h' : SpMat K), h.Sym → (do
      if th ≤ |x| then
        let h ← addHamCoo h x i j
        addHamCoo h x j i
      else return h : Py (SpMat K)) = .ok h' → h'.Sym := by
    intro x i j h h' hs e
    split_ifs at e with ht
    · obtain ⟨h1, e1, e2⟩ := bind_eq_ok.1 e
      exact addHamCoo_pair_sym hs e1 e2
    · cases e; exact hs
  dsimp only at e
  cases nbr with
  | true => exact key _ _ _ _ _ hs e
  | false => exact foldlM_inv (P := SpMat.Sym) (fun b a b' hb e => key _ _ _ _ _ hb e) _ hs e

theorem addPerturbator_sym {E : Env} {I : Interactions K} {c : Config} {su : BlockSetup} {nbr : Bool} {th en : K} {gs : List K}
    {cPA cPB : Config} {nB : Counts} {pA pB : List Nat} {h h' : SpMat K} (hs : h.Sym)
    (e : addPerturbator E I c su nbr th gs en cPA cPB nB pA pB h = .ok h') : h'.Sym := by
  unfold addPerturbator at e
  dsimp only at e
  obtain ⟨pert, _, e⟩ := bind_eq_ok.1 e
  obtain ⟨_, _, e⟩ := bind_eq_ok.1 e
  obtain ⟨_, _, e⟩ := bind_eq_ok.1 e
  obtain ⟨_, _, e⟩ := bind_eq_ok.1 e
  obtain ⟨_, _, e⟩ := bind_eq_ok.1 e
  obtain ⟨_, _, e⟩ := bind_eq_ok.1 e
  exact foldlM_inv (P := SpMat.Sym) (fun b a b' hb e => addCoupling_sym hb e) _ hs e

theorem blockPair_sym {E : Env} {I : Interactions K} {c : Config} {su : BlockSetup} {nbr : Bool} {th en : K} {gs : List K}
    {cPA cPB : Config} {nA nB : Counts} {pA : List Nat} {spin new : Occ} {dB : List Nat} {st st' : Memory × SpMat K} {s : Nat} (hs : st.2.Sym)
    (e : blockPair E I c su nbr th gs en cPA cPB nA nB pA spin new dB st s = .ok st') : st'.2.Sym := by
  unfold blockPair at e
  obtain ⟨o, _, e⟩ := bind_eq_ok.1 e
  by_cases ho : o = new
  · rw [if_pos ho] at e
    obtain ⟨pB, _, e⟩ := bind_eq_ok.1 e
    dsimp only at e
    split at e
    · cases e
    · split_ifs at e with hm
      · cases e; exact hs
      · obtain ⟨h, e1, e⟩ := bind_eq_ok.1 e
        cases e
        exact addPerturbator_sym hs e1
  · rw [if_neg ho] at e
    cases e; exact hs

theorem blockExchange_sym {E : Env} {I : Interactions K} {c : Config} {su : BlockSetup} {nbr : Bool} {th en : K} {gs : List K}
    {dA : List Nat} {site : Nat} {spin new : Occ} {st st' : Memory × SpMat K} (hs : st.2.Sym)
    (e : blockExchange E I c su nbr th gs en dA site spin st new = .ok st') : st'.2.Sym := by
  unfold blockExchange at e
  split_ifs at e with hp
  · obtain ⟨_, _, e⟩ := bind_eq_ok.1 e
    obtain ⟨_, _, e⟩ := bind_eq_ok.1 e
    obtain ⟨_, _, e⟩ := bind_eq_ok.1 e
    obtain ⟨_, _, e⟩ := bind_eq_ok.1 e
    obtain ⟨_, _, e⟩ := bind_eq_ok.1 e
    exact foldlM_inv (P := fun st : Memory × SpMat K => st.2.Sym) (fun b a b' hb e =>
      foldlM_inv (P := fun st : Memory × SpMat K => st.2.Sym) (fun b a b' hb e => blockPair_sym hb e) _ hb e) _ hs e
  · cases e; exact hs

theorem blockDynamic_sym {E : Env} {I : Interactions K} {c : Config} {su : BlockSetup} {nbr : Bool} {th en : K} {gs : List K}
    {dA : List Nat} {h h' : SpMat K} (hs : h.Sym) (e : blockDynamic E I c su nbr th gs en dA h = .ok h') : h'.Sym := by
  unfold blockDynamic at e
  obtain ⟨st, e1, e⟩ := bind_eq_ok.1 e
  cases e
  refine foldlM_inv (P := fun st : Memory × SpMat K => st.2.Sym) (fun b a b' hb e => ?_) _ hs e1
  obtain ⟨spin, _, e⟩ := bind_eq_ok.1 e
  exact foldlM_inv (P := fun st : Memory × SpMat K => st.2.Sym) (fun b a b' hb e => blockExchange_sym hb e) _ hb e

theorem blockDressed_sym {E : Env} {I : Interactions K} {c : Config} {su : BlockSetup} {o : BlockOptions K} {dets : List (List Nat)}
    {ham h : SpMat K} {gs : List K} {en : K} (hs : ham.Sym) (e : blockDressed E I c su o dets ham gs en = .ok h) : h.Sym := by
  unfold blockDressed at e
  obtain ⟨pB, _, e⟩ := bind_eq_ok.1 e
  refine foldlM_inv (P := SpMat.Sym) (fun b a b' hb e => ?_) _ hs e
  obtain ⟨intr, _, e⟩ := bind_eq_ok.1 e
  obtain ⟨h1, e1, e⟩ := bind_eq_ok.1 e
  have hs1 := addStaticDressing_sym hb e1
  split_ifs at e with hd
  · exact blockDynamic_sym hs1 e
  · cases e; exact hs1

/-! ### The loops -/

theorem consec_concat {α : Type} {l : List α} {x y a b : α} (hx : l.getLast? = some x) (h : Consec (l ++ [y]) a b) :
    Consec l a b ∨ (a = x ∧ b = y) := by
  obtain ⟨p, q, e⟩ := h
  rcases List.eq_nil_or_concat q with rfl | ⟨q', z, rfl⟩
  · right
    have e' : l ++ [y] = (p ++ [a]) ++ [b] := by rw [e]; simp
    obtain ⟨h1, h2⟩ := List.append_inj' e' rfl
    refine ⟨?_, by simpa using h2.symm⟩
    rw [h1] at hx
    simpa using hx
  · left
    have e' : l ++ [y] = (p ++ a :: b :: q') ++ [z] := by rw [e]; simp
    obtain ⟨h1, h2⟩ := List.append_inj' e' rfl
    exact ⟨p, q', h1⟩

theorem pyGet_inv {α : Type} {l : List α} {i : Nat} {x : α} (h : pyGet l i = .ok x) : l[i]? = some x := by
  unfold pyGet at h
  split at h
  · cases h; assumption
  · cases h

theorem neelSolve_ok {solve : Solver K} {c : Config} {dets : List (List Nat)} {h : SpMat K} :
    ∀ {fuel k : Nat} {r : Nat × List K × List (List K) × List K}, neelSolve solve c dets h fuel k = .ok r →
      r.2.1 ≠ [] ∧ r.2.2.1[0]? = some r.2.2.2 ∧ ∃ k', solve k' h = .ok (r.2.1, r.2.2.1)
  | 0, k, r, e => by cases e
  | fuel + 1, k, r, e => by
    unfold neelSolve at e
    obtain ⟨s, e1, e⟩ := bind_eq_ok.1 e
    obtain ⟨gs, e2, e⟩ := bind_eq_ok.1 e
    split_ifs at e with hn
    · obtain ⟨_, _, e⟩ := bind_eq_ok.1 e
      cases e
      exact ⟨hn, pyGet_inv e2, k, e1⟩
    · exact neelSolve_ok e

theorem blockSolve_ok {solve : Solver K} {h : SpMat K} :
    ∀ {fuel k : Nat} {r : Nat × List K × List (List K)}, blockSolve solve h fuel k = .ok r →
      r.2.1 ≠ [] ∧ ∃ k', solve k' h = .ok (r.2.1, r.2.2)
  | 0, k, r, e => by cases e
  | fuel + 1, k, r, e => by
    unfold blockSolve at e
    obtain ⟨s, e1, e⟩ := bind_eq_ok.1 e
    split_ifs at e with hn
    · cases e
      exact ⟨hn, k, e1⟩
    · exact blockSolve_ok e

/-- The loop of `embedding_neel`: a property `Q` of the probabilities that every update establishes holds for all of them, a property
`P` of the iterations that follows from `Q` holds for all iterations. The stored Hamiltonian is the argument. The convergence test fails
for all consecutive ground states except the last two, for which it has the outcome recorded in the result. -/
theorem neelLoop_trace {E : Env} {sqrt : K → K} {solve : Solver K} {fuel : Nat} {I : Interactions K} {c : Config} {su : NeelSetup}
    {dets : List (List Nat)} {ham : SpMat K} {tol : K} {P : NeelStep K → Prop} {Q : List (Int × List K) → Prop}
    (hP : ∀ pR h gs, Q pR → neelDressed E I c su.cE su.frontier dets ham pR = .ok h → P ⟨h, pR, gs⟩)
    (hQ : ∀ pR0 k h vals vects gs pL pR, neelDressed E I c su.cE su.frontier dets ham pR0 = .ok h → solve k h = .ok (vals, vects) →
      vects[0]? = some gs → spinsProbabilities c dets gs = .ok pL →
      updateProb E.toSetSem c su.emb su.frontier pL = .ok pR → Q pR) (gs0 : List K) :
    ∀ (iter k : Nat) (pR : List (Int × List K)) (gs : List K) (last : Option (List K × List (List K)))
      (trace : List (NeelStep K)) (r : NeelResult K), Q pR → (∀ x ∈ trace, P x) →
      (gs0 :: trace.map (·.gs)).getLast? = some gs →
      (∀ v, last = some v → v.1 ≠ [] ∧ ∃ x ∈ v.2[0]?, ∃ p, gs0 :: trace.map (·.gs) = p ++ [x] ∧ p ≠ []) →
      (∀ a b, Consec (gs0 :: trace.map (·.gs)) a b → converged sqrt tol b a = .ok false) →
      neelLoop E sqrt solve fuel I c su dets ham tol iter k pR gs last trace = .ok r →
      (∀ x ∈ r.trace, P x) ∧ r.trace.length ≤ trace.length + iter ∧ r.ham = ham ∧ r.eigvals ≠ [] ∧
        (r.converged = false → r.trace.length = trace.length + iter) ∧
        ∃ p old new, gs0 :: r.trace.map (·.gs) = p ++ [old, new] ∧ r.eigvects[0]? = some new ∧
          converged sqrt tol new old = .ok r.converged ∧ ∀ a b, Consec (p ++ [old]) a b → converged sqrt tol b a = .ok false
  | 0, k, pR, gs, last, trace, r, hq, ht, hl, hla, hc, e => by
    cases last with
    | none => cases e
    | some v =>
      obtain ⟨vals, vects⟩ := v
      cases e
      obtain ⟨h1, x, hx, p, hp, hne⟩ := hla _ rfl
      rcases List.eq_nil_or_concat p with rfl | ⟨p', y, rfl⟩
      · exact absurd rfl hne
      · have hp' : gs0 :: trace.map (·.gs) = p' ++ [y, x] := by rw [hp]; simp
        refine ⟨ht, by simp, rfl, h1, fun _ => by simp, p', y, x, hp', by simpa using hx, hc _ _ ⟨p', [], by rw [hp']⟩, ?_⟩
        rintro a b ⟨p, q, h⟩
        exact hc a b ⟨p, q ++ [x], by rw [hp']; simpa using congrArg (· ++ [x]) h⟩
  | iter + 1, k, pR, gs, last, trace, r, hq, ht, hl, hla, hc, e => by
    unfold neelLoop at e
    obtain ⟨h, e1, e⟩ := bind_eq_ok.1 e
    obtain ⟨s, e2, e⟩ := bind_eq_ok.1 e
    obtain ⟨pL, e3, e⟩ := bind_eq_ok.1 e
    obtain ⟨pR', e4, e⟩ := bind_eq_ok.1 e
    dsimp only at e
    obtain ⟨conv, e5, e⟩ := bind_eq_ok.1 e
    obtain ⟨s1, s2, k', s3⟩ := neelSolve_ok e2
    have ht' : ∀ x ∈ trace ++ [⟨h, pR, s.2.2.2⟩], P x := by
      intro x hx
      rcases List.mem_append.1 hx with hx | hx
      · exact ht x hx
      · rw [List.mem_singleton.1 hx]; exact hP pR h _ hq e1
    have hmap : gs0 :: (trace ++ [(⟨h, pR, s.2.2.2⟩ : NeelStep K)]).map (·.gs) = (gs0 :: trace.map (·.gs)) ++ [s.2.2.2] := by simp
    obtain ⟨p, hp⟩ : ∃ p, gs0 :: trace.map (·.gs) = p ++ [gs] := List.getLast?_eq_some_iff.1 hl
    by_cases hcv : conv = true
    · rw [if_pos hcv] at e
      cases e
      refine ⟨ht', by simp, rfl, s1, fun h => by simp at h, p, gs, s.2.2.2, by rw [hmap, hp]; simp, s2, by rw [e5, hcv], ?_⟩
      rw [← hp]; exact hc
    · rw [if_neg hcv] at e
      have hcf : conv = false := by simpa using hcv
      obtain ⟨h1, h2, h3, h4, h5, h6⟩ := neelLoop_trace hP hQ gs0 iter _ _ _ _ _ r (hQ _ _ _ _ _ _ _ _ e1 s3 s2 e3 e4) ht'
        (by rw [hmap]; exact List.getLast?_concat)
        (by
          rintro v hv
          cases hv
          exact ⟨s1, s.2.2.2, s2, gs0 :: trace.map (·.gs), hmap, by simp⟩)
        (by
          intro a b hab
          rw [hmap] at hab
          rcases consec_concat hl hab with hab | ⟨rfl, rfl⟩
          · exact hc a b hab
          · rw [e5, hcf]) e
      rw [List.length_append, List.length_singleton] at h2 h5
      exact ⟨h1, by omega, h3, h4, fun h => by rw [h5 h]; omega, h6⟩

/-- The loop of `embedding_blocks`, in the same way. -/
theorem blockLoop_trace {E : Env} {sqrt : K → K} {solve : Solver K} {fuel : Nat} {I : Interactions K} {c : Config} {su : BlockSetup}
    {o : BlockOptions K} {dets : List (List Nat)} {ham : SpMat K} {tol : K} {P : SpMat K → Prop}
    (hP : ∀ gs en h, blockDressed E I c su o dets ham gs en = .ok h → P h) (gs0 : List K) :
    ∀ (iter k : Nat) (gs : List K) (en : K) (b : Bool) (trace : List (BlockStep K)) (r : BlockResult K ⊕ List (BlockStep K)),
      (∀ x ∈ trace, P x.ham) →
      (gs0 :: trace.map (·.gs)).getLast? = some gs →
      (∀ a b, Consec (gs0 :: trace.map (·.gs)) a b → converged sqrt tol b a = .ok false) →
      blockLoop E sqrt solve fuel I c su o dets ham tol iter k gs en b trace = .ok r →
      (∀ x ∈ r.elim (fun r => r.trace) id, P x.ham) ∧ (r.elim (fun r => r.trace) id).length ≤ trace.length + iter ∧
        (∀ t, r = .inr t → t.length = trace.length + iter ∧
          ∀ a b, Consec (gs0 :: t.map (·.gs)) a b → converged sqrt tol b a = .ok false) ∧
        ∀ q, r = .inl q → q.eigvals ≠ [] ∧ (∃ gs, q.trace.getLast? = some ⟨q.ham, gs⟩ ∧ q.eigvects[0]? = some gs) ∧
          ∃ p old new, gs0 :: q.trace.map (·.gs) = p ++ [old, new] ∧ q.eigvects[0]? = some new ∧
            converged sqrt tol new old = .ok true ∧ ∀ a b, Consec (p ++ [old]) a b → converged sqrt tol b a = .ok false
  | 0, k, gs, en, b, trace, r, ht, hl, hc, e => by
    cases b with
    | false => cases e
    | true => cases e; exact ⟨ht, by simp, by rintro t h; cases h; exact ⟨rfl, hc⟩, by rintro q h; cases h⟩
  | iter + 1, k, gs, en, b, trace, r, ht, hl, hc, e => by
    unfold blockLoop at e
    obtain ⟨h, e1, e⟩ := bind_eq_ok.1 e
    obtain ⟨s, e2, e⟩ := bind_eq_ok.1 e
    obtain ⟨g, e3, e⟩ := bind_eq_ok.1 e
    obtain ⟨e0, e4, e⟩ := bind_eq_ok.1 e
    dsimp only at e
    obtain ⟨conv, e5, e⟩ := bind_eq_ok.1 e
    obtain ⟨s1, k', s3⟩ := blockSolve_ok e2
    have ht' : ∀ x ∈ trace ++ [(⟨h, g⟩ : BlockStep K)], P x.ham := by
      intro x hx
      rcases List.mem_append.1 hx with hx | hx
      · exact ht x hx
      · rw [List.mem_singleton.1 hx]; exact hP gs en h e1
    have hmap : gs0 :: (trace ++ [(⟨h, g⟩ : BlockStep K)]).map (·.gs) = (gs0 :: trace.map (·.gs)) ++ [g] := by simp
    obtain ⟨p, hp⟩ : ∃ p, gs0 :: trace.map (·.gs) = p ++ [gs] := List.getLast?_eq_some_iff.1 hl
    by_cases hcv : conv = true
    · rw [if_pos hcv] at e
      cases e
      refine ⟨ht', by simp, (by rintro t h; cases h), ?_⟩
      rintro q h
      cases h
      refine ⟨s1, ⟨g, by simp, pyGet_inv e3⟩, p, gs, g, by rw [hmap, hp]; simp, pyGet_inv e3, by rw [e5, hcv], ?_⟩
      rw [← hp]; exact hc
    · rw [if_neg hcv] at e
      have hcf : conv = false := by simpa using hcv
      obtain ⟨h1, h2, h3, h4⟩ := blockLoop_trace hP gs0 iter _ _ _ _ _ r ht' (by rw [hmap]; exact List.getLast?_concat)
        (by
          intro a b hab
          rw [hmap] at hab
          rcases consec_concat hl hab with hab | ⟨rfl, rfl⟩
          · exact hc a b hab
          · rw [e5, hcf]) e
      rw [List.length_append, List.length_singleton] at h2 h3
      exact ⟨h1, by omega, fun t ht => ⟨by rw [(h3 t ht).1]; omega, (h3 t ht).2⟩, h4⟩

/-! ### Executions that raise -/

theorem bind_congr_ok {α β : Type} {x : Py α} {f g : α → Py β} (h : ∀ a, x = .ok a → f a = g a) : (x >>= f) = (x >>= g) := by
  cases x with
  | error e => rfl
  | ok a => exact h a rfl

theorem neelSolve_congr {solve solve' : Solver K} {c : Config} {dets : List (List Nat)} {h : SpMat K} (hs : ∀ k, solve k h = solve' k h) :
    ∀ fuel k, neelSolve solve c dets h fuel k = neelSolve solve' c dets h fuel k
  | 0, _ => rfl
  | fuel + 1, k => by
    unfold neelSolve
    rw [hs k]
    refine bind_congr_ok fun r _ => bind_congr_ok fun gs _ => ?_
    rw [neelSolve_congr hs fuel (k + 1)]

theorem blockSolve_congr {solve solve' : Solver K} {h : SpMat K} (hs : ∀ k, solve k h = solve' k h) :
    ∀ fuel k, blockSolve solve h fuel k = blockSolve solve' h fuel k
  | 0, _ => rfl
  | fuel + 1, k => by
    unfold blockSolve
    rw [hs k]
    refine bind_congr_ok fun r _ => ?_
    rw [blockSolve_congr hs fuel (k + 1)]

theorem neelLoop_congr {E : Env} {sqrt : K → K} {solve solve' : Solver K} {fuel : Nat} {I : Interactions K} {c : Config} {su : NeelSetup}
    {dets : List (List Nat)} {ham : SpMat K} {tol : K}
    (hs : ∀ pR h, neelDressed E I c su.cE su.frontier dets ham pR = .ok h → ∀ k, solve k h = solve' k h) :
    ∀ iter k pR gs last trace, neelLoop E sqrt solve fuel I c su dets ham tol iter k pR gs last trace =
      neelLoop E sqrt solve' fuel I c su dets ham tol iter k pR gs last trace
  | 0, k, pR, gs, last, trace => by
    cases last <;> rfl
  | iter + 1, k, pR, gs, last, trace => by
    unfold neelLoop
    refine bind_congr_ok fun h e1 => ?_
    rw [neelSolve_congr (hs pR h e1)]
    refine bind_congr_ok fun r _ => bind_congr_ok fun pL _ => bind_congr_ok fun pR' _ => bind_congr_ok fun conv _ => ?_
    rw [neelLoop_congr hs iter]

theorem blockLoop_congr {E : Env} {sqrt : K → K} {solve solve' : Solver K} {fuel : Nat} {I : Interactions K} {c : Config} {su : BlockSetup}
    {o : BlockOptions K} {dets : List (List Nat)} {ham : SpMat K} {tol : K}
    (hs : ∀ gs en h, blockDressed E I c su o dets ham gs en = .ok h → ∀ k, solve k h = solve' k h) :
    ∀ iter k gs en b trace, blockLoop E sqrt solve fuel I c su o dets ham tol iter k gs en b trace =
      blockLoop E sqrt solve' fuel I c su o dets ham tol iter k gs en b trace
  | 0, k, gs, en, b, trace => by
    cases b <;> rfl
  | iter + 1, k, gs, en, b, trace => by
    unfold blockLoop
    refine bind_congr_ok fun h e1 => ?_
    rw [blockSolve_congr (hs gs en h e1)]
    refine bind_congr_ok fun r _ => bind_congr_ok fun g _ => bind_congr_ok fun e0 _ => bind_congr_ok fun conv _ => ?_
    rw [blockLoop_congr hs iter]

end

end TJ
