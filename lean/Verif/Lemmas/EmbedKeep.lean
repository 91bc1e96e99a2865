/-
A property of matrices that adding a triple keeps is kept by the dressing of `embedding_blocks`.
-/
import Verif.Lemmas.EmbedSym

namespace TJ

section
variable {K : Type} [Field K] [LinearOrder K] {P : SpMat K → Prop}

theorem addStaticDressing_keeps (hP : ∀ {M M' : SpMat K} {x : K} {r c : Nat}, P M → addHamCoo M x r c = .ok M' → P M') {c : Config} {nbr : Bool}
    {det : List Nat} {ind : Nat} {intr : K} {h h' : SpMat K} (hs : P h) (e : addStaticDressing c nbr det ind intr h = .ok h') : P h' := by
  unfold addStaticDressing at e
  cases nbr with
  | true => exact hP hs e
  | false => exact foldlM_inv (P := P) (fun b a b' hb e => hP hb e) _ hs e

theorem addCoupling_keeps (hP : ∀ {M M' : SpMat K} {x : K} {r c : Nat}, P M → addHamCoo M x r c = .ok M' → P M') {c : Config} {nbr : Bool} {th en enP : K}
    {gs : List K} {h h' : SpMat K} {p : (List Nat × K) × (List Nat × K)} (hs : P h) (e : addCoupling c nbr th gs en enP h p = .ok h') : P h' := by
  unfold addCoupling at e
  obtain ⟨x1, _, e⟩ := bind_eq_ok.1 e
  obtain ⟨x2, _, e⟩ := bind_eq_ok.1 e
  have key : ∀ (x : K) (i j : Nat) (h h' : SpMat K), P h → (do
      if th ≤ |x| then
        let h ← addHamCoo h x i j
        addHamCoo h x j i
      else return h : Py (SpMat K)) = .ok h' → P h' := by
    intro x i j h h' hs e
    split_ifs at e with ht
    · obtain ⟨h1, e1, e2⟩ := bind_eq_ok.1 e
      exact hP (hP hs e1) e2
    · cases e; exact hs
  dsimp only at e
  cases nbr with
  | true => exact key _ _ _ _ _ hs e
  | false => exact foldlM_inv (P := P) (fun b a b' hb e => key _ _ _ _ _ hb e) _ hs e

theorem addPerturbator_keeps (hP : ∀ {M M' : SpMat K} {x : K} {r c : Nat}, P M → addHamCoo M x r c = .ok M' → P M') {E : Env} {I : Interactions K}
    {c : Config} {su : BlockSetup} {nbr : Bool} {th en : K} {gs : List K} {cPA cPB : Config} {nB : Counts} {pA pB : List Nat} {h h' : SpMat K} (hs : P h)
    (e : addPerturbator E I c su nbr th gs en cPA cPB nB pA pB h = .ok h') : P h' := by
  unfold addPerturbator at e
  dsimp only at e
  obtain ⟨pert, _, e⟩ := bind_eq_ok.1 e
  obtain ⟨_, _, e⟩ := bind_eq_ok.1 e
  obtain ⟨_, _, e⟩ := bind_eq_ok.1 e
  obtain ⟨_, _, e⟩ := bind_eq_ok.1 e
  obtain ⟨_, _, e⟩ := bind_eq_ok.1 e
  obtain ⟨_, _, e⟩ := bind_eq_ok.1 e
  exact foldlM_inv (P := P) (fun b a b' hb e => addCoupling_keeps hP hb e) _ hs e

theorem blockPair_keeps (hP : ∀ {M M' : SpMat K} {x : K} {r c : Nat}, P M → addHamCoo M x r c = .ok M' → P M') {E : Env} {I : Interactions K}
    {c : Config} {su : BlockSetup} {nbr : Bool} {th en : K} {gs : List K} {cPA cPB : Config} {nA nB : Counts} {pA : List Nat} {spin new : Occ} {dB : List Nat}
    {st st' : Memory × SpMat K} {s : Nat} (hs : P st.2) (e : blockPair E I c su nbr th gs en cPA cPB nA nB pA spin new dB st s = .ok st') : P st'.2 := by
  unfold blockPair at e
  obtain ⟨o, _, e⟩ := bind_eq_ok.1 e
  by_cases ho : o = new
  · rw [if_pos ho] at e
    obtain ⟨pB, _, e⟩ := bind_eq_ok.1 e
    dsimp only at e
    split at e
    · cases e
    · split_ifs at e with hm
      · cases e; exact hs
      · obtain ⟨h, e1, e⟩ := bind_eq_ok.1 e
        cases e
        exact addPerturbator_keeps hP hs e1
  · rw [if_neg ho] at e
    cases e; exact hs

theorem blockExchange_keeps (hP : ∀ {M M' : SpMat K} {x : K} {r c : Nat}, P M → addHamCoo M x r c = .ok M' → P M') {E : Env} {I : Interactions K}
    {c : Config} {su : BlockSetup} {nbr : Bool} {th en : K} {gs : List K} {dA : List Nat} {site : Nat} {spin new : Occ} {st st' : Memory × SpMat K}
    (hs : P st.2) (e : blockExchange E I c su nbr th gs en dA site spin st new = .ok st') : P st'.2 := by
  unfold blockExchange at e
  split_ifs at e with hp
  · obtain ⟨_, _, e⟩ := bind_eq_ok.1 e
    obtain ⟨_, _, e⟩ := bind_eq_ok.1 e
    obtain ⟨_, _, e⟩ := bind_eq_ok.1 e
    obtain ⟨_, _, e⟩ := bind_eq_ok.1 e
    obtain ⟨_, _, e⟩ := bind_eq_ok.1 e
    exact foldlM_inv (P := fun st : Memory × SpMat K => P st.2) (fun b a b' hb e =>
      foldlM_inv (P := fun st : Memory × SpMat K => P st.2) (fun b a b' hb e => blockPair_keeps hP hb e) _ hb e) _ hs e
  · cases e; exact hs

theorem blockDynamic_keeps (hP : ∀ {M M' : SpMat K} {x : K} {r c : Nat}, P M → addHamCoo M x r c = .ok M' → P M') {E : Env} {I : Interactions K}
    {c : Config} {su : BlockSetup} {nbr : Bool} {th en : K} {gs : List K} {dA : List Nat} {h h' : SpMat K} (hs : P h)
    (e : blockDynamic E I c su nbr th gs en dA h = .ok h') : P h' := by
  unfold blockDynamic at e
  obtain ⟨st, e1, e⟩ := bind_eq_ok.1 e
  cases e
  refine foldlM_inv (P := fun st : Memory × SpMat K => P st.2) (fun b a b' hb e => ?_) _ hs e1
  obtain ⟨spin, _, e⟩ := bind_eq_ok.1 e
  exact foldlM_inv (P := fun st : Memory × SpMat K => P st.2) (fun b a b' hb e => blockExchange_keeps hP hb e) _ hb e

theorem blockDressed_keeps (hP : ∀ {M M' : SpMat K} {x : K} {r c : Nat}, P M → addHamCoo M x r c = .ok M' → P M') {E : Env} {I : Interactions K}
    {c : Config} {su : BlockSetup} {o : BlockOptions K} {dets : List (List Nat)} {ham h : SpMat K} {gs : List K} {en : K} (hs : P ham)
    (e : blockDressed E I c su o dets ham gs en = .ok h) : P h := by
  unfold blockDressed at e
  obtain ⟨pB, _, e⟩ := bind_eq_ok.1 e
  refine foldlM_inv (P := P) (fun b a b' hb e => ?_) _ hs e
  obtain ⟨intr, _, e⟩ := bind_eq_ok.1 e
  obtain ⟨h1, e1, e⟩ := bind_eq_ok.1 e
  have hs1 := addStaticDressing_keeps hP hb e1
  split_ifs at e with hd
  · exact blockDynamic_keeps hP hs1 e
  · cases e; exact hs1

/-- The dressed matrix has the indices within its shape. -/
theorem blockDressed_bounds {E : Env} {I : Interactions K} {c : Config} {su : BlockSetup} {o : BlockOptions K} {dets : List (List Nat)} {ham h : SpMat K}
    {gs : List K} {en : K} (hin : ∀ t ∈ ham.coo, t.2.1 < ham.dim ∧ t.2.2 < ham.dim) (e : blockDressed E I c su o dets ham gs en = .ok h) :
    h.dim = ham.dim ∧ ∀ t ∈ h.coo, t.2.1 < h.dim ∧ t.2.2 < h.dim := by
  refine blockDressed_keeps (P := fun M : SpMat K => M.dim = ham.dim ∧ ∀ t ∈ M.coo, t.2.1 < M.dim ∧ t.2.2 < M.dim) ?_ ⟨rfl, hin⟩ e
  rintro M M' x r c ⟨h1, _⟩ h
  obtain ⟨rfl, hb⟩ := (cooMatrix_ok_iff _ _ _).1 h
  exact ⟨h1, hb⟩

end

end TJ
