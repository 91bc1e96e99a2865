/-
Lemmas for the dynamic dressing of embedding_blocks: the loops over sites, occupations and determinants of the neighbour.
-/
import Verif.Lemmas.SecondOrder4

namespace TJ

open Finset

/-! ### Reached states -/

section
variable {n : Nat} (pos : Fin (n + n) → Pt)

/-- One or two bonds lead from `x` in the left block to `y` in the right block. -/
def Close (x y : Fin n) : Prop := Near (pos (lsite x)) (pos (rsite y)) ∨ TwoBonds pos (lsite x) (rsite y)

/-- The contents of `x` in the left block and of a site close to it in the right block are exchanged. -/
def ReachedAt (h b : Nat) (α : Conf n) (x : Fin n) (new : Occ) (P : Conf2 n) : Prop :=
  ∃ y, ∃ β : Conf n, β.count .hole = h ∧ β.count .down = b ∧ β y = new ∧ Close pos x y ∧
    P = (Function.update α x new, Function.update β y (α x))

end

section
variable {K : Type} [Field K] [LinearOrder K] {E : Env} {c : Config} {su : BlockSetup} {dets : List (List Nat)} {pos : Nat → Pt}
  (I : Interactions K)

/-- What is added for `P`; the spin that has come over is read off from the particles of the left block. -/
def addedFor (dets : List (List Nat)) (pos : Nat → Pt) (L N : Nat) (gs : List K) (en thr : K) (P : Conf2 c.nsites) : Fin dets.length → Fin dets.length → K :=
  if P.1.count .hole + 1 = c.nholes then
    if P.1.count .down = c.nbeta then pertSum I pos L N gs en thr .up P else pertSum I pos L N gs en thr .down P
  else 0

theorem addedFor_eq (L N : Nat) (gs : List K) (en thr : K) {P : Conf2 c.nsites} {old new : Occ} (hne : new ≠ old)
    (h1 : ∀ o, (P.1.count o : Int) = c.counts.get o + (if o = new then 1 else 0) - (if o = old then 1 else 0)) :
    addedFor I dets pos L N gs en thr P = if old = .hole then pertSum I pos L N gs en thr new P else 0 := by
  have a1 := h1 .hole
  have a2 := h1 .down
  simp only [Config.counts, Counts.get] at a1 a2
  unfold addedFor
  cases old <;> cases new <;> first | exact absurd rfl hne | simp at a1 a2
  · rw [if_pos (by omega), if_neg (by omega)]; rfl
  · rw [if_pos (by omega), if_pos (by omega)]; rfl
  · rw [if_neg (by omega)]; rfl
  · rw [if_neg (by omega)]; rfl
  · rw [if_neg (by omega)]; rfl
  · rw [if_neg (by omega)]; rfl

open Classical in
/-- The register has its keys, and the matrix has got what is due to the registered states. -/
structure LoopInv (dets : List (List Nat)) (c : Config) (G : Conf2 c.nsites → Fin dets.length → Fin dets.length → K) (h0 : SpMat K)
    (st : Memory × SpMat K) : Prop where
  good : GoodMat dets.length st.2
  keys : ∀ k ∈ memoryKeys c.counts, ∃ l, st.1.lookup k = some l
  val : entries dets.length st.2 = entries dets.length h0 + ∑ P, if InMemory st.1 P then G P else 0

/-- The counts of both perturbed configurations. -/
theorem perturbed_counts {n : Nat} {hh bb : Nat} {A : Counts} (hA : A.nholes = hh ∧ A.nbeta = bb ∧ A.nalpha = (n : Int) - hh - bb) {α : Conf n}
    (h1 : α.count .hole = hh) (h2 : α.count .down = bb) (o : Occ) : (α.count o : Int) = A.get o := by
  have := count_three α
  obtain ⟨a1, a2, a3⟩ := hA
  cases o
  · show _ = A.nholes; omega
  · show _ = A.nbeta; omega
  · show _ = A.nalpha; omega

variable {I}

/-- One determinant of the neighbour and one of its sites. -/
theorem blockPair_spec (X : BlockCtx E c su dets pos) {L : Nat} {nbr : Bool} (hq : nbr = false → SquareConf c L) (thr : K)
    {gs : List K} (hgs : gs.length = dets.length) (en : K) {h0 : SpMat K} {α : Conf c.nsites} (hα : HasCounts c α) {x y : Fin c.nsites}
    {new : Occ} (hne : new ≠ α x) {cPA cPB : Config} {pertA detB : List Nat}
    (hA : Describes cPA pertA (Function.update α x new)) (hcA : cPA.counts = countsA c.nsites c.counts (α x) new)
    (hcB : configOf su.cB (countsB su.cB.nsites su.cB.counts c.counts (α x) new) (su.cB.restr.2, su.cB.restr.1) = .ok cPB)
    (hdB : detB ∈ dets) {st : Memory × SpMat K}
    (hst : LoopInv dets c (addedFor I dets pos L (sides nbr) gs en thr) h0 st) :
    ∃ st', blockPair E I c su nbr thr gs en cPA cPB (countsA c.nsites c.counts (α x) new) (countsB su.cB.nsites su.cB.counts c.counts (α x) new) pertA (α x) new detB st (c.nsites + y.val) = .ok st' ∧
      LoopInv dets c (addedFor I dets pos L (sides nbr) gs en thr) h0 st' ∧
      ∀ P, InMemory st'.1 P ↔ (InMemory st.1 P ∨ (conf c detB y = new ∧
        P = (Function.update α x new, Function.update (conf c detB) y (α x)))) := by
  obtain ⟨hβ, hB⟩ := describes_of_mem (c' := su.cB) X.hb X.hn X.nB X.fullB X.hB X.bB hdB
  set β := conf c detB with hβe
  have hsB : getSpinSite su.cB detB (c.nsites + y.val - c.nsites) = .ok (β y) := by
    rw [Nat.add_sub_cancel_left, getSpinSite_eq (hB.valid.mem.2 (by rw [X.nB]; exact y.2)), hB.occ y.2]
  rw [← hcA]
  unfold blockPair
  by_cases hy : β y = new
  swap
  · refine ⟨st, bind_ok hsB (if_neg hy), hst, fun P => ?_⟩
    simp [hy]
  have hcount : su.cB.counts = c.counts := by
    unfold Config.counts Config.nalpha
    rw [X.nB, X.hB, X.bB]
  have hkB : countsB su.cB.nsites su.cB.counts c.counts (α x) new =
      (⟨su.cB.nholes + (if Occ.hole = α x then 1 else 0) - (if Occ.hole = new then 1 else 0),
      su.cB.nbeta + (if Occ.down = α x then 1 else 0) - (if Occ.down = new then 1 else 0),
      su.cB.nalpha + (if Occ.up = α x then 1 else 0) - (if Occ.up = new then 1 else 0)⟩ : Counts) := by
    rw [← hcount]
    unfold countsB Config.counts Config.nalpha
    generalize α x = spin at hne
    cases spin <;> cases new <;> first | exact absurd rfl hne | (simp [Counts.set, Counts.get, Counts.rebuild]; try omega)
  obtain ⟨cPB', pertB, p1, p2, p3, hBP⟩ := perturb_describes E.toSetSem hB hy (Ne.symm hne) _ hkB (su.cB.restr.2, su.cB.restr.1)
    (fun s hs => by have := X.fullB s (by rw [X.nB]; exact hs); exact ⟨this.2, this.1⟩)
  obtain rfl := Except.ok.inj (hcB.symm.trans p1)
  rw [← p2]
  set P0 : Conf2 c.nsites := (Function.update α x new, Function.update β y (α x)) with hP0
  have hAP : Describes cPA pertA P0.1 := hA
  have hBP : Describes cPB pertB P0.2 := hBP
  have hget : c.counts.nholes = c.nholes ∧ c.counts.nbeta = c.nbeta ∧ c.counts.nalpha = (c.nsites : Int) - c.nholes - c.nbeta := ⟨rfl, rfl, rfl⟩
  have h1 : ∀ o, (P0.1.count o : Int) = c.counts.get o + (if o = new then 1 else 0) - (if o = α x then 1 else 0) := fun o => by
    rw [← perturbed_counts hget hα.1 hα.2 o]
    exact count_set α x o rfl
  have h2 : ∀ o, (P0.2.count o : Int) = c.counts.get o + (if o = α x then 1 else 0) - (if o = new then 1 else 0) := fun o => by
    rw [← perturbed_counts hget hβ.1 hβ.2 o]
    exact count_set β y o hy
  have hkey : (cPA.counts.id, cPB.counts.id) ∈ memoryKeys c.counts := by
    rw [hcA, p2]
    have := C62_key c.nsites c.counts su.cB.counts (by rw [hcount]) (by rw [hcount]) (α x) new hne
    rw [X.nB]
    exact this
  obtain ⟨l, hl⟩ := hst.keys _ hkey
  have hin := inMemory_iff hAP hBP hl
  have hex : exchange E.toSetSem su.cB cPB detB (c.nsites + y.val - c.nsites) new (α x) = .ok pertB := by
    rw [Nat.add_sub_cancel_left]; exact p3
  by_cases hids : (computeHashTable cPA pertA, computeHashTable cPB pertB) ∈ l
  · refine ⟨st, bind_ok hsB ?_, hst, fun P => ?_⟩
    · rw [if_pos hy]
      refine bind_ok hex ?_
      simp only [hl, if_pos hids]
      rfl
    · constructor
      · exact Or.inl
      · rintro (h | ⟨_, rfl⟩)
        · exact h
        · exact hin.2 hids
  · have hnot : ¬ InMemory st.1 P0 := fun h => hids (hin.1 h)
    have hadd : ∃ h', addPerturbator E I c su nbr thr gs en cPA cPB cPB.counts pertA pertB st.2 = .ok h' ∧ GoodMat dets.length h' ∧
        entries dets.length h' = entries dets.length st.2 + addedFor I dets pos L (sides nbr) gs en thr P0 := by
      rw [addedFor_eq I L (sides nbr) gs en thr hne h1]
      by_cases ho : α x = .hole
      · rw [if_pos ho]
        rw [ho] at h1 h2 hne
        exact addPerturbator_borrow I X hq thr hgs en hAP hBP hne h1 h2 hst.good
      · rw [if_neg ho]
        exact ⟨st.2, addPerturbator_none I X nbr thr gs en hAP hBP hne ho h1 h2 st.2, hst.good, (add_zero _).symm⟩
    obtain ⟨h', a1, a2, a3⟩ := hadd
    have hmem := inMemory_add hAP hBP hl
    refine ⟨(st.1.map (fun p => if p.1 = (cPA.counts.id, cPB.counts.id) then
      (p.1, p.2 ++ [(computeHashTable cPA pertA, computeHashTable cPB pertB)]) else p), h'), bind_ok hsB ?_, ⟨a2, ?_, ?_⟩, fun P => ?_⟩
    · rw [if_pos hy]
      refine bind_ok hex ?_
      simp only [hl, if_neg hids]
      exact bind_ok a1 rfl
    · intro k hk
      obtain ⟨l', hl'⟩ := hst.keys k hk
      simp only [lookup_update (cPA.counts.id, cPB.counts.id) (fun l : List (Nat × Nat) => l ++ [(computeHashTable cPA pertA, computeHashTable cPB pertB)]) k st.1]
      split_ifs
      · exact ⟨_, by rw [hl']; rfl⟩
      · exact ⟨_, hl'⟩
    · rw [a3, hst.val, add_assoc]
      congr 1
      classical
      have : ∀ P, (if InMemory (st.1.map (fun p => if p.1 = (cPA.counts.id, cPB.counts.id) then
          (p.1, p.2 ++ [(computeHashTable cPA pertA, computeHashTable cPB pertB)]) else p)) P then addedFor I dets pos L (sides nbr) gs en thr P else 0) =
          (if InMemory st.1 P then addedFor I dets pos L (sides nbr) gs en thr P else 0) +
            (if P = P0 then addedFor I dets pos L (sides nbr) gs en thr P else 0) := by
        intro P
        simp only [hmem P]
        by_cases hP : P = P0
        · subst hP
          rw [if_pos (Or.inr rfl), if_neg hnot, if_pos rfl, zero_add]
        · simp only [hP, or_false, if_false, add_zero]
      simp only [this]
      rw [sum_add_distrib, sum_ite_eq' univ P0, if_pos (mem_univ _)]
    · simp only [hmem P, hy, true_and, hP0]

/-- One site of the block and one new content. -/
theorem blockExchange_spec (X : BlockCtx E c su dets pos) {L : Nat} {nbr : Bool} (hq : nbr = false → SquareConf c L) (thr : K)
    {gs : List K} (hgs : gs.length = dets.length) (en : K) {h0 : SpMat K} {detA : List Nat} (hdA : detA ∈ dets) {x : Fin c.nsites}
    (hx : x.val ∈ su.fA) {new : Occ} (hne : new ≠ conf c detA x) {st : Memory × SpMat K}
    (hst : LoopInv dets c (addedFor I dets pos L (sides nbr) gs en thr) h0 st) :
    ∃ st', blockExchange E I c su nbr thr gs en detA x.val (conf c detA x) st new = .ok st' ∧
      LoopInv dets c (addedFor I dets pos L (sides nbr) gs en thr) h0 st' ∧
      ∀ P, InMemory st'.1 P ↔ (InMemory st.1 P ∨ ReachedAt (fpos (c.nsites + c.nsites) pos) c.nholes c.nbeta (conf c detA) x new P) := by
  obtain ⟨hα, hA⟩ := describes_of_mem (c' := c) X.hb X.hn rfl X.hf rfl rfl hdA
  set α := conf c detA with hαe
  have hcount : su.cB.counts = c.counts := by
    unfold Config.counts Config.nalpha
    rw [X.nB, X.hB, X.bB]
  have hget : c.counts.nholes = c.nholes ∧ c.counts.nbeta = c.nbeta ∧ c.counts.nalpha = (c.nsites : Int) - c.nholes - c.nbeta := ⟨rfl, rfl, rfl⟩
  unfold blockExchange
  by_cases hpos : 0 < su.cB.counts.get new
  swap
  · refine ⟨st, if_neg hpos, hst, fun P => ⟨Or.inl, ?_⟩⟩
    rintro (h | ⟨y, β, b1, b2, b3, _⟩)
    · exact h
    · exfalso
      apply hpos
      rw [hcount, ← perturbed_counts hget b1 b2 new]
      have : 0 < β.count new := card_pos.2 ⟨y, mem_filter.2 ⟨mem_univ _, b3⟩⟩
      exact_mod_cast this
  rw [if_pos hpos]
  rw [hcount] at hpos
  have hkA : countsA c.nsites c.counts (α x) new = (⟨c.nholes + (if Occ.hole = new then 1 else 0) - (if Occ.hole = α x then 1 else 0),
      c.nbeta + (if Occ.down = new then 1 else 0) - (if Occ.down = α x then 1 else 0),
      c.nalpha + (if Occ.up = new then 1 else 0) - (if Occ.up = α x then 1 else 0)⟩ : Counts) := by
    unfold countsA Config.counts Config.nalpha
    generalize α x = spin at hne
    cases spin <;> cases new <;> first | exact absurd rfl hne | (simp [Counts.set, Counts.get, Counts.rebuild]; try omega)
  obtain ⟨cPA, pertA, p1, p2, p3, hAP⟩ := perturb_describes E.toSetSem hA (x := x) rfl hne _ hkA c.restr X.hf
  have hcfg : ∃ cPB, configOf su.cB (countsB su.cB.nsites su.cB.counts c.counts (α x) new) (su.cB.restr.2, su.cB.restr.1) = .ok cPB := by
    unfold configOf
    have hnn : ¬ ((countsB su.cB.nsites su.cB.counts c.counts (α x) new).nholes < 0 ∨
        ((countsB su.cB.nsites su.cB.counts c.counts (α x) new).nbeta < 0 ∧ (countsB su.cB.nsites su.cB.counts c.counts (α x) new).nholes ≠ 0)) := by
      rw [hcount]
      unfold countsB Config.counts at *
      generalize α x = spin at hne
      cases spin <;> cases new <;> first | exact absurd rfl hne | (simp [Counts.set, Counts.get, Counts.rebuild] at hpos ⊢; try omega)
    rw [if_neg hnn]
    unfold Config.init
    have : su.cB.bond.rows ≠ 0 := by
      have := X.nB
      have hx2 := x.2
      unfold Config.nsites at this hx2
      omega
    rw [if_neg this]
    exact ⟨_, rfl⟩
  obtain ⟨cPB, hcB⟩ := hcfg
  have hrow : su.cE.bond.rows = c.nsites + c.nsites := X.nE
  obtain ⟨n1, g1, _, g2⟩ := getNeighbors_spec E.toSetSem su.cE.bond (.list su.fB) x.val (by omega)
  obtain ⟨n2, g3, _, g4⟩ := C18_second_neighbors E.toSetSem su.cE.bond (.list su.fB) x.val (by omega)
  have hallow : ∀ s, allowed su.cE.bond.rows (.list su.fB) s ↔ s ∈ su.fB := by
    intro s
    have := X.neB
    cases h : su.fB with
    | nil => exact absurd h this
    | cons a l => rfl
  have hbond : ∀ {i j : Nat}, i < c.nsites + c.nsites → j < c.nsites + c.nsites →
      (su.cE.bond.e i j = 1 ↔ Near (pos i) (pos j)) := fun hi hj => X.gE.bond_iff (by rw [X.nE]; exact hi) (by rw [X.nE]; exact hj)
  have hnbr : ∀ s, s ∈ n1 ++ n2 → ∃ y : Fin c.nsites, s = c.nsites + y.val := by
    intro s hs
    have : s ∈ su.fB := by
      rcases List.mem_append.1 hs with h | h
      · exact (hallow s).1 ((g2 s).1 h).2.1
      · exact (hallow s).1 ((g4 s).1 h).2.1
    have := X.geB s this
    exact ⟨⟨s - c.nsites, by omega⟩, by simp only; omega⟩
  have hclose : ∀ y : Fin c.nsites, c.nsites + y.val ∈ n1 ++ n2 ↔ Close (fpos (c.nsites + c.nsites) pos) x y := by
    intro y
    have hb1 := hbond (i := x.val) (j := c.nsites + y.val) (by omega) (by omega)
    rw [List.mem_append, g2, g4, hallow, hrow]
    constructor
    · rintro (⟨_, _, h⟩ | ⟨_, _, _, _, m, hm, k1, k2⟩)
      · exact Or.inl (hb1.1 h)
      · exact Or.inr ⟨⟨m, hm⟩, (hbond (by omega) hm).1 k1, (hbond hm (by omega)).1 k2⟩
    · intro h
      have hB := (X.reach x y h).2
      by_cases h1 : Near (pos x.val) (pos (c.nsites + y.val))
      · exact Or.inl ⟨by omega, hB, hb1.2 h1⟩
      · rcases h with h | ⟨m, k1, k2⟩
        · exact absurd h h1
        · exact Or.inr ⟨by omega, hB, by omega, fun e => h1 (hb1.1 e), m.val, m.2,
            (hbond (i := x.val) (by omega) m.2).2 k1, (hbond (j := c.nsites + y.val) m.2 (by omega)).2 k2⟩
  obtain ⟨st', r1, r2, r3⟩ := foldlM_acc (LoopInv dets c (addedFor I dets pos L (sides nbr) gs en thr) h0) (fun st P => InMemory st.1 P)
    (f := fun st detB => (n1 ++ n2).foldlM (blockPair E I c su nbr thr gs en cPA cPB (countsA c.nsites c.counts (α x) new) (countsB su.cB.nsites su.cB.counts c.counts (α x) new) pertA (α x) new detB) st)
    (P := fun detB P => ∃ y : Fin c.nsites, Close (fpos (c.nsites + c.nsites) pos) x y ∧ conf c detB y = new ∧
        P = (Function.update α x new, Function.update (conf c detB) y (α x))) su.detsB st hst (by
      intro detB hdB st hst
      rw [X.memB] at hdB
      obtain ⟨st', q1, q2, q3⟩ := foldlM_acc (LoopInv dets c (addedFor I dets pos L (sides nbr) gs en thr) h0) (fun st P => InMemory st.1 P)
        (f := blockPair E I c su nbr thr gs en cPA cPB (countsA c.nsites c.counts (α x) new) (countsB su.cB.nsites su.cB.counts c.counts (α x) new) pertA (α x) new detB)
        (P := fun s P => ∃ y : Fin c.nsites, s = c.nsites + y.val ∧ conf c detB y = new ∧
          P = (Function.update α x new, Function.update (conf c detB) y (α x))) (n1 ++ n2) st hst (by
          intro s hs st hst
          obtain ⟨y, rfl⟩ := hnbr s hs
          obtain ⟨st', w1, w2, w3⟩ := blockPair_spec X hq thr hgs en hα hne hAP p2 hcB hdB (y := y) hst
          refine ⟨st', w1, w2, fun P => ?_⟩
          rw [w3]
          refine or_congr_right ⟨fun h => ⟨y, rfl, h⟩, ?_⟩
          rintro ⟨y', e, h⟩
          have : y = y' := Fin.ext (by omega)
          subst this
          exact h)
      refine ⟨st', q1, q2, fun P => ?_⟩
      rw [q3]
      refine or_congr_right ⟨?_, ?_⟩
      · rintro ⟨s, hs, y, rfl, h⟩
        exact ⟨y, (hclose y).1 hs, h⟩
      · rintro ⟨y, hy, h⟩
        exact ⟨_, (hclose y).2 hy, y, rfl, h⟩)
  refine ⟨st', bind_ok p1 (bind_ok hcB (bind_ok p3 (bind_ok g1 (bind_ok g3 r1)))), r2, fun P => ?_⟩
  rw [r3]
  refine or_congr_right ⟨?_, ?_⟩
  · rintro ⟨detB, hdB, y, k1, k2, k3⟩
    rw [X.memB] at hdB
    obtain ⟨hβ, _⟩ := describes_of_mem (c' := c) X.hb X.hn rfl X.hf rfl rfl hdB
    exact ⟨y, conf c detB, hβ.1, hβ.2, k2, k1, k3⟩
  · rintro ⟨y, β, b1, b2, b3, b4, b5⟩
    obtain ⟨m1, m2⟩ := mem_of_counts X.hb (β := β) ⟨b1, b2⟩
    refine ⟨_, (X.memB _).2 m1, y, b4, ?_, ?_⟩
    · rw [m2]; exact b3
    · rw [m2]; exact b5

theorem lookup_empty {α β : Type} [BEq α] [LawfulBEq α] (b : β) : ∀ (l : List α) (k : α), k ∈ l → (l.map (fun k => (k, b))).lookup k = some b
  | [], _, h => by cases h
  | a :: l, k, h => by
    rw [List.map_cons, List.lookup_cons]
    by_cases e : k = a
    · subst e; simp
    · have : (k == a) = false := by simpa using e
      rw [this]
      exact lookup_empty b l k ((List.mem_cons.1 h).resolve_left e)

theorem lookup_empty_eq {α β : Type} [BEq α] (b : β) : ∀ (l : List α) (k : α) (x : β), (l.map (fun k => (k, b))).lookup k = some x → x = b
  | [], _, _, h => by simp at h
  | a :: l, k, x, h => by
    rw [List.map_cons, List.lookup_cons] at h
    split at h
    · exact (Option.some.inj h).symm
    · exact lookup_empty_eq b l k x h

/-- The dynamic part for one determinant of the block. -/
theorem blockDynamic_spec (X : BlockCtx E c su dets pos) {L : Nat} {nbr : Bool} (hq : nbr = false → SquareConf c L) (thr : K)
    {gs : List K} (hgs : gs.length = dets.length) (en : K) {detA : List Nat} (hdA : detA ∈ dets) {h : SpMat K} (hg : GoodMat dets.length h) :
    ∃ h', blockDynamic E I c su nbr thr gs en detA h = .ok h' ∧ GoodMat dets.length h' ∧
      entries dets.length h' = entries dets.length h + ∑ s ∈ {Occ.down, Occ.up}, ∑ P,
        if Borrowed (fpos (c.nsites + c.nsites) pos) c.nholes c.nbeta s (conf c detA) P then pertSum I pos L (sides nbr) gs en thr s P else 0 := by
  classical
  obtain ⟨hα, hA⟩ := describes_of_mem (c' := c) X.hb X.hn rfl X.hf rfl rfl hdA
  set α := conf c detA with hαe
  set F := fpos (c.nsites + c.nsites) pos with hF
  set G := addedFor (c := c) I dets pos L (sides nbr) gs en thr with hG
  have hinit : LoopInv dets c G h ((memoryKeys c.counts).map (fun k => (k, [])), h) := by
    refine ⟨hg, fun k hk => ⟨[], lookup_empty [] _ k hk⟩, ?_⟩
    have : ∀ P : Conf2 c.nsites, ¬ InMemory ((memoryKeys c.counts).map (fun k => (k, ([] : List (Nat × Nat))))) P := by
      rintro P ⟨_, _, _, _, l, _, _, e, hm⟩
      rw [lookup_empty_eq _ _ _ _ e] at hm
      cases hm
    simp only [this, if_false, sum_const_zero, add_zero]
  obtain ⟨st, r1, r2, r3⟩ := foldlM_acc (LoopInv dets c G h) (fun st P => InMemory st.1 P)
    (f := fun (st : Memory × SpMat K) site => do
      let spin ← getSpinSite c detA site
      (([.down, .hole, .up] : List Occ).filter (fun o => o ≠ spin)).foldlM (blockExchange E I c su nbr thr gs en detA site spin) st)
    (P := fun site P => ∃ x : Fin c.nsites, site = x.val ∧ ∃ new, new ≠ α x ∧ ReachedAt F c.nholes c.nbeta α x new P) su.fA _ hinit (by
      intro site hs st hst
      obtain ⟨x, rfl⟩ : ∃ x : Fin c.nsites, site = x.val := ⟨⟨site, X.ltA _ hs⟩, rfl⟩
      obtain ⟨st', q1, q2, q3⟩ := foldlM_acc (LoopInv dets c G h) (fun st P => InMemory st.1 P)
        (f := blockExchange E I c su nbr thr gs en detA x.val (α x))
        (P := fun new P => ReachedAt F c.nholes c.nbeta α x new P) (([.down, .hole, .up] : List Occ).filter (fun o => o ≠ α x)) st hst (by
          intro new hnew st hst
          have hne : new ≠ α x := by simpa using (List.mem_filter.1 hnew).2
          exact blockExchange_spec X hq thr hgs en hdA hs hne hst)
      refine ⟨st', ?_, q2, fun P => ?_⟩
      · have hsA : getSpinSite c detA x.val = .ok (α x) := by
          rw [getSpinSite_eq (hA.valid.mem.2 x.2), hA.occ x.2]
        exact bind_ok hsA q1
      · rw [q3]
        refine or_congr_right ⟨?_, ?_⟩
        · rintro ⟨new, hnew, h⟩
          exact ⟨x, rfl, new, by simpa using (List.mem_filter.1 hnew).2, h⟩
        · rintro ⟨x', e, new, hne, h⟩
          obtain rfl := Fin.ext e
          exact ⟨new, List.mem_filter.2 ⟨by cases new <;> simp, by simpa using hne⟩, h⟩)
  refine ⟨st.2, bind_ok r1 rfl, r2.good, ?_⟩
  rw [r2.val]
  congr 1
  rw [sum_pair (by decide), ← sum_add_distrib]
  refine sum_congr rfl fun P _ => ?_
  have hget : c.counts.nholes = c.nholes ∧ c.counts.nbeta = c.nbeta ∧ c.counts.nalpha = (c.nsites : Int) - c.nholes - c.nbeta := ⟨rfl, rfl, rfl⟩
  have hmem : InMemory st.1 P ↔ ∃ x new, new ≠ α x ∧ ReachedAt F c.nholes c.nbeta α x new P := by
    rw [r3]
    constructor
    · rintro (⟨_, _, _, _, l, _, _, e, hm⟩ | ⟨_, _, x, _, new, h1, h2⟩)
      · rw [lookup_empty_eq _ _ _ _ e] at hm
        cases hm
      · exact ⟨x, new, h1, h2⟩
    · rintro ⟨x, new, h1, h2⟩
      refine Or.inr ⟨x.val, ?_, x, rfl, new, h1, h2⟩
      obtain ⟨y, _, _, _, _, hy, _⟩ := h2
      exact (X.reach x y hy).1
  have hval : ∀ x new, new ≠ α x → ReachedAt F c.nholes c.nbeta α x new P →
      (∀ o, (P.1.count o : Int) = c.counts.get o + (if o = new then 1 else 0) - (if o = α x then 1 else 0)) := by
    rintro x new hne ⟨y, β, _, _, _, _, rfl⟩ o
    rw [← perturbed_counts hget hα.1 hα.2 o]
    exact count_set α x o rfl
  have hbor : ∀ s, s ≠ .hole → (Borrowed F c.nholes c.nbeta s α P ↔ ∃ x, α x = .hole ∧ ReachedAt F c.nholes c.nbeta α x s P) := by
    intro s hs
    constructor
    · rintro ⟨x, y, β, b1, b2, b3, b4, b5, b6⟩
      exact ⟨x, b3, y, β, b1, b2, b4, b5, by rw [b3]; exact b6⟩
    · rintro ⟨x, b3, y, β, b1, b2, b4, b5, b6⟩
      exact ⟨x, y, β, b1, b2, b3, b4, b5, by rw [b3] at b6; exact b6⟩
  have hexcl : ¬ (Borrowed F c.nholes c.nbeta .down α P ∧ Borrowed F c.nholes c.nbeta .up α P) := by
    rintro ⟨h1, h2⟩
    obtain ⟨x, a1, a2⟩ := (hbor _ (by decide)).1 h1
    obtain ⟨x', b1, b2⟩ := (hbor _ (by decide)).1 h2
    have e1 := hval x _ (by rw [a1]; decide) a2 .down
    have e2 := hval x' _ (by rw [b1]; decide) b2 .down
    rw [a1] at e1
    rw [b1] at e2
    rw [e1] at e2
    simp at e2
  have hsome : ∀ s, s ≠ .hole → Borrowed F c.nholes c.nbeta s α P → InMemory st.1 P ∧ G P = pertSum I pos L (sides nbr) gs en thr s P := by
    intro s hs hB
    obtain ⟨x, a1, a2⟩ := (hbor s hs).1 hB
    have hne : s ≠ α x := by rw [a1]; exact hs
    refine ⟨hmem.2 ⟨x, s, hne, a2⟩, ?_⟩
    rw [hG, addedFor_eq I L (sides nbr) gs en thr hne (hval x s hne a2), if_pos a1]
  by_cases hd : Borrowed F c.nholes c.nbeta .down α P
  · have hu : ¬ Borrowed F c.nholes c.nbeta .up α P := fun h => hexcl ⟨hd, h⟩
    obtain ⟨k1, k2⟩ := hsome _ (by decide) hd
    rw [if_pos k1, if_pos hd, if_neg hu, add_zero, k2]
  · by_cases hu : Borrowed F c.nholes c.nbeta .up α P
    · obtain ⟨k1, k2⟩ := hsome _ (by decide) hu
      rw [if_pos k1, if_pos hu, if_neg hd, zero_add, k2]
    · rw [if_neg hd, if_neg hu, add_zero]
      split_ifs with hm
      · obtain ⟨x, new, hne, h⟩ := hmem.1 hm
        rw [hG, addedFor_eq I L (sides nbr) gs en thr hne (hval x new hne h)]
        split_ifs with ho
        · exfalso
          cases new
          · exact hne ho.symm
          · exact hd ((hbor _ (by decide)).2 ⟨x, ho, h⟩)
          · exact hu ((hbor _ (by decide)).2 ⟨x, ho, h⟩)
        · rfl
      · rfl

end

end TJ
