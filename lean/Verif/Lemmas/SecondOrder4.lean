/-
Lemmas for the dynamic dressing of embedding_blocks: the setting, the register of the perturbators and the loops.
-/
import Verif.Lemmas.SecondOrder3

namespace TJ

open Finset

/-! ### The setting -/

theorem blockSetup_neighbour (S : SetSem) {c : Config} (hf : c.Full) (hn : c.nholes + c.nbeta ≤ c.nsites) {dets : List (List Nat)}
    (hb : constructBasis c = .ok dets) {reverse : Bool} {su : BlockSetup} (hsu : blockSetup S c dets reverse = .ok su) :
    su.cB = (if reverse then c.flip else c) ∧
      su.detsB = (if reverse then dets.map (fun d => detOf c.nsites (fun s => (occC c d s).rev)) else dets) := by
  have hbv : ∀ d ∈ dets, ValidDet c.nsites d := by
    rw [constructBasis_eq] at hb
    obtain rfl := Except.ok.inj hb
    exact fun d hd => (canonical_of_mem_basisList hd).1
  unfold blockSetup at hsu
  cases reverse with
  | false =>
    simp only [Bool.false_eq_true, if_false] at hsu ⊢
    obtain ⟨nb, e0, hsu⟩ := bind_eq_ok.1 hsu
    obtain rfl := Except.ok.inj e0
    obtain ⟨emb, _, hsu⟩ := bind_eq_ok.1 hsu
    obtain ⟨fr, _, hsu⟩ := bind_eq_ok.1 hsu
    obtain ⟨cE, _, hsu⟩ := bind_eq_ok.1 hsu
    obtain ⟨cF, _, hsu⟩ := bind_eq_ok.1 hsu
    obtain rfl := Except.ok.inj hsu
    exact ⟨rfl, rfl⟩
  | true =>
    simp only [if_true] at hsu ⊢
    obtain ⟨nb, e0, hsu⟩ := bind_eq_ok.1 hsu
    obtain ⟨emb, _, hsu⟩ := bind_eq_ok.1 hsu
    obtain ⟨fr, _, hsu⟩ := bind_eq_ok.1 hsu
    obtain ⟨cE, _, hsu⟩ := bind_eq_ok.1 hsu
    obtain ⟨cF, _, hsu⟩ := bind_eq_ok.1 hsu
    obtain rfl := Except.ok.inj hsu
    unfold reverseSpinsBasis at e0
    obtain ⟨d0, k0, e0⟩ := bind_eq_ok.1 e0
    have hd0 : d0 ∈ dets := List.mem_of_getElem? (pyGet_inv k0)
    rw [reverseSpins_eq S hf hn (hbv _ hd0)] at e0
    obtain ⟨r0, k1, e0⟩ := bind_eq_ok.1 e0
    obtain rfl := Except.ok.inj k1
    obtain ⟨ds, k2, e0⟩ := bind_eq_ok.1 e0
    obtain rfl := Except.ok.inj e0
    rw [mapM_ok (g := fun d => detOf c.nsites (fun s => (occC c d s).rev))
      (fun d hd => by rw [reverseSpins_eq S hf hn (hbv _ hd)]; rfl)] at k2
    obtain rfl := Except.ok.inj k2
    exact ⟨rfl, rfl⟩

theorem reversed_mem {c : Config} {dets : List (List Nat)} (hb : constructBasis c = .ok dets)
    (hab : c.nalpha = c.nbeta) (d : List Nat) :
    d ∈ dets.map (fun d => detOf c.nsites (fun s => (occC c d s).rev)) ↔ d ∈ dets := by
  have e := hb
  rw [constructBasis_eq] at e
  have hmem : ∀ d, d ∈ dets ↔ ∃ σ : Nat → Occ, cnt c.nsites σ .hole = c.nholes ∧ cnt c.nsites σ .down = c.nbeta ∧ detOf c.nsites σ = d := by
    obtain rfl := Except.ok.inj e
    intro d
    rw [mem_basisList]
    constructor
    · rintro ⟨σ, h1, h2, h3⟩; exact ⟨σ, h1, h2, h3.symm⟩
    · rintro ⟨σ, h1, h2, h3⟩; exact ⟨σ, h1, h2, h3.symm⟩
  have hup : ∀ σ : Nat → Occ, cnt c.nsites σ .hole = c.nholes → cnt c.nsites σ .down = c.nbeta → cnt c.nsites σ .up = c.nbeta := by
    intro σ h1 h2
    have := cnt_add c.nsites σ
    unfold Config.nalpha at hab
    omega
  have hrev : ∀ σ : Nat → Occ, cnt c.nsites σ .hole = c.nholes → cnt c.nsites σ .down = c.nbeta →
      cnt c.nsites (fun s => (σ s).rev) .hole = c.nholes ∧ cnt c.nsites (fun s => (σ s).rev) .down = c.nbeta := by
    intro σ h1 h2
    rw [cnt_rev, cnt_rev]
    exact ⟨h1, hup σ h1 h2⟩
  constructor
  · intro h
    obtain ⟨d0, h0, rfl⟩ := List.mem_map.1 h
    obtain ⟨σ, h1, h2, rfl⟩ := (hmem d0).1 h0
    refine (hmem _).2 ⟨fun s => (σ s).rev, (hrev σ h1 h2).1, (hrev σ h1 h2).2, ?_⟩
    apply detOf_congr
    intro s hs
    show _ = (occ c.nholes c.nbeta (detOf c.nsites σ) s).rev
    rw [occ_detOf h1 h2 hs]
  · intro h
    obtain ⟨σ, h1, h2, rfl⟩ := (hmem d).1 h
    obtain ⟨r1, r2⟩ := hrev σ h1 h2
    refine List.mem_map.2 ⟨detOf c.nsites (fun s => (σ s).rev), (hmem _).2 ⟨_, r1, r2, rfl⟩, ?_⟩
    apply detOf_congr
    intro s hs
    show (occ c.nholes c.nbeta (detOf c.nsites (fun s => (σ s).rev)) s).rev = _
    rw [occ_detOf r1 r2 hs]
    cases σ s <;> rfl

/-- The two blocks on the plane. -/
abbrev blockPos (c : Config) : Nat → Pt := twoPos (c.nbh * c.nblocs) (c.nbv * c.nblocs)

theorem blockCtx (E : Env) {c : Config} (hc : RectConf c c.nbh c.nbv c.nblocs) (hf : c.Full) (hn : c.nholes + c.nbeta ≤ c.nsites)
    {dets : List (List Nat)} (hb : constructBasis c = .ok dets) {reverse : Bool} (hr : reverse = false ∨ c.nalpha = c.nbeta)
    {su : BlockSetup} (hsu : blockSetup E.toSetSem c dets reverse = .ok su) (hg : GeomLattice E su.cE (blockPos c)) :
    BlockCtx E c su dets (blockPos c) := by
  have g := blockSetup_geom E.toSetSem hc hsu
  obtain ⟨hcB, hdB⟩ := blockSetup_neighbour E.toSetSem hf hn hb hsu
  have hcount : su.cB.nsites = c.nsites ∧ su.cB.Full ∧ su.cB.nholes = c.nholes ∧ su.cB.nbeta = c.nbeta := by
    rw [hcB]
    split_ifs with h
    · subst h
      have hab := hr.resolve_left (by simp)
      have hnb : c.flip.nbeta = c.nbeta := by show c.nalpha.toNat = _; omega
      exact ⟨rfl, flip_full hf, rfl, hnb⟩
    · exact ⟨rfl, hf, rfl, rfl⟩
  obtain ⟨h2, h3, h4, h5⟩ := hcount
  have hnE : su.cE.nsites = c.nsites + c.nsites := by rw [g.erows]; omega
  have hnF : su.cF.nsites = c.nsites + c.nsites := by rw [g.full]; exact hnE
  have gF : GeomLattice E su.cF (blockPos c) := by
    rw [g.full]; exact ⟨hg.inj, hg.bond, hg.linear, hg.tile⟩
  have hbond : ∀ {i j : Nat}, i < c.nsites + c.nsites → j < c.nsites + c.nsites →
      (su.cE.bond.e i j = 1 ↔ Near (blockPos c i) (blockPos c j)) := fun hi hj => hg.bond_iff (by omega) (by omega)
  refine ⟨hf, hn, hb, h2, h3, h4, h5, ?_, hnE, by rw [g.nholes, h4], by rw [g.nbeta, h5], hg, hnF, by rw [g.full]; show su.cE.nholes = _; rw [g.nholes, h4],
    by rw [g.full]; show su.cE.nbeta = _; rw [g.nbeta, h5], gF, ?_, g.restr, g.ltA, fun s hs => ⟨(g.geB s hs).1, by have := (g.geB s hs).2; omega⟩, ?_, ?_⟩
  · intro d
    rw [hdB]
    split_ifs with h
    · subst h
      exact reversed_mem hb (hr.resolve_left (by simp)) d
    · exact Iff.rfl
  · intro s hs
    rw [hnF] at hs
    rw [g.full]
    simp only [List.mem_range]
    omega
  · have hW : 0 < c.nbh * c.nblocs := Nat.mul_pos hc.hh hc.hb
    have hH : 0 < c.nbv * c.nblocs := Nat.mul_pos hc.hv hc.hb
    have hrow := g.rows
    have h0 : c.nbh * c.nblocs - 1 < c.nsites := by
      have := Nat.le_mul_of_pos_right (c.nbh * c.nblocs) hH
      omega
    have hnear : Near (blockPos c (c.nbh * c.nblocs - 1)) (blockPos c (c.nsites + 0)) := by
      unfold blockPos
      rw [g.rows, twoPos_left (by omega), twoPos_right]
      unfold Near gridPos
      rw [Nat.mod_eq_of_lt (by omega), Nat.div_eq_of_lt (by omega), Nat.zero_mod, Nat.zero_div]
      simp only
      omega
    have := g.memB _ h0 0 (by omega) ((hbond (by omega) (by omega)).2 hnear)
    exact List.ne_nil_of_mem this
  · intro x y hxy
    rcases hxy with h | ⟨m, h1, h2⟩
    · have hb1 := (hbond (i := x.val) (j := c.nsites + y.val) (by omega) (by omega)).2 h
      exact ⟨g.memA _ x.2 _ y.2 hb1, g.memB _ x.2 _ y.2 hb1⟩
    · have h1' : Near (blockPos c x.val) (blockPos c m.val) := h1
      have h2' : Near (blockPos c m.val) (blockPos c (c.nsites + y.val)) := h2
      have k1 := (hbond (i := x.val) (j := m.val) (by omega) m.2).2 h1'
      have k1' := (hbond (i := m.val) (j := x.val) m.2 (by omega)).2 ((near_comm _ _).1 h1')
      have k2 := (hbond (i := m.val) (j := c.nsites + y.val) m.2 (by omega)).2 h2'
      by_cases hm : m.val < c.nsites
      · exact ⟨g.wideA _ hm _ y.2 k2 _ x.2 k1', g.memB _ hm _ y.2 k2⟩
      · obtain ⟨w, hw⟩ := Nat.exists_eq_add_of_le (Nat.le_of_not_lt hm)
        have hw2 : w < c.nsites := by have := m.2; omega
        rw [hw] at k1 k2
        exact ⟨g.memA _ x.2 _ hw2 k1, g.wideB _ x.2 _ hw2 k1 _ y.2 k2⟩

/-! ### The register of the perturbators -/

theorem hash_congr {c1 c2 : Config} (h1 : c1.nsites = c2.nsites) (h2 : c1.nholes = c2.nholes) (h3 : c1.nbeta = c2.nbeta) (d : List Nat) :
    computeHashTable c1 d = computeHashTable c2 d := by
  unfold computeHashTable holesOf betaOf
  rw [h1, h2, h3]

theorem Describes.hash {n : Nat} {c1 c2 : Config} {d1 d2 : List Nat} {α : Conf n} (h1 : Describes c1 d1 α) (h2 : Describes c2 d2 α) :
    computeHashTable c1 d1 = computeHashTable c2 d2 ∧ c1.counts.id = c2.counts.id := by
  refine ⟨?_, ?_⟩
  · rw [h1.det, h2.det]
    exact hash_congr (by rw [h1.sites, h2.sites]) (by rw [h1.holes, h2.holes]) (by rw [h1.beta, h2.beta]) _
  · unfold Config.counts Counts.id
    rw [h1.holes, h2.holes, h1.beta, h2.beta]

theorem Describes.inj {n : Nat} {c1 c2 : Config} {d1 d2 : List Nat} {α β : Conf n} (h1 : Describes c1 d1 α) (h2 : Describes c2 d2 β)
    (hid : c1.counts.id = c2.counts.id) (hh : computeHashTable c1 d1 = computeHashTable c2 d2) : α = β := by
  have e1 : c1.nholes = c2.nholes := by
    have := congrArg Prod.fst hid
    exact_mod_cast (show (c1.nholes : Int) = c2.nholes from this)
  have e2 : c1.nbeta = c2.nbeta := by
    have := congrArg Prod.snd hid
    exact_mod_cast (show (c1.nbeta : Int) = c2.nbeta from this)
  have ha : cnt n α.ext .hole = c1.nholes ∧ cnt n α.ext .down = c1.nbeta := ⟨(α.cnt_ext _).trans h1.holes.symm, (α.cnt_ext _).trans h1.beta.symm⟩
  have hb : cnt n β.ext .hole = c1.nholes ∧ cnt n β.ext .down = c1.nbeta :=
    ⟨(β.cnt_ext _).trans (h2.holes.symm.trans e1.symm), (β.cnt_ext _).trans (h2.beta.symm.trans e2.symm)⟩
  have hs := h1.sites
  have c1c := detOf_canonical ha.1 ha.2
  have c2c := detOf_canonical hb.1 hb.2
  have hle : c1.nholes + c1.nbeta ≤ c1.nsites := by
    have := cnt_add n α.ext
    rw [hs, ← ha.1, ← ha.2]; omega
  rw [hash_congr (c2 := c1) (h2.sites.trans hs.symm) e1.symm e2.symm d2, h1.det, h2.det] at hh
  have r1 : reorder c1 (detOf n α.ext) = detOf n α.ext := reorder_of_canonical (by rw [hs]; exact c1c)
  have r2 : reorder c1 (detOf n β.ext) = detOf n β.ext := reorder_of_canonical (by rw [hs]; exact c2c)
  have hidx : getIndexInBasis c1 (detOf n α.ext) = getIndexInBasis c1 (detOf n β.ext) := by
    unfold getIndexInBasis
    rw [r1, r2, hh]
  have := (C06_index_of_any_det c1 hle _ _ (by rw [hs]; exact c1c.1) (by rw [hs]; exact c2c.1)).2.1 hidx
  funext s
  have h := this s.val (by rw [hs]; exact s.2)
  rw [occ_detOf ha.1 ha.2 s.2, occ_detOf hb.1 hb.2 s.2, α.ext_lt s.2, β.ext_lt s.2] at h
  exact h

/-- The perturbator is in the register. -/
def InMemory {n : Nat} (m : Memory) (P : Conf2 n) : Prop :=
  ∃ cA cB dA dB l, Describes cA dA P.1 ∧ Describes cB dB P.2 ∧ m.lookup (cA.counts.id, cB.counts.id) = some l ∧
    (computeHashTable cA dA, computeHashTable cB dB) ∈ l

theorem inMemory_iff {n : Nat} {m : Memory} {P : Conf2 n} {cA cB : Config} {dA dB : List Nat} (hA : Describes cA dA P.1)
    (hB : Describes cB dB P.2) {l : List (Nat × Nat)} (hl : m.lookup (cA.counts.id, cB.counts.id) = some l) :
    InMemory m P ↔ (computeHashTable cA dA, computeHashTable cB dB) ∈ l := by
  constructor
  · rintro ⟨cA', cB', dA', dB', l', a, b, e, h⟩
    obtain ⟨a1, a2⟩ := a.hash hA
    obtain ⟨b1, b2⟩ := b.hash hB
    rw [a2, b2, hl] at e
    obtain rfl := Option.some.inj e
    rw [a1, b1] at h
    exact h
  · intro h
    exact ⟨cA, cB, dA, dB, l, hA, hB, hl, h⟩

theorem lookup_update {α β : Type} [BEq α] [LawfulBEq α] [DecidableEq α] (key : α) (f : β → β) (key' : α) : ∀ m : List (α × β),
    (m.map (fun p => if p.1 = key then (p.1, f p.2) else p)).lookup key' =
      if key' = key then (m.lookup key').map f else m.lookup key'
  | [] => by simp
  | p :: m => by
    have ih := lookup_update key f key' m
    rw [List.map_cons]
    obtain ⟨a, b⟩ := p
    by_cases h1 : a = key
    · subst h1
      simp only [if_true, List.lookup_cons]
      by_cases h2 : key' = a
      · subst h2; simp
      · rw [ih]
        have : (key' == a) = false := by simpa using h2
        simp [this, h2]
    · simp only [if_neg h1, List.lookup_cons]
      by_cases h2 : key' = a
      · subst h2; simp [h1]
      · rw [ih]
        have : (key' == a) = false := by simpa using h2
        simp [this]

/-- Entering a perturbator in the register. -/
theorem inMemory_add {n : Nat} {m : Memory} {P : Conf2 n} {cA cB : Config} {dA dB : List Nat} (hA : Describes cA dA P.1)
    (hB : Describes cB dB P.2) {l : List (Nat × Nat)} (hl : m.lookup (cA.counts.id, cB.counts.id) = some l) (P' : Conf2 n) :
    InMemory (m.map (fun p => if p.1 = (cA.counts.id, cB.counts.id) then
      (p.1, p.2 ++ [(computeHashTable cA dA, computeHashTable cB dB)]) else p)) P' ↔ InMemory m P' ∨ P' = P := by
  have hlk := fun key' => lookup_update (cA.counts.id, cB.counts.id) (fun l : List (Nat × Nat) => l ++ [(computeHashTable cA dA, computeHashTable cB dB)]) key' m
  constructor
  · rintro ⟨cA', cB', dA', dB', l', a, b, e, h⟩
    rw [hlk] at e
    split_ifs at e with hk
    · rw [hk, hl] at e
      obtain rfl := Option.some.inj e
      rcases List.mem_append.1 h with h | h
      · exact Or.inl ⟨cA', cB', dA', dB', l, a, b, by rw [hk, hl], h⟩
      · right
        have h := List.mem_singleton.1 h
        exact Prod.ext (a.inj hA (congrArg Prod.fst hk) (congrArg Prod.fst h)) (b.inj hB (congrArg Prod.snd hk) (congrArg Prod.snd h))
    · exact Or.inl ⟨cA', cB', dA', dB', l', a, b, e, h⟩
  · rintro (⟨cA', cB', dA', dB', l', a, b, e, h⟩ | rfl)
    · by_cases hk : (cA'.counts.id, cB'.counts.id) = (cA.counts.id, cB.counts.id)
      · rw [hk, hl] at e
        obtain rfl := Option.some.inj e
        refine ⟨cA', cB', dA', dB', _, a, b, by rw [hlk, if_pos hk, hk, hl]; rfl, List.mem_append_left _ h⟩
      · exact ⟨cA', cB', dA', dB', l', a, b, by rw [hlk, if_neg hk]; exact e, h⟩
    · exact ⟨cA, cB, dA, dB, _, hA, hB, by rw [hlk, if_pos rfl, hl]; rfl, by simp⟩

/-! ### Perturbed configurations -/

theorem describes_of_mem {c c' : Config} {dets : List (List Nat)} (hb : constructBasis c = .ok dets) (hn : c.nholes + c.nbeta ≤ c.nsites)
    (h1 : c'.nsites = c.nsites) (h2 : c'.Full) (h3 : c'.nholes = c.nholes) (h4 : c'.nbeta = c.nbeta) {d : List Nat} (hd : d ∈ dets) :
    HasCounts c (conf c d) ∧ Describes c' d (conf c d) := by
  rw [constructBasis_eq] at hb
  obtain rfl := Except.ok.inj hb
  have hc := canonical_of_mem_basisList hd
  have e : ∀ s < c.nsites, (conf c d).ext s = occ c.nholes c.nbeta d s := fun s hs => (conf c d).ext_lt hs
  have k : ∀ o, (conf c d).count o = cnt c.nsites (occ c.nholes c.nbeta d) o := fun o => by
    rw [← Conf.cnt_ext]; exact cnt_congr e o
  have hk : HasCounts c (conf c d) := ⟨by rw [k]; exact cnt_occ_hole hc.1 hn, by rw [k]; exact cnt_occ_down hc.1 hn⟩
  refine ⟨hk, h1, h2, by rw [h3, hk.1], by rw [h4, hk.2], ?_⟩
  rw [detOf_congr e, detOf_occ hc]

theorem mem_of_counts {c : Config} {dets : List (List Nat)} (hb : constructBasis c = .ok dets) {β : Conf c.nsites} (hβ : HasCounts c β) :
    detOf c.nsites β.ext ∈ dets ∧ conf c (detOf c.nsites β.ext) = β := by
  rw [constructBasis_eq] at hb
  obtain rfl := Except.ok.inj hb
  have h1 : cnt c.nsites β.ext .hole = c.nholes := (β.cnt_ext _).trans hβ.1
  have h2 : cnt c.nsites β.ext .down = c.nbeta := (β.cnt_ext _).trans hβ.2
  refine ⟨mem_basisList.2 ⟨_, h1, h2, rfl⟩, ?_⟩
  funext s
  exact (occ_detOf h1 h2 s.2).trans (β.ext_lt s.2)

/-- One site gets a new content. -/
theorem perturb_describes (S : SetSem) {n : Nat} {c : Config} {d : List Nat} {α : Conf n} (h : Describes c d α) {x : Fin n} {old new : Occ}
    (ho : α x = old) (hne : new ≠ old) (N : Counts)
    (hN : N = (⟨c.nholes + (if Occ.hole = new then 1 else 0) - (if Occ.hole = old then 1 else 0),
      c.nbeta + (if Occ.down = new then 1 else 0) - (if Occ.down = old then 1 else 0),
      c.nalpha + (if Occ.up = new then 1 else 0) - (if Occ.up = old then 1 else 0)⟩ : Counts)) (r : List Nat × List Nat)
    (hr : ∀ s < n, s ∈ r.1 ∧ s ∈ r.2) :
    ∃ c' pert, configOf c N r = .ok c' ∧ c'.counts = N ∧ exchange S c c' d x old new = .ok pert ∧
      Describes c' pert (Function.update α x new) := by
  have t := count_three α
  have hocc := fun {s : Nat} (hs : s < n) => h.occ hs
  obtain ⟨c', pert, p1, p2, p3, p4, p5, p6, p7⟩ := perturb_ok S h.full (by rw [h.sites, h.holes, h.beta]; omega) h.valid (s := x.val)
    (by rw [h.sites]; exact x.2) (old := old) (by rw [← ho]; exact hocc x.2) hne N hN r
  rw [h.sites] at p2 p7
  have hα : ∀ s (hs : s < n), occ c'.nholes c'.nbeta pert s = (Conf.ext (Function.update α x new)) s := by
    intro s hs
    rw [p7 s hs, Conf.ext_lt _ hs]
    by_cases hx : s = x.val
    · subst hx; rw [if_pos rfl, Function.update_self]
    · rw [if_neg hx, Function.update_of_ne (fun e => hx (congrArg Fin.val e))]
      exact hocc hs
  have q1 := count_set α x .hole (old := old) (new := new) ho
  have q2 := count_set α x .down (old := old) (new := new) ho
  have hh : (c'.nholes : Int) = N.nholes := by rw [← p3]; rfl
  have hbt : (c'.nbeta : Int) = N.nbeta := by rw [← p3]; rfl
  rw [hN] at hh hbt
  rw [h.holes] at hh
  rw [h.beta] at hbt
  simp only at hh hbt
  refine ⟨c', pert, p1, p3, p5, p2, ?_, ?_, ?_, ?_⟩
  · unfold Config.Full
    rw [p2, p4]; exact hr
  · have := hh.trans q1.symm
    exact Int.ofNat.inj this
  · have := hbt.trans q2.symm
    exact Int.ofNat.inj this
  · rw [p2] at p6
    rw [← detOf_occ p6]
    exact detOf_congr hα

end TJ
