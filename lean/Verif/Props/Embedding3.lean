/-
Properties of the dynamic part of embedding_blocks: exchange of two particles across the frontier (C62).
-/
import Verif.Props.Embedding2
import Verif.Lemmas.EmbedExchange
import Verif.Props.Det

namespace TJ

/-! ### C62 -/

/-- Two pairs of configurations have together the same particles. -/
def SameTotal (A B A' B' : Counts) : Prop :=
  A'.nholes + B'.nholes = A.nholes + B.nholes ∧ A'.nbeta + B'.nbeta = A.nbeta + B.nbeta ∧ A'.nalpha + B'.nalpha = A.nalpha + B.nalpha

instance (A B A' B' : Counts) : Decidable (SameTotal A B A' B') := by unfold SameTotal; infer_instance

/-- C62. Exactly when are the particles of the block and of its neighbour conserved by an exchange: the neighbour has as many down
spins as the block, or no down spin is exchanged. -/
theorem C62_conserved_iff (n : Nat) (A B : Counts) (hA : A.nholes + A.nbeta + A.nalpha = n) (hB : B.nholes + B.nbeta + B.nalpha = n)
    (hh : B.nholes = A.nholes) (spin new : Occ) (hne : new ≠ spin) :
    SameTotal A B (countsA n A spin new) (countsB n B A spin new) ↔ B.nbeta = A.nbeta ∨ (spin ≠ .down ∧ new ≠ .down) := by
  obtain ⟨ah, ab, aa⟩ := A
  obtain ⟨bh, bb, ba⟩ := B
  simp only at hA hB hh
  unfold SameTotal countsA countsB
  cases spin <;> cases new <;> first | exact absurd rfl hne | (simp only [Counts.set, Counts.get, Counts.rebuild, ne_eq]; simp; omega)

/-- C62. With a neighbour whose number of down spins differs, an exchange that conserves the particles has no entry in the register
of perturbators (`KeyError`), and an exchange that has one does not conserve them. -/
theorem C62_reversed_key_error (n : Nat) (A B : Counts) (hA : A.nholes + A.nbeta + A.nalpha = n)
    (hB : B.nholes + B.nbeta + B.nalpha = n) (hh : B.nholes = A.nholes) (hd : B.nbeta ≠ A.nbeta) (spin new : Occ) (hne : new ≠ spin) :
    ((countsA n A spin new).id, (countsB n B A spin new).id) ∈ memoryKeys A ↔
      ¬ SameTotal A B (countsA n A spin new) (countsB n B A spin new) := by
  rw [C62_conserved_iff n A B hA hB hh spin new hne]
  obtain ⟨ah, ab, aa⟩ := A
  obtain ⟨bh, bb, ba⟩ := B
  simp only at hA hB hh hd
  unfold memoryKeys countsA countsB
  cases spin <;> cases new <;> first | exact absurd rfl hne | (simp [Counts.set, Counts.get, Counts.rebuild, Counts.id]; omega)

/-- C62. With as many down spins in the neighbour as in the block every exchange has an entry in the register. -/
theorem C62_key (n : Nat) (A B : Counts) (hh : B.nholes = A.nholes) (hd : B.nbeta = A.nbeta) (spin new : Occ) (hne : new ≠ spin) :
    ((countsA n A spin new).id, (countsB n B A spin new).id) ∈ memoryKeys A := by
  obtain ⟨ah, ab, aa⟩ := A
  obtain ⟨bh, bb, ba⟩ := B
  simp only at hh hd
  subst hh hd
  unfold memoryKeys countsA countsB
  cases spin <;> cases new <;> first | exact absurd rfl hne | (simp [Counts.set, Counts.get, Counts.rebuild, Counts.id]; try omega)

/-- One site of a determinant gets a new content, and the counts of the configuration follow. -/
theorem perturb_ok (S : SetSem) {c : Config} (hf : c.Full) (hn : c.nholes + c.nbeta ≤ c.nsites) {det : List Nat}
    (hv : ValidDet c.nsites det) {s : Nat} (hs : s < c.nsites) {old new : Occ} (ho : occ c.nholes c.nbeta det s = old) (hne : new ≠ old)
    (N : Counts) (hN : N = (⟨c.nholes + (if Occ.hole = new then 1 else 0) - (if Occ.hole = old then 1 else 0),
      c.nbeta + (if Occ.down = new then 1 else 0) - (if Occ.down = old then 1 else 0),
      c.nalpha + (if Occ.up = new then 1 else 0) - (if Occ.up = old then 1 else 0)⟩ : Counts)) (r : List Nat × List Nat) :
    ∃ c' pert, configOf c N r = .ok c' ∧ c'.nsites = c.nsites ∧ c'.counts = N ∧ c'.restr = r ∧
      exchange S c c' det s old new = .ok pert ∧ Canonical c'.nsites c'.nholes c'.nbeta pert ∧
      ∀ x < c.nsites, occ c'.nholes c'.nbeta pert x = if x = s then new else occ c.nholes c.nbeta det x := by
  have h1 := cnt_update hs ho hne .hole
  have h2 := cnt_update hs ho hne .down
  rw [cnt_occ_hole hv hn] at h1
  rw [cnt_occ_down hv hn] at h2
  have hNh : N.nholes = cnt c.nsites (Function.update (occ c.nholes c.nbeta det) s new) .hole := by rw [hN, h1]
  have hNb : N.nbeta = cnt c.nsites (Function.update (occ c.nholes c.nbeta det) s new) .down := by rw [hN, h2]
  have hpos : c.bond.rows ≠ 0 := by unfold Config.nsites at hs; omega
  have hc : configOf c N r = .ok ⟨c.bond, N.nholes.toNat, N.nbeta.toNat, r, .periodic, c.nbh, c.nbv, c.nblocs⟩ := by
    unfold configOf
    rw [if_neg (by omega), if_neg (by omega)]
    unfold Config.init
    rw [if_neg hpos]
  have hh' : cnt c.nsites (Function.update (occ c.nholes c.nbeta det) s new) .hole = N.nholes.toNat := by omega
  have hb' : cnt c.nsites (Function.update (occ c.nholes c.nbeta det) s new) .down = N.nbeta.toNat := by omega
  refine ⟨_, _, hc, rfl, ?_, rfl, exchange_eq S hf hv hs ho hne hh' hb', ?_, ?_⟩
  · show (⟨(N.nholes.toNat : Int), (N.nbeta.toNat : Int), (c.nsites : Int) - (N.nholes.toNat : Int) - (N.nbeta.toNat : Int)⟩ : Counts) = N
    have e1 : (N.nholes.toNat : Int) = N.nholes := by omega
    have e2 : (N.nbeta.toNat : Int) = N.nbeta := by omega
    have e3 : (c.nsites : Int) - N.nholes - N.nbeta = N.nalpha := by
      rw [hN]
      simp only [Config.nalpha]
      cases old <;> cases new <;> first | exact absurd rfl hne | (simp; omega)
    rw [e1, e2, e3]
  · exact detOf_canonical hh' hb'
  · intro x hx
    refine (occ_detOf hh' hb' hx).trans ?_
    simp only [Function.update_apply]

/-- C62. When the neighbour is not reversed (or the block has as many up as down spins), exchanging the contents `spin` of a site of
the block and `new` of a site of the neighbour gives two determinants of the perturbed configurations, with these two contents
exchanged, and the particles are conserved. Missing: the reversed neighbour when the numbers of up and down spins differ, for which
the claim is false (`C62_conserved_iff`, `C62_reversed_key_error`, `C62_reversed_fails`). -/
theorem C62_exchange_partial (S : SetSem) (c : Config) (hf : c.Full) (hn : c.nholes + c.nbeta ≤ c.nsites) (dets : List (List Nat))
    (hb : constructBasis c = .ok dets) (reverse : Bool) (hr : reverse = false ∨ c.nalpha = c.nbeta) (su : BlockSetup)
    (hsu : blockSetup S c dets reverse = .ok su) (detA detB : List Nat) (hA : detA ∈ dets) (hB : detB ∈ su.detsB) (siteA siteB : Nat)
    (spin new : Occ) (hsA : getSpinSite c detA siteA = .ok spin) (hsB : getSpinSite su.cB detB siteB = .ok new) (hne : new ≠ spin) :
    ∃ cPA cPB pertA pertB,
      configOf c (countsA c.nsites c.counts spin new) c.restr = .ok cPA ∧
      configOf su.cB (countsB su.cB.nsites su.cB.counts c.counts spin new) (su.cB.restr.2, su.cB.restr.1) = .ok cPB ∧
      exchange S c cPA detA siteA spin new = .ok pertA ∧ exchange S su.cB cPB detB siteB new spin = .ok pertB ∧
      SameTotal c.counts su.cB.counts cPA.counts cPB.counts ∧
      Canonical c.nsites cPA.nholes cPA.nbeta pertA ∧ Canonical c.nsites cPB.nholes cPB.nbeta pertB ∧
      (∀ x < c.nsites, occ cPA.nholes cPA.nbeta pertA x = if x = siteA then new else occ c.nholes c.nbeta detA x) ∧
      (∀ x < c.nsites, occ cPB.nholes cPB.nbeta pertB x = if x = siteB then spin else occ su.cB.nholes su.cB.nbeta detB x) := by
  have hbv : ∀ d ∈ dets, ValidDet c.nsites d := by
    rw [constructBasis_eq] at hb
    obtain rfl := Except.ok.inj hb
    exact fun d hd => (canonical_of_mem_basisList hd).1
  obtain ⟨hcB, hdB⟩ : su.cB = (if reverse then c.flip else c) ∧ ValidDet c.nsites detB := by
    unfold blockSetup at hsu
    cases reverse with
    | false =>
      simp only [Bool.false_eq_true, if_false] at hsu ⊢
      obtain ⟨nb, e0, hsu⟩ := bind_eq_ok.1 hsu
      obtain rfl := Except.ok.inj e0
      obtain ⟨emb, _, hsu⟩ := bind_eq_ok.1 hsu
      obtain ⟨fr, _, hsu⟩ := bind_eq_ok.1 hsu
      obtain ⟨cE, _, hsu⟩ := bind_eq_ok.1 hsu
      obtain ⟨cF, _, hsu⟩ := bind_eq_ok.1 hsu
      obtain rfl := Except.ok.inj hsu
      exact ⟨rfl, (hbv _ hB)⟩
    | true =>
      simp only [if_true] at hsu ⊢
      obtain ⟨nb, e0, hsu⟩ := bind_eq_ok.1 hsu
      obtain ⟨emb, _, hsu⟩ := bind_eq_ok.1 hsu
      obtain ⟨fr, _, hsu⟩ := bind_eq_ok.1 hsu
      obtain ⟨cE, _, hsu⟩ := bind_eq_ok.1 hsu
      obtain ⟨cF, _, hsu⟩ := bind_eq_ok.1 hsu
      obtain rfl := Except.ok.inj hsu
      unfold reverseSpinsBasis at e0
      obtain ⟨d0, k0, e0⟩ := bind_eq_ok.1 e0
      have hd0 : d0 ∈ dets := List.mem_of_getElem? (pyGet_inv k0)
      rw [reverseSpins_eq S hf hn (hbv _ hd0)] at e0
      obtain ⟨r0, k1, e0⟩ := bind_eq_ok.1 e0
      obtain rfl := Except.ok.inj k1
      obtain ⟨ds, k2, e0⟩ := bind_eq_ok.1 e0
      obtain rfl := Except.ok.inj e0
      rw [mapM_ok (g := fun d => detOf c.nsites (fun s => (occC c d s).rev))
        (fun d hd => by rw [reverseSpins_eq S hf hn (hbv _ hd)]; rfl)] at k2
      obtain rfl := Except.ok.inj k2
      refine ⟨rfl, ?_⟩
      obtain ⟨d, _, rfl⟩ := List.mem_map.1 hB
      exact detOf_valid _ _
  have hcount : su.cB.counts = c.counts ∧ su.cB.nsites = c.nsites ∧ su.cB.Full ∧ su.cB.nholes = c.nholes ∧ su.cB.nbeta = c.nbeta := by
    rw [hcB]
    split_ifs with h
    · subst h
      have hab := hr.resolve_left (by simp)
      have hnb : c.flip.nbeta = c.nbeta := by show c.nalpha.toNat = _; omega
      have hna : c.flip.nalpha = c.nalpha := by
        show (c.nsites : Int) - c.nholes - (c.nalpha.toNat : Nat) = _
        unfold Config.nalpha at *; omega
      refine ⟨?_, rfl, flip_full hf, rfl, hnb⟩
      unfold Config.counts
      rw [hnb, hna]; rfl
    · exact ⟨rfl, rfl, hf, rfl, rfl⟩
  obtain ⟨h1, h2, h3, h4, h5⟩ := hcount
  have hvA := hbv _ hA
  have key : ∀ {c' : Config} {d : List Nat} {s : Nat} {o : Occ}, ValidDet c'.nsites d → getSpinSite c' d s = .ok o →
      s < c'.nsites ∧ occ c'.nholes c'.nbeta d s = o := by
    intro c' d s o hv h
    by_cases hm : s ∈ d
    · rw [getSpinSite_eq hm] at h
      exact ⟨hv.mem.1 hm, Except.ok.inj h⟩
    · rw [((C09_errors S c' d).1 s).2 hm] at h; cases h
  obtain ⟨a1, a2⟩ := key hvA hsA
  obtain ⟨b1, b2⟩ := key (by rw [h2]; exact hdB) hsB
  have hnB : su.cB.nholes + su.cB.nbeta ≤ su.cB.nsites := by rw [h4, h5, h2]; exact hn
  have hkA : countsA c.nsites c.counts spin new = (⟨c.nholes + (if Occ.hole = new then 1 else 0) - (if Occ.hole = spin then 1 else 0),
      c.nbeta + (if Occ.down = new then 1 else 0) - (if Occ.down = spin then 1 else 0),
      c.nalpha + (if Occ.up = new then 1 else 0) - (if Occ.up = spin then 1 else 0)⟩ : Counts) := by
    unfold countsA Config.counts Config.nalpha
    cases spin <;> cases new <;> first | exact absurd rfl hne | (simp [Counts.set, Counts.get, Counts.rebuild]; try omega)
  have hkB : countsB su.cB.nsites su.cB.counts c.counts spin new =
      (⟨su.cB.nholes + (if Occ.hole = spin then 1 else 0) - (if Occ.hole = new then 1 else 0),
      su.cB.nbeta + (if Occ.down = spin then 1 else 0) - (if Occ.down = new then 1 else 0),
      su.cB.nalpha + (if Occ.up = spin then 1 else 0) - (if Occ.up = new then 1 else 0)⟩ : Counts) := by
    rw [← h1]
    unfold countsB Config.counts Config.nalpha
    cases spin <;> cases new <;> first | exact absurd rfl hne | (simp [Counts.set, Counts.get, Counts.rebuild]; try omega)
  obtain ⟨cPA, pertA, p1, p2, p3, _, p4, p5, p6⟩ := perturb_ok S hf hn hvA a1 a2 hne _ hkA c.restr
  obtain ⟨cPB, pertB, q1, q2, q3, _, q4, q5, q6⟩ := perturb_ok S h3 hnB (by rw [h2]; exact hdB) b1 b2 (Ne.symm hne) _ hkB
    (su.cB.restr.2, su.cB.restr.1)
  rw [p2] at p5
  rw [q2, h2] at q5
  rw [h2] at q6
  refine ⟨cPA, cPB, pertA, pertB, p1, q1, p4, q4, ?_, p5, q5, p6, q6⟩
  rw [p3, q3, hkA, hkB]
  unfold SameTotal Config.counts
  cases spin <;> cases new <;> first | exact absurd rfl hne | (simp; try omega)

/-- The first row of the dressing, with the dynamic part, of a 2×2 block next to one block. -/
def dynamicOf (c : Config) (reverse : Bool) (gs : List ℚ) : Py (List ℚ) := do
  let dets ← constructBasis c
  let su ← blockSetup SetSem.sorted c dets reverse
  let h ← blockDressed twoEnv exI c su ⟨true, true, reverse, 0⟩ dets ⟨dets.length, []⟩ gs 3
  return (List.range h.dim).map (fun i => h.entry 0 i)

/-- C62. With one down spin and two up spins in the block and a reversed neighbour the dynamic part raises `ValueError`. -/
theorem C62_reversed_fails :
    dynamicOf (rectConf 1 1 2 1 1) true [1, 0, 0, 0, 0, 0, 0, 0, 0, 0, 0, 0] = .error .valueError := by decide +kernel

/-- The first row of what the dynamic part adds for the first determinant. -/
def dynamicRow (c : Config) (reverse : Bool) (gs : List ℚ) : Py (List ℚ) := do
  let dets ← constructBasis c
  let su ← blockSetup SetSem.sorted c dets reverse
  let h ← blockDynamic twoEnv exI c su true 0 gs 3 (dets.getD 0 []) ⟨dets.length, []⟩
  return (List.range h.dim).map (fun i => h.entry 0 i)

/-- A reversed neighbour with as many up as down spins. -/
example : dynamicRow (rectConf 1 1 2 2 1) true [1, 1, 1, 1, 1, 0, 0, 0, 0, 0, 0, 0] =
    .ok [-5434/321, 0, -10, 0, 0, -528/107, 0, 0, 0, 0, 0, 0] := by decide +kernel

/-- The hypotheses of `C62_exchange_partial`: two holes, one down and one up spin, reversed neighbour. -/
example : (rectConf 1 1 2 2 1).nalpha = (rectConf 1 1 2 2 1).nbeta ∧
    ((do let dets ← constructBasis (rectConf 1 1 2 2 1)
         let su ← blockSetup SetSem.sorted (rectConf 1 1 2 2 1) dets true
         let sA ← getSpinSite (rectConf 1 1 2 2 1) [0, 1, 2, 3] 2
         let sB ← getSpinSite su.cB [0, 1, 2, 3] 0
         return (decide ([0, 1, 2, 3] ∈ dets), decide ([0, 1, 2, 3] ∈ su.detsB), sA, sB)) : Py (Bool × Bool × Occ × Occ)) =
      .ok (true, true, .down, .hole) := by decide +kernel

/-- The hypotheses of `C62_conserved_iff`: both cases occur. -/
example : SameTotal ⟨1, 1, 2⟩ ⟨1, 2, 1⟩ (countsA 4 ⟨1, 1, 2⟩ .hole .up) (countsB 4 ⟨1, 2, 1⟩ ⟨1, 1, 2⟩ .hole .up) ∧
    ¬ SameTotal ⟨1, 1, 2⟩ ⟨1, 2, 1⟩ (countsA 4 ⟨1, 1, 2⟩ .up .down) (countsB 4 ⟨1, 2, 1⟩ ⟨1, 1, 2⟩ .up .down) := by decide
example : ((countsA 4 ⟨1, 1, 2⟩ .hole .up).id, (countsB 4 ⟨1, 2, 1⟩ ⟨1, 1, 2⟩ .hole .up).id) ∉ memoryKeys ⟨1, 1, 2⟩ ∧
    ((countsA 4 ⟨1, 1, 2⟩ .hole .up).id, (countsB 4 ⟨1, 1, 2⟩ ⟨1, 1, 2⟩ .hole .up).id) ∈ memoryKeys ⟨1, 1, 2⟩ := by decide

end TJ
