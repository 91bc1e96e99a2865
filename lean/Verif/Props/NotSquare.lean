/-
embedding_blocks with neighbours on the four sides of a block that is not square (C138).
-/
import Verif.Lemmas.NotSquare
import Verif.Lemmas.EmbedKeep
import Verif.Props.UnpolarisedField

namespace TJ

open Finset

theorem count_upper {n : Nat} (g : Fin n ≃ Fin n) {a b : Nat} (hb : b ≤ n) :
    (univ.filter (fun s : Fin n => a ≤ (g s : Nat) ∧ (g s : Nat) < b)).card = b - a := by
  have : (univ.filter (fun s : Fin n => a ≤ (g s : Nat) ∧ (g s : Nat) < b)).card = (Finset.Ico a b).card := by
    refine card_bij (fun s _ => (g s : Nat)) ?_ ?_ ?_
    · intro s hs
      exact mem_Ico.2 (mem_filter.1 hs).2
    · intro s _ s' _ e
      exact g.injective (Fin.ext e)
    · intro t ht
      obtain ⟨h1, h2⟩ := mem_Ico.1 ht
      refine ⟨g.symm ⟨t, by omega⟩, mem_filter.2 ⟨mem_univ _, ?_⟩, ?_⟩
      · simp [h1, h2]
      · simp
  rw [this, Nat.card_Ico]

/-- The lattice of a block is a rectangle of `w` columns and `h` rows. -/
structure BlockSize (c : Config) (w h : Nat) : Prop where
  columns : c.nbh * c.nblocs = w
  rows : c.nbv * c.nblocs = h
  sites : c.nsites = w * h
  wide : 1 ≤ w
  high : 1 ≤ h

/-- C138. On a block that is not square, with at least one hole or down spin, there is a determinant of the basis for which
the index of a rotated copy lies outside the basis. -/
theorem C138_index (c : Config) (w h : Nat) (hs : BlockSize c w h) (hne : w ≠ h) (hn : c.nholes + c.nbeta ≤ c.nsites)
    (hp : 1 ≤ c.nholes + c.nbeta) (dets : List (List Nat)) (hb : constructBasis c = .ok dets) :
    ∃ q < 4, ∃ det ∈ dets, dets.length ≤ rotatedIndex c q det := by
  obtain ⟨q, hq, g, hg⟩ := beyond_turn hs.wide hs.high hne
  have hsites := hs.sites
  have hq4 : q < 4 := by omega
  let g' : Fin c.nsites ≃ Fin c.nsites := (finCongr hsites).trans (g.trans (finCongr hsites.symm))
  have hg' : ∀ s : Fin c.nsites, ((g' s : Nat) : Int) + 1 ≤ (if q = 1 then rot1 w h s else rot3 w h s) := fun s => hg (finCongr hsites s)
  let σ : Conf c.nsites := fun s => if c.nsites - c.nholes ≤ (g' s : Nat) then .hole
    else if c.nsites - c.nholes - c.nbeta ≤ (g' s : Nat) then .down else .up
  have h1 : σ.count .hole = c.nholes := by
    have := count_upper g' (a := c.nsites - c.nholes) (le_refl c.nsites)
    rw [show c.nsites - (c.nsites - c.nholes) = c.nholes by omega] at this
    rw [← this]
    unfold Conf.count
    congr 1
    refine filter_congr fun s _ => ?_
    have := (g' s).2
    simp only [σ]
    split_ifs <;> simp <;> omega
  have h2 : σ.count .down = c.nbeta := by
    have := count_upper g' (a := c.nsites - c.nholes - c.nbeta) (b := c.nsites - c.nholes) (by omega)
    rw [show c.nsites - c.nholes - (c.nsites - c.nholes - c.nbeta) = c.nbeta by omega] at this
    rw [← this]
    unfold Conf.count
    congr 1
    refine filter_congr fun s _ => ?_
    have := (g' s).2
    simp only [σ]
    split_ifs <;> simp <;> omega
  obtain ⟨k, hk, hσ⟩ := exists_conf hb hn h1 h2
  have hcan := canonical_getElem hb k hk
  have hlen : dets[k].length = c.nsites := hcan.1.length
  refine ⟨q, hq4, dets[k], List.getElem_mem hk, ?_⟩
  rw [C02_dimension c dets hb, C02_dimension_value, if_pos hn]
  have hrot : rotateDeterminant q c dets[k] = reorderInt c (dets[k].map (fun s => if q = 1 then rot1 w h s else rot3 w h s)) := by
    unfold rotateDeterminant
    simp only [hs.columns, hs.rows]
    rcases hq with ⟨rfl, _⟩ | ⟨rfl, _⟩
    · rfl
    · rfl
  unfold rotatedIndex
  rw [hrot]
  refine index_beyond c (by rw [List.length_map, hlen]) hn hp ?_ ?_
  · intro x hx
    rw [← List.map_take] at hx
    obtain ⟨s, s1, rfl⟩ := List.mem_map.1 hx
    have s2 : s < c.nsites := hcan.1.mem.1 (List.mem_of_mem_take s1)
    have s3 : σ ⟨s, s2⟩ = .hole := by
      rw [← hσ]
      show occ c.nholes c.nbeta dets[k] s = .hole
      unfold occ
      rw [if_pos s1]
    have s4 := hg' ⟨s, s2⟩
    simp only [σ] at s3
    split_ifs at s3 with s5
    refine le_trans ?_ s4
    omega
  · intro h0 x hx
    rw [← List.map_take] at hx
    obtain ⟨s, s1, rfl⟩ := List.mem_map.1 hx
    have s2 : s < c.nsites := hcan.1.mem.1 (List.mem_of_mem_take s1)
    have s3 : σ ⟨s, s2⟩ = .down := by
      rw [← hσ]
      show occ c.nholes c.nbeta dets[k] s = .down
      unfold occ
      rw [if_neg (by rw [h0]; simp), if_pos (by rw [h0, List.drop_zero]; exact s1)]
    have s4 := hg' ⟨s, s2⟩
    simp only [σ] at s3
    split_ifs at s3 with s5 s6
    refine le_trans ?_ s4
    omega

section
variable {K : Type} [Field K] [LinearOrder K] [IsStrictOrderedRing K]

theorem foldlM_stops {α β : Type} {f : β → α → Py β} {P : β → Prop} (hP : ∀ b a b', P b → f b a = .ok b' → P b') :
    ∀ (l : List α) (b b' : β), P b → (∃ a ∈ l, ∀ b b', P b → f b a ≠ .ok b') → l.foldlM f b ≠ .ok b'
  | [], _, _, _, ⟨a, ha, _⟩, _ => absurd ha (by simp)
  | x :: l, b, b', hb, ⟨a, ha, hf⟩, e => by
    rw [List.foldlM_cons] at e
    obtain ⟨b1, e1, e2⟩ := bind_eq_ok.1 e
    rcases List.mem_cons.1 ha with rfl | ha
    · exact hf b b1 hb e1
    · exact foldlM_stops hP l b1 b' (hP _ _ _ hb e1) ⟨a, ha, hf⟩ e2

theorem foldlM_either {α β : Type} {f : β → α → Py β} {P : β → Prop} {x : PyErr} :
    ∀ (l : List α) (b : β), P b → (∀ b, P b → ∀ a ∈ l, (∃ b', f b a = .ok b' ∧ P b') ∨ f b a = .error x) →
      (∃ b', l.foldlM f b = .ok b' ∧ P b') ∨ l.foldlM f b = .error x
  | [], b, hb, _ => Or.inl ⟨b, rfl, hb⟩
  | a :: l, b, hb, hf => by
    rw [List.foldlM_cons]
    rcases hf b hb a (by simp) with ⟨b1, e1, h1⟩ | e1
    · rw [e1]
      exact foldlM_either l b1 h1 (fun b hb a ha => hf b hb a (List.mem_cons_of_mem _ ha))
    · rw [e1]
      exact Or.inr rfl

/-- C138. With neighbours on the four sides of a block that is not square no dressed Hamiltonian is obtained, with or without
dynamical effects. -/
theorem C138_no_dressing (E : Env) (I : Interactions K) (c : Config) (w h : Nat) (hs : BlockSize c w h) (hne : w ≠ h)
    (hn : c.nholes + c.nbeta ≤ c.nsites) (hp : 1 ≤ c.nholes + c.nbeta) (dets : List (List Nat)) (hb : constructBasis c = .ok dets)
    (su : BlockSetup) (o : BlockOptions K) (ho : o.neighbor = false) (ham : SpMat K) (hd : ham.dim = dets.length) (gs : List K) (en : K)
    (M : SpMat K) : blockDressed E I c su o dets ham gs en ≠ .ok M := by
  obtain ⟨q, hq, det, h1, h2⟩ := C138_index c w h hs hne hn hp dets hb
  intro e
  unfold blockDressed at e
  obtain ⟨pB, _, e⟩ := bind_eq_ok.1 e
  obtain ⟨k, hk, rfl⟩ := List.getElem_of_mem h1
  refine foldlM_stops (P := fun M => M.dim = dets.length) ?_ _ _ _ hd ⟨(dets[k], k), ?_, ?_⟩ e
  · intro M p M' hM e
    obtain ⟨x, _, e⟩ := bind_eq_ok.1 e
    obtain ⟨M1, e1, e2⟩ := bind_eq_ok.1 e
    have k1 : M1.dim = dets.length := addStaticDressing_keeps (P := fun M => M.dim = dets.length)
      (fun hM e => (addHamCoo_entry e).1.trans hM) hM e1
    split_ifs at e2 with hdyn
    · exact blockDynamic_keeps (P := fun M => M.dim = dets.length) (fun hM e => (addHamCoo_entry e).1.trans hM) k1 e2
    · obtain rfl := Except.ok.inj e2
      exact k1
  · rw [List.mem_zipIdx_iff_getElem?]
    simp [hk]
  · intro M M' hM e
    obtain ⟨x, _, e⟩ := bind_eq_ok.1 e
    obtain ⟨M1, e1, _⟩ := bind_eq_ok.1 e
    unfold addStaticDressing at e1
    rw [if_neg (by simp [ho])] at e1
    refine foldlM_stops (P := fun M => M.dim = dets.length) (fun b a b' hb e => (addHamCoo_entry e).1.trans hb) _ _ _ hM
      ⟨q, List.mem_range.2 hq, fun b b' hb e => ?_⟩ e1
    have := (addHamCoo_entry e).2.2.1
    rw [hb] at this
    exact absurd this (not_lt.2 h2)

/-- C138. `embedding_blocks` with neighbours on the four sides never returns on a block that is not square (and has a hole or a down
spin), whatever the options, the diagonalisation and the number of iterations. -/
theorem C138_never_returns (E : Env) (sqrt : K → K) (solve : Solver K) (fuel : Nat) (I : Interactions K) (c : Config) (w h : Nat)
    (hs : BlockSize c w h) (hne : w ≠ h) (hn : c.nholes + c.nbeta ≤ c.nsites) (hp : 1 ≤ c.nholes + c.nbeta) (dets : List (List Nat))
    (hb : constructBasis c = .ok dets) (o : BlockOptions K) (ho : o.neighbor = false) (ham : SpMat K) (hd : ham.dim = dets.length)
    (eigvals : List K) (eigvects : List (List K)) (tol : K) (maxIter : Nat) (r : BlockResult K ⊕ List (BlockStep K)) :
    embeddingBlocks E sqrt solve fuel I c o dets ham eigvals eigvects tol maxIter ≠ .ok r := by
  intro e
  unfold embeddingBlocks at e
  obtain ⟨gs, _, e⟩ := bind_eq_ok.1 e
  obtain ⟨e0, _, e⟩ := bind_eq_ok.1 e
  obtain ⟨su, _, e⟩ := bind_eq_ok.1 e
  cases maxIter with
  | zero => cases e
  | succ n =>
    unfold blockLoop at e
    obtain ⟨M, e1, _⟩ := bind_eq_ok.1 e
    exact C138_no_dressing E I c w h hs hne hn hp dets hb su o ho ham hd gs e0 M e1

/-- C138. Without dynamical effects the exception is the `ValueError` of the sparse matrix, in the first iteration; a dressed
Hamiltonian is obtained exactly if the block is square or has neither holes nor down spins. -/
theorem C138_static_iff (E : Env) (I : Interactions K) (c : Config) (hc : RectConf c c.nbh c.nbv c.nblocs)
    (hn : c.nholes + c.nbeta ≤ c.nsites) (dets : List (List Nat)) (hb : constructBasis c = .ok dets)
    (o : BlockOptions K) (hdyn : o.dynamic = false) (ho : o.neighbor = false)
    (su : BlockSetup) (hsu : blockSetup E.toSetSem c dets o.reverse = .ok su)
    (hg : GeomLattice E su.cE (twoPos (c.nbh * c.nblocs) (c.nbv * c.nblocs)))
    (ham : SpMat K) (hd : ham.dim = dets.length) (hin : ∀ t ∈ ham.coo, t.2.1 < ham.dim ∧ t.2.2 < ham.dim) (gs : List K)
    (hgs : gs.length = dets.length) (en : K) :
    ((∃ h, blockDressed E I c su o dets ham gs en = .ok h) ↔ c.nbh * c.nblocs = c.nbv * c.nblocs ∨ c.nholes + c.nbeta = 0) ∧
      (¬(c.nbh * c.nblocs = c.nbv * c.nblocs ∨ c.nholes + c.nbeta = 0) →
        blockDressed E I c su o dets ham gs en = .error .valueError) := by
  have g := blockSetup_geom E.toSetSem hc hsu
  have hs : BlockSize c (c.nbh * c.nblocs) (c.nbv * c.nblocs) :=
    ⟨rfl, rfl, g.rows, Nat.mul_pos hc.hh hc.hb, Nat.mul_pos hc.hv hc.hb⟩
  obtain ⟨pB, b1, b2⟩ := neighbourLaw_ok hb hn gs hgs o.reverse
  let P : SpMat K → Prop := fun M => M.dim = dets.length ∧ ∀ t ∈ M.coo, t.2.1 < M.dim ∧ t.2.2 < M.dim
  have hadd : ∀ (M : SpMat K) (x : K) (r : Nat), P M → (∃ M', addHamCoo M x r r = .ok M' ∧ P M') ∨ addHamCoo M x r r = .error .valueError := by
    rintro M x r ⟨h1, h2⟩
    by_cases hr : r < dets.length
    · refine Or.inl ⟨_, addHamCoo_ok h2 x (by omega) (by omega), h1, ?_⟩
      intro t ht
      rcases List.mem_append.1 ht with h | h
      · exact h2 t h
      · rw [List.mem_singleton.1 h]
        exact ⟨by show r < M.dim; omega, by show r < M.dim; omega⟩
    · right
      unfold addHamCoo cooMatrix
      rw [if_neg]
      rw [List.all_eq_true]
      intro h
      have := h (x, r, r) (by simp)
      simp at this
      omega
  have hall : (∃ h, blockDressed E I c su o dets ham gs en = .ok h) ∨ blockDressed E I c su o dets ham gs en = .error .valueError := by
    have key := foldlM_either (P := P) (x := .valueError) (f := fun (h : SpMat K) (p : List Nat × Nat) => do
        let intr ← blockIntr E I c su dets pB p.2
        let h ← addStaticDressing c o.neighbor p.1 p.2 intr h
        if o.dynamic then blockDynamic E I c su o.neighbor o.threshold gs en p.1 h else return h) dets.zipIdx ham ⟨hd, hin⟩ (by
      intro M hM p hp
      have hp' := List.mem_zipIdx hp
      have hlt : p.2 < dets.length := by omega
      have hi := blockIntr_eq E I g hg hb hn b2 hlt
      rw [hi]
      simp only [hdyn, Bool.false_eq_true, if_false]
      have := foldlM_either (P := P) (x := .valueError)
        (f := fun (h : SpMat K) rot => addHamCoo h (borderEnergy I c.nsites c.nsites
          (fun a r => Near (twoPos (c.nbh * c.nblocs) (c.nbv * c.nblocs) a) (twoPos (c.nbh * c.nblocs) (c.nbv * c.nblocs) (c.nsites + r)))
          (fun a r => Diagonal (twoPos (c.nbh * c.nblocs) (c.nbv * c.nblocs) a) (twoPos (c.nbh * c.nblocs) (c.nbv * c.nblocs) (c.nsites + r)))
          (occ c.nholes c.nbeta dets[p.2]) (neighbourLaw c dets o.reverse gs)) (rotatedIndex c rot p.1) (rotatedIndex c rot p.1))
        (List.range 4) M hM (fun M hM q _ => hadd M _ _ hM)
      rcases this with ⟨M', m1, m2⟩ | m1
      · refine Or.inl ⟨M', bind_ok rfl (bind_ok ?_ rfl), m2⟩
        unfold addStaticDressing
        rw [if_neg (by simp [ho])]
        exact m1
      · right
        show (addStaticDressing c o.neighbor p.1 p.2 _ M >>= fun h => pure h) = _
        unfold addStaticDressing
        rw [if_neg (by simp [ho]), m1]
        rfl)
    unfold blockDressed
    rw [b1]
    rcases key with ⟨M, m1, _⟩ | m1
    · exact Or.inl ⟨M, m1⟩
    · exact Or.inr m1
  have hiff : (∃ h, blockDressed E I c su o dets ham gs en = .ok h) ↔ c.nbh * c.nblocs = c.nbv * c.nblocs ∨ c.nholes + c.nbeta = 0 := by
    constructor
    · rintro ⟨M, e⟩
      by_contra hno
      push Not at hno
      exact C138_no_dressing E I c _ _ hs hno.1 hn (by omega) dets hb su o ho ham hd gs en M e
    · rintro (hsq | h0)
      · exact blockDressed_total E I g hg hb hn o hdyn (fun _ => hsq) ham hd hin gs hgs en
      · rcases hall with h | h
        · exact h
        exfalso
        have h1 : c.nholes = 0 := by omega
        have h2 : c.nbeta = 0 := by omega
        have hone : dets.length = 1 := by
          rw [C02_dimension c dets hb, C02_dimension_value, if_pos hn, h1, h2]
          simp
        have hidx : ∀ q det, rotatedIndex c q det = 0 := by
          intro q det
          unfold rotatedIndex getIndexInt
          simp [h1, h2, getDistanceHashInt]
        obtain ⟨M, m1, _⟩ := foldlM_keeps (P := P) (f := fun (h : SpMat K) (p : List Nat × Nat) => do
            let intr ← blockIntr E I c su dets pB p.2
            let h ← addStaticDressing c o.neighbor p.1 p.2 intr h
            if o.dynamic then blockDynamic E I c su o.neighbor o.threshold gs en p.1 h else return h) dets.zipIdx ham ⟨hd, hin⟩ (by
          intro M hM p hp
          have hp' := List.mem_zipIdx hp
          have hlt : p.2 < dets.length := by omega
          have hi := blockIntr_eq E I g hg hb hn b2 hlt
          rw [hi]
          simp only [hdyn, Bool.false_eq_true, if_false]
          obtain ⟨M', m1, m2⟩ := foldlM_keeps (P := P) (f := fun (h : SpMat K) rot => addHamCoo h (borderEnergy I c.nsites c.nsites
              (fun a r => Near (twoPos (c.nbh * c.nblocs) (c.nbv * c.nblocs) a) (twoPos (c.nbh * c.nblocs) (c.nbv * c.nblocs) (c.nsites + r)))
              (fun a r => Diagonal (twoPos (c.nbh * c.nblocs) (c.nbv * c.nblocs) a) (twoPos (c.nbh * c.nblocs) (c.nbv * c.nblocs) (c.nsites + r)))
              (occ c.nholes c.nbeta dets[p.2]) (neighbourLaw c dets o.reverse gs)) (rotatedIndex c rot p.1) (rotatedIndex c rot p.1))
            (List.range 4) M hM (by
              intro M hM q _
              rcases hadd M (borderEnergy I c.nsites c.nsites
                (fun a r => Near (twoPos (c.nbh * c.nblocs) (c.nbv * c.nblocs) a) (twoPos (c.nbh * c.nblocs) (c.nbv * c.nblocs) (c.nsites + r)))
                (fun a r => Diagonal (twoPos (c.nbh * c.nblocs) (c.nbv * c.nblocs) a) (twoPos (c.nbh * c.nblocs) (c.nbv * c.nblocs) (c.nsites + r)))
                (occ c.nholes c.nbeta dets[p.2]) (neighbourLaw c dets o.reverse gs)) (rotatedIndex c q p.1) hM with h | h
              · exact h
              · rw [hidx] at h
                have := addHamCoo_ok hM.2 (borderEnergy I c.nsites c.nsites
                  (fun a r => Near (twoPos (c.nbh * c.nblocs) (c.nbv * c.nblocs) a) (twoPos (c.nbh * c.nblocs) (c.nbv * c.nblocs) (c.nsites + r)))
                  (fun a r => Diagonal (twoPos (c.nbh * c.nblocs) (c.nbv * c.nblocs) a) (twoPos (c.nbh * c.nblocs) (c.nbv * c.nblocs) (c.nsites + r)))
                  (occ c.nholes c.nbeta dets[p.2]) (neighbourLaw c dets o.reverse gs)) (r := 0) (c := 0) (by rw [hM.1]; omega) (by rw [hM.1]; omega)
                rw [this] at h
                cases h)
          refine ⟨M', bind_ok rfl (bind_ok ?_ rfl), m2⟩
          unfold addStaticDressing
          rw [if_neg (by simp [ho])]
          exact m1)
        unfold blockDressed at h
        rw [b1] at h
        have h' := m1.symm.trans h
        cases h'
  refine ⟨hiff, fun hno => ?_⟩
  rcases hall with h | h
  · exact absurd (hiff.1 h) hno
  · exact h

end

/-- C138. From a file with the results of the isolated block (or, with `neel`, of the Néel embedding), `embedding_blocks` with neighbours on the four sides
of a block that is not square ends with an exception and changes no file. -/
theorem C138_files (E : Env) (sqrt : ℝ → ℝ) (srt : List (Nat × ℝ) → List (Nat × ℝ)) (solver : List ℝ → Solver ℝ) (fuel : Nat) (fs : FileSys ℝ) (D : Data ℝ)
    (hc : RectConf D.config D.config.nbh D.config.nbv D.config.nblocs) (hf : D.config.Full) (hn : D.config.nholes + D.config.nbeta ≤ D.config.nsites)
    (hp : 1 ≤ D.config.nholes + D.config.nbeta) (hne : D.config.nbh ≠ D.config.nbv) (neel : Bool) (o : BlockOptions ℝ) (ho : o.neighbor = false)
    (dets : List (List Nat)) (hb : constructBasis D.config = .ok dets)
    (Ld : Loaded ℝ) (hload : fs.load (blocksStart neel D.config.nsites D.config.nalpha D.config.nbeta D.bools) = .ok Ld) (e0 : ℝ) (gs : List ℝ)
    (hst : StartFile D dets Ld e0 gs) (tol : ℝ) (maxIter : Nat) :
    ∃ e, blocksOnDisk E sqrt srt solver fuel fs D neel o tol maxIter = (fs, .error e) := by
  obtain ⟨_, _, hfirst, _, hdimM, _, _, _⟩ := hst.facts hc hf hn hb
  have hs : BlockSize D.config (D.config.nbh * D.config.nblocs) (D.config.nbv * D.config.nblocs) :=
    ⟨rfl, rfl, hc.spec.1, Nat.mul_pos hc.hh hc.hb, Nat.mul_pos hc.hv hc.hb⟩
  have hwh : D.config.nbh * D.config.nblocs ≠ D.config.nbv * D.config.nblocs := fun h => hne (Nat.eq_of_mul_eq_mul_right hc.hb h)
  unfold blocksOnDisk
  rw [hload]
  simp only [hfirst, hst.determinants]
  cases h : embeddingBlocks E sqrt (solver gs) fuel D.interactions D.config o dets (Ld.ham.toCoo Ld.hamDim) Ld.eigenstates.eigvals [gs] tol maxIter with
  | ok r => exact absurd h (C138_never_returns E sqrt _ fuel _ _ _ _ hs hwh hn hp dets hb o ho _ hdimM _ _ tol maxIter r)
  | error e => exact ⟨.py e, by simp only [bind, Except.bind, h]⟩

/-- Two blocks of `w` columns and `h` rows side by side, with the right relabelling to the rows of the whole lattice. -/
def besideEnv (w h : Nat) : Env := { SetSem.sorted with transferIsOne := fun _ _ row s => row = relabelTwo w h s }

/-- Two equal blocks side by side are a lattice of the plane. -/
theorem beside_geom (c : Config) (hc : RectConf c c.nbh c.nbv c.nblocs) (dets : List (List Nat)) (reverse : Bool)
    (su : BlockSetup) (hsu : blockSetup SetSem.sorted c dets reverse = .ok su) :
    GeomLattice (besideEnv (c.nbh * c.nblocs) (c.nbv * c.nblocs)) su.cE (twoPos (c.nbh * c.nblocs) (c.nbv * c.nblocs)) := by
  have g := blockSetup_geom SetSem.sorted hc hsu
  have e2 : su.cE.nbv = c.nbv := g.nbv
  have e3 : su.cE.nblocs = c.nblocs := g.nblocs
  have h1 := hc.hv
  have h2 := hc.hb
  obtain ⟨P, p1, _, p3⟩ := C21_two_blocks su.cE c.nbh hc.hh (by omega) (by omega) g.nbh g.ltype (by rw [e2, e3]; exact g.emb)
  rw [e2, e3] at p1 p3
  have := relabelled_geom (besideEnv (c.nbh * c.nblocs) (c.nbv * c.nblocs)) su.cE P _ p1 (relabelTwo (c.nbh * c.nblocs) (c.nbv * c.nblocs))
    p1.lt p1.inj (by
      intro i _ j hj
      show decide (i = relabelTwo (c.nbh * c.nblocs) (c.nbv * c.nblocs) j) = true ↔ _
      rw [decide_eq_true_eq]) (fun i hi j hj => (p1.bond i hi j hj).symm)
  rw [e3] at this
  exact this.congr p3

/-- A 1×2 block with one hole and one up spin: all hypotheses hold and `embedding_blocks` raises `ValueError`. -/
example (o : BlockOptions ℚ) (hdyn : o.dynamic = false) (ho : o.neighbor = false) (su : BlockSetup)
    (hsu : blockSetup SetSem.sorted (rectConf 1 2 1 1 0) [[0, 1], [1, 0]] o.reverse = .ok su) (en : ℚ) :
    blockDressed (besideEnv 1 2) exI (rectConf 1 2 1 1 0) su o [[0, 1], [1, 0]] ⟨2, []⟩ [1, 0] en = .error .valueError :=
  (C138_static_iff (besideEnv 1 2) exI (rectConf 1 2 1 1 0) (rectConf_ok _ _ _ _ _ (by decide) (by decide) (by decide)) (by decide)
    [[0, 1], [1, 0]] rfl o hdyn ho su hsu (beside_geom _ (rectConf_ok _ _ _ _ _ (by decide) (by decide) (by decide)) _ _ su hsu) ⟨2, []⟩ rfl (by simp)
    [1, 0] rfl en).2 (by decide)
example : BlockSize (rectConf 1 2 1 1 0) 1 2 := ⟨rfl, rfl, rfl, by decide, by decide⟩
example : rotatedIndex (rectConf 1 2 1 1 0) 1 [1, 0] = 2 ∧ rotatedIndex (rectConf 2 1 1 1 0) 3 [1, 0] = 2 ∧
    rotatedIndex (rectConf 2 1 1 1 0) 1 [1, 0] = 0 := by decide +kernel

/-- A hole, a down and four up spins on a block of three columns and two rows. -/
noncomputable def wideCase : Data ℝ :=
  ⟨rectConf 3 2 1 1 1, ⟨-1, 2, 3, 4, 5, 6, 7, 8, 9, 10⟩, ⟨2, 1000, 1 / 1000, 0, none⟩, ⟨true, true, true, true, true, true⟩, false⟩

/-- From the saved state of lowest energy the four-sided embedding ends with an exception, with and without dynamical effects. -/
example (dyn rev : Bool) : ∃ fs : FileSys ℝ, ∃ e, blocksOnDisk (besideEnv 3 2) Real.sqrt insertionRows
    (fun g => davidsonSolver (fun _ => realLib) 1 (some g) 1000 (1 / 1000) 0) 1 fs wideCase false ⟨dyn, false, rev, 1 / 1000000⟩ (1 / 1000) 20 =
      (fs, .error e) := by
  have hf : wideCase.config.Full := by unfold Config.Full; decide +kernel
  have hc : RectConf wideCase.config 3 2 1 := rectConf_ok 3 2 1 1 1 (by omega) (by omega) (by omega)
  have hn : wideCase.config.nholes + wideCase.config.nbeta ≤ wideCase.config.nsites := by decide +kernel
  obtain ⟨dets, hb⟩ : ∃ dets, constructBasis wideCase.config = .ok dets := ⟨_, constructBasis_eq _⟩
  obtain ⟨d, Ld, e, gs, _, a2, a3, _⟩ := exists_saved (besideEnv 3 2) insertionRows insertionRows_sort emptyDir rfl wideCase (exactRuns 3).times hc hf hn
    (by decide +kernel) dets hb
  exact ⟨_, C138_files (besideEnv 3 2) Real.sqrt insertionRows _ 1 _ wideCase hc hf hn (by decide +kernel) (by decide +kernel) false ⟨dyn, false, rev, 1 / 1000000⟩
    rfl dets hb Ld a2 e gs a3 (1 / 1000) 20⟩

end TJ
