/-
C129: the pictures of the effect of the embedding, from the saved results to the bars (`plot_embedding_effect_on_determinants`).
-/
import Verif.Props.GeneratePlots
import Verif.Props.Files

namespace TJ

section
variable {K : Type} [Field K] [LinearOrder K] [IsStrictOrderedRing K] [FloorRing K]

/-- The picture of the effect of the embedding in a sector, with an ending. -/
def barsFile (n a b : Nat) (ext : String) : List Char :=
  latticeDir n ++ "/AmplitudesStaticEmbeddingNeel".toList ++ pictureName n a b ext.toList

/-- The `n` largest squared amplitudes of `v`, decreasing. -/
def Heights (v : List K) (n : Nat) (hs : List K) : Prop :=
  ∃ top, TopPositions (v.map (fun x => |x| ^ 2)) n top ∧ hs = top.map (fun i => |v.getD i 0| ^ 2)

/-- Options that ask for the picture of the effect of the embedding and for nothing else. -/
structure OnlyBars (o : InputPlotting) : Prop where
  flag : o.embedding.neel = true ∨ o.embedding.stat = true ∨ o.embedding.dyn = true
  spectrum : o.spectrum = false
  holes : o.holes = false
  electrons : o.electrons = false
  determinants : o.determinants = false

omit [FloorRing K] in
/-- What `plot_embedding_effect_on_determinants` computes. -/
theorem embeddingBars_ok {L M : Loaded K} {v w : List K} {vs ws : List (List K)} (hv : columns L.eigenstates.eigvects = v :: vs)
    (hw : columns M.eigenstates.eigvects = w :: ws) {n : Nat} (hn : 0 < n) (hnv : n ≤ v.length) (hnw : n ≤ w.length)
    (hd : M.determinants.length = w.length) (hshow : ∀ det ∈ M.determinants, ∃ text, displayRectangular (.config M.config.plain) det = .ok text) :
    ∃ hs hs', embeddingBars L M n = .ok (hs, hs') ∧ Heights v n hs ∧ Heights w n hs' := by
  obtain ⟨idx, top, a1, a2, a3, _, _, _⟩ := C75_highest_partial v n hnv
  obtain ⟨idx', top', b1, b2, b3, b4, b5, _⟩ := C75_highest_partial w n hnw
  refine ⟨_, _, ?_, ⟨top, a2, rfl⟩, ⟨top', b2, rfl⟩⟩
  have hlen : idx'.length = n := by
    have h1 := congrArg List.length b4
    have h2 := b2.2.1
    rw [List.length_map] at h2
    simp only [List.length_map] at h1
    omega
  obtain ⟨i, is, hi⟩ : ∃ i is, idx' = i :: is := by
    cases idx' with
    | nil => simp at hlen; omega
    | cons i is => exact ⟨i, is, rfl⟩
  have hil : i < M.determinants.length := by rw [hd]; exact b5 i (by rw [hi]; exact List.mem_cons_self)
  obtain ⟨text, ht⟩ := hshow _ (List.getElem_mem hil)
  unfold embeddingBars
  have e1 : pyGet (columns L.eigenstates.eigvects) 0 = .ok v := by rw [hv]; rfl
  have e2 : pyGet (columns M.eigenstates.eigvects) 0 = .ok w := by rw [hw]; rfl
  have e3 : pyGet M.determinants i = .ok M.determinants[i] := by simp [pyGet, List.getElem?_eq_getElem hil]
  refine bind_ok e1 (bind_ok a1 (bind_ok e2 (bind_ok b1 ?_)))
  rw [hi]
  refine bind_ok rfl (bind_ok e3 (bind_ok ht (bind_ok a3 (bind_ok b3 rfl))))

omit [IsStrictOrderedRing K] [FloorRing K] in
/-- Saving the bars: the directory is made if it is missing. -/
theorem saveBars_ok {L M : Loaded K} {n : Nat} {hs hs' : List K} (h : embeddingBars L M n = .ok (hs, hs')) {p : Pictures K}
    (hp : latticeDir L.config.plain.nsites ∈ p.dirs) :
    ∃ d, p.dirs ⊆ d ∧ saveBars p L M n = (p.putAll d
      [(latticeDir L.config.plain.nsites ++ "/AmplitudesStaticEmbeddingNeel".toList ++
          pictureName L.config.plain.nsites L.config.plain.nalpha L.config.nbeta ".png".toList, .bars hs hs'),
       (latticeDir L.config.plain.nsites ++ "/AmplitudesStaticEmbeddingNeel".toList ++
          pictureName L.config.plain.nsites L.config.plain.nalpha L.config.nbeta ".pdf".toList, .bars hs hs')], .ok ()) := by
  unfold saveBars
  rw [h]
  unfold compute
  dsimp only
  generalize latticeDir L.config.plain.nsites = dir at hp ⊢
  generalize pictureName L.config.plain.nsites L.config.plain.nalpha L.config.nbeta = name
  have both : ∀ p : Pictures K, dir ++ "/AmplitudesStaticEmbeddingNeel".toList ∈ p.dirs →
      andThen (p.savefig (dir ++ "/AmplitudesStaticEmbeddingNeel".toList) (name ".png".toList) (.bars hs hs'))
        (fun p => p.savefig (dir ++ "/AmplitudesStaticEmbeddingNeel".toList) (name ".pdf".toList) (.bars hs hs')) =
      (p.putAll p.dirs [(dir ++ "/AmplitudesStaticEmbeddingNeel".toList ++ name ".png".toList, .bars hs hs'),
        (dir ++ "/AmplitudesStaticEmbeddingNeel".toList ++ name ".pdf".toList, .bars hs hs')], .ok ()) := by
    intro p hd
    rw [savefig_ok hd, andThen_ok, savefig_ok (by exact hd), putAll_putAll]
    rfl
  by_cases hd : dir ++ "/AmplitudesStaticEmbeddingNeel".toList ∈ p.dirs
  · exact ⟨p.dirs, fun _ h => h, by rw [both p hd]⟩
  · refine ⟨(dir ++ "/AmplitudesStaticEmbeddingNeel".toList) :: p.dirs, List.subset_cons_self _ _, ?_⟩
    have e : p.savefig (dir ++ "/AmplitudesStaticEmbeddingNeel".toList) (name ".png".toList) (.bars hs hs') = (p, .error .os) := by
      unfold Pictures.savefig
      rw [if_neg hd]
    have e' : p.mkdir dir "/AmplitudesStaticEmbeddingNeel".toList =
        (⟨(dir ++ "/AmplitudesStaticEmbeddingNeel".toList) :: p.dirs, p.file⟩, .ok ()) := by
      unfold Pictures.mkdir
      rw [if_pos ⟨hp, hd⟩]
    rw [e]
    unfold andThen
    dsimp only
    rw [e']
    dsimp only
    have := both ⟨(dir ++ "/AmplitudesStaticEmbeddingNeel".toList) :: p.dirs, p.file⟩ List.mem_cons_self
    unfold andThen at this
    rw [this]
    rfl

omit [IsStrictOrderedRing K] in
/-- The plots of one sector when only the bars are asked for. -/
theorem drawBars {fs : FileSys K} {c : Config} {b : BoolInteractions} {o : InputPlotting} (ho : OnlyBars o) {L M : Loaded K}
    (hL : fs.load (saveName c.nsites c.nalpha c.nbeta b) = .ok L)
    (hM : fs.load (savedBlocksFile o.embedding.dyn o.embedding.neel o.embedding.neigh c.nsites c.nalpha c.nbeta b) = .ok M)
    (p : Pictures K) :
    generatePlotsConfiguration fs c b o p =
      andThen (if o.embedding.neel then saveBars p L M (min c.nbConf 30) else (p, .ok ())) fun p =>
        if o.embedding.stat || o.embedding.dyn then saveBars p L M (min c.nbConf 30) else (p, .ok ()) := by
  unfold generatePlotsConfiguration
  rw [C77_blocks_partial c b o.embedding ho.flag]
  have : [saveName c.nsites c.nalpha c.nbeta b,
      savedBlocksFile o.embedding.dyn o.embedding.neel o.embedding.neigh c.nsites c.nalpha c.nbeta b].mapM fs.load = .ok [L, M] := by
    rw [List.mapM_cons, List.mapM_cons, hL, hM]
    rfl
  rw [this]
  dsimp only
  unfold drawPlots
  simp [ho.spectrum, ho.holes, ho.electrons, ho.determinants, andThen_ok]

/-- The files in which an isolated and an embedded result are saved are different. -/
theorem saveName_ne_blocks (dyn neel neigh : Bool) (n a b n' a' b' : Int) (s s' : BoolInteractions) :
    saveName n a b s ≠ savedBlocksFile dyn neel neigh n' a' b' s' := by
  intro h
  unfold savedBlocksFile at h
  have hE : ∃ l, "Embedding_blocks/".toList = 'E' :: l := ⟨_, rfl⟩
  obtain ⟨E, hE⟩ := hE
  have ht : ∃ l, saveName n a b s = 't' :: l := ⟨_, rfl⟩
  obtain ⟨T, ht⟩ := ht
  rw [hE, ht, List.cons_append] at h
  exact absurd (List.cons.inj h).1 (by decide)

/-- From the loaded files to the picture. -/
theorem bars_loaded (fs : FileSys K) (d d' : DataComputations K) (hd' : d'.config = d.config ∧ d'.determinants = d.determinants)
    (hc : RectConf d.config d.config.nbh d.config.nbv d.config.nblocs) (hb : constructBasis d.config = .ok d.determinants)
    (hpos : d.config.nholes + d.config.nbeta ≤ d.config.nsites) {v w : List K} {vs ws : List (List K)}
    (hv : columns d.eigenstates.eigvects = v :: vs) (hvl : v.length = d.determinants.length)
    (hw : columns d'.eigenstates.eigvects = w :: ws) (hwl : w.length = d.determinants.length) (c : Config) (hcn : c.nsites = d.config.nsites)
    (hch : c.nholes = d.config.nholes) (hcb : c.nbeta = d.config.nbeta) {o : InputPlotting} (ho : OnlyBars o) {L M : Loaded K}
    (hL : fs.load (saveName d.config.nsites d.config.nalpha d.config.nbeta d.bools) = .ok L) (hLd : SameData L d)
    (hM : fs.load (savedBlocksFile o.embedding.dyn o.embedding.neel o.embedding.neigh d.config.nsites d.config.nalpha d.config.nbeta d.bools) = .ok M)
    (hMd : SameData M d') (p : Pictures K) (hp : latticeDir d.config.nsites ∈ p.dirs) :
    ∃ (P : Pictures K) (hs hs' : List K), generatePlotsConfiguration fs c d.bools o p = (P, .ok ()) ∧
      P.file (barsFile d.config.nsites (d.config.nsites - d.config.nholes - d.config.nbeta) d.config.nbeta ".png") = some (.bars hs hs') ∧
      P.file (barsFile d.config.nsites (d.config.nsites - d.config.nholes - d.config.nbeta) d.config.nbeta ".pdf") = some (.bars hs hs') ∧
      Heights v (min d.determinants.length 30) hs ∧ Heights w (min d.determinants.length 30) hs' ∧ p.dirs ⊆ P.dirs ∧
      ∀ q, q ≠ barsFile d.config.nsites (d.config.nsites - d.config.nholes - d.config.nbeta) d.config.nbeta ".png" →
        q ≠ barsFile d.config.nsites (d.config.nsites - d.config.nholes - d.config.nbeta) d.config.nbeta ".pdf" → P.file q = p.file q := by
  set up := d.config.nsites - d.config.nholes - d.config.nbeta with hup
  have hal : c.nalpha = d.config.nalpha := by unfold Config.nalpha; rw [hcn, hch, hcb]
  have hconf : c.nbConf = d.determinants.length := by
    rw [C02_dimension _ _ hb]
    unfold Config.nbConf
    rw [hcn, hal, hcb]
  have hL' : fs.load (saveName c.nsites c.nalpha c.nbeta d.bools) = .ok L := by rw [hcn, hal, hcb]; exact hL
  have hM' : fs.load (savedBlocksFile o.embedding.dyn o.embedding.neel o.embedding.neigh c.nsites c.nalpha c.nbeta d.bools) = .ok M := by
    rw [hcn, hal, hcb]; exact hM
  have hdM : M.determinants = d.determinants := hMd.determinants.trans hd'.2
  have hvalid : ∀ det ∈ d.determinants, ValidDet d.config.nsites det := by
    intro det hdet
    obtain ⟨l, l1, _, l3, _⟩ := C01_basis_enumerates d.config
    rw [l1] at hb
    exact (l3 det (by rw [Except.ok.inj hb]; exact hdet)).1
  have hposn : 0 < d.determinants.length := by
    rw [C02_dimension _ _ hb, C02_dimension_value, if_pos hpos]
    exact Nat.mul_pos (Nat.choose_pos (by omega)) (Nat.choose_pos (by omega))
  have hMs : M.config.plain.nsites = d.config.nsites := by
    show M.config.bond.rows = d.config.bond.rows
    rw [hMd.rows, hd'.1]
  have hshow : ∀ det ∈ M.determinants, ∃ text, displayRectangular (.config M.config.plain) det = .ok text := by
    intro det hdet
    have hsize : d.config.nsites = (d.config.nbh * d.config.nblocs) * (d.config.nbv * d.config.nblocs) := hc.spec.1
    obtain ⟨text, t1, _⟩ := displayRectangular_eq (c := M.config.plain) (det := det) (by rw [hMs]; exact hvalid det (by rwa [hdM] at hdet))
      (w := d.config.nbh * d.config.nblocs) (h := d.config.nbv * d.config.nblocs)
      (show M.config.nblocs * M.config.nbh = _ by rw [hMd.nblocs, hMd.nbh, hd'.1]; exact Nat.mul_comm _ _)
      (show M.config.nblocs * M.config.nbv = _ by rw [hMd.nblocs, hMd.nbv, hd'.1]; exact Nat.mul_comm _ _)
      (Nat.mul_pos hc.hh hc.hb) (Nat.mul_pos hc.hv hc.hb) (by rw [hMs]; exact hsize)
    exact ⟨text, t1⟩
  have hcL : columns L.eigenstates.eigvects = v :: vs := by rw [hLd.eigenstates]; exact hv
  have hcM : columns M.eigenstates.eigvects = w :: ws := by rw [hMd.eigenstates]; exact hw
  obtain ⟨hs, hs', e1, e2, e3⟩ := embeddingBars_ok hcL hcM (n := min d.determinants.length 30) (by omega) (by omega) (by omega) (by rw [hdM, hwl]) hshow
  have hLs : L.config.plain.nsites = d.config.nsites := hLd.rows
  have hLa : L.config.plain.nalpha = ((d.config.nsites - d.config.nholes - d.config.nbeta : Nat) : Int) := by
    show (L.config.bond.rows : Int) - L.config.nholes - L.config.nbeta = _
    rw [hLd.rows, hLd.nholes, hLd.nbeta]
    show (d.config.nsites : Int) - d.config.nholes - d.config.nbeta = _
    omega
  have hsave : ∀ p : Pictures K, latticeDir d.config.nsites ∈ p.dirs → ∃ d', p.dirs ⊆ d' ∧ saveBars p L M (min c.nbConf 30) = (p.putAll d'
      [(barsFile d.config.nsites up d.config.nbeta ".png", .bars hs hs'), (barsFile d.config.nsites up d.config.nbeta ".pdf", .bars hs hs')], .ok ()) := by
    intro p hp
    obtain ⟨d', d1, d2⟩ := saveBars_ok e1 (p := p) (by rw [hLs]; exact hp)
    refine ⟨d', d1, ?_⟩
    rw [hconf, d2, hLs, hLa, hLd.nbeta]
    rfl
  have hend : ∃ d' W, p.dirs ⊆ d' ∧ generatePlotsConfiguration fs c d.bools o p = (p.putAll d' W, .ok ()) ∧
      (barsFile d.config.nsites up d.config.nbeta ".png", .bars hs hs') ∈ W ∧ (barsFile d.config.nsites up d.config.nbeta ".pdf", .bars hs hs') ∈ W ∧
      ∀ e ∈ W, e.2 = .bars hs hs' ∧ (e.1 = barsFile d.config.nsites up d.config.nbeta ".png" ∨ e.1 = barsFile d.config.nsites up d.config.nbeta ".pdf") := by
    rw [drawBars ho hL' hM' p]
    obtain ⟨d1, s1, s2⟩ := hsave p hp
    by_cases h1 : o.embedding.neel = true
    · rw [if_pos h1, s2, andThen_ok]
      by_cases h2 : (o.embedding.stat || o.embedding.dyn) = true
      · obtain ⟨d2, t1, t2⟩ := hsave (p.putAll d1
          [(barsFile d.config.nsites up d.config.nbeta ".png", .bars hs hs'), (barsFile d.config.nsites up d.config.nbeta ".pdf", .bars hs hs')]) (s1 hp)
        refine ⟨d2, _, fun _ h => t1 (s1 h), by rw [if_pos h2, t2, putAll_putAll], by simp, by simp, ?_⟩
        simp
      · exact ⟨d1, _, s1, by rw [if_neg h2], by simp, by simp, by simp⟩
    · have h2 : (o.embedding.stat || o.embedding.dyn) = true := by
        rcases ho.flag with h | h | h
        · exact absurd h h1
        · simp [h]
        · simp [h]
      rw [if_neg h1, andThen_ok, if_pos h2, s2]
      exact ⟨d1, _, s1, rfl, by simp, by simp, by simp⟩
  obtain ⟨d', W, w1, w2, w3, w4, w5⟩ := hend
  exact ⟨_, hs, hs', w2, putAll_file w3 (fun e he _ => (w5 e he).1), putAll_file w4 (fun e he _ => (w5 e he).1), e2, e3, w1,
    fun q q1 q2 => putAll_other fun e he h => (w5 e he).2.elim (fun h' => q1 (h ▸ h')) (fun h' => q2 (h ▸ h'))⟩

omit [LinearOrder K] [IsStrictOrderedRing K] [FloorRing K] in
/-- What `save_data` leaves behind. -/
theorem saveDataFs_ok (fs : FileSys K) (hr : fs.root = true) (d : DataComputations K) (t : Times K) (ht : d.times = some t) (hn : d.config.nsites ≠ 0)
    (hh : CsrShape d.config.nbConf d.ham.data d.ham.indices d.ham.indptr) :
    (saveDataFs fs d).1.root = true ∧ (saveDataFs fs d).2.1 = { d with diag := { d.diag with guess := none } } ∧
    ∃ L, (saveDataFs fs d).1.load (saveName d.config.nsites d.config.nalpha d.config.nbeta d.bools) = .ok L ∧ SameData L d := by
  obtain ⟨name, x, L, h1, h2, a1, a2, a3, a4, a5, a6, a7, a8, a9, a10, a11, a12, a13, a14, a15, a16, a17, a18, a19⟩ := C54_roundtrip_partial d t ht hn hh
  have hsv : saveDataFs fs d = (fs.put (saveName d.config.nsites d.config.nalpha d.config.nbeta d.bools) (some x),
      { d with diag := { d.diag with guess := none } }, .ok ()) := by
    unfold saveDataFs
    rw [h1]
    have hv : Except.map (·.2) (Except.ok (name, x) : Py (List Char × PyVal K)) = .ok x := rfl
    rw [hv, writeJson_ok hr rfl]
  rw [hsv]
  refine ⟨hr, rfl, L, ?_, ⟨a1, a2, a3, a4, a5, a6, a7, a8, a11, a12, a13, a14, a15, a16, a17, a18⟩⟩
  unfold FileSys.load FileSys.put
  simp [h2, Except.mapError]

omit [LinearOrder K] [IsStrictOrderedRing K] [FloorRing K] in
/-- `save_data` changes one file. -/
theorem saveDataFs_other (fs : FileSys K) (d : DataComputations K) {q : List Char}
    (hq : q ≠ saveName d.config.nsites d.config.nalpha d.config.nbeta d.bools) : (saveDataFs fs d).1.load q = fs.load q := by
  unfold saveDataFs writeJson FileSys.load FileSys.put
  dsimp only
  split_ifs with h
  · cases (saveData d).map (·.2) <;> simp [hq]
  · rfl

omit [Field K] [LinearOrder K] [IsStrictOrderedRing K] [FloorRing K] in
/-- The directory `./initialComputations` remains. -/
theorem saveIn_root {fs : FileSys K} (hr : fs.root = true) (dir path : List Char) (v : Py (PyVal K)) : (saveIn fs dir path v).1.root = true := by
  obtain ⟨fs', h1, _, _, _, h5⟩ := saveIn_eq hr dir path v
  rw [h5]
  cases v <;> exact h1

/-- The files after `save_data` of the isolated results and `save_data_embedding_blocks` of embedded ones, with the same `Data`. -/
def savedBoth (fs : FileSys K) (d : DataComputations K) (ham : Csr K) (es : Eigenstates K) (o : InputPlotting) : FileSys K :=
  (saveBlocks (saveDataFs fs d).1 { (saveDataFs fs d).2.1 with ham := ham, eigenstates := es, times := none }
    o.embedding.dyn o.embedding.neel o.embedding.neigh).1

/-- C129, part: the results of a rectangular lattice are saved with `save_data`, then, for the same `Data`, those of an embedding in blocks.
Then `generate_plots_configuration` with the same options and one of the three flags of the embedding ends without exception, and the files .png and
.pdf of the sector show the `min(nb_conf, 30)` largest squared amplitudes of the isolated and of the embedded ground state; no other picture
changes. The directory of the lattice must exist, its subdirectory is made. Missing: the bars at the same place do not belong to the same
determinant (`C129_order_lost`), all kinds of embedding have the same picture (`C129_overwritten`), and `generate_plots`, for all sectors, needs an
embedding of each (`C129_all_sectors`). -/
theorem C129_saved_partial (fs : FileSys K) (hr : fs.root = true) (d : DataComputations K) (t : Times K) (ht : d.times = some t)
    (hh : CsrShape d.config.nbConf d.ham.data d.ham.indices d.ham.indptr)
    (hc : RectConf d.config d.config.nbh d.config.nbv d.config.nblocs) (hb : constructBasis d.config = .ok d.determinants)
    (hpos : d.config.nholes + d.config.nbeta ≤ d.config.nsites) (v w : List K) (vs ws : List (List K))
    (hv : columns d.eigenstates.eigvects = v :: vs) (hvl : v.length = d.determinants.length) (ham : Csr K)
    (hham : CsrShape d.config.nbConf ham.data ham.indices ham.indptr) (es : Eigenstates K)
    (hw : columns es.eigvects = w :: ws) (hwl : w.length = d.determinants.length) (c : Config) (hcn : c.nsites = d.config.nsites)
    (hch : c.nholes = d.config.nholes) (hcb : c.nbeta = d.config.nbeta) (o : InputPlotting) (ho : OnlyBars o) (p : Pictures K)
    (hp : latticeDir d.config.nsites ∈ p.dirs) :
    let up := d.config.nsites - d.config.nholes - d.config.nbeta
    ∃ (P : Pictures K) (hs hs' : List K), generatePlotsConfiguration (savedBoth fs d ham es o) c d.bools o p = (P, .ok ()) ∧
      P.file (barsFile d.config.nsites up d.config.nbeta ".png") = some (.bars hs hs') ∧
      P.file (barsFile d.config.nsites up d.config.nbeta ".pdf") = some (.bars hs hs') ∧
      Heights v (min d.determinants.length 30) hs ∧ Heights w (min d.determinants.length 30) hs' ∧ p.dirs ⊆ P.dirs ∧
      ∀ q, q ≠ barsFile d.config.nsites up d.config.nbeta ".png" → q ≠ barsFile d.config.nsites up d.config.nbeta ".pdf" →
        P.file q = p.file q := by
  have hn : d.config.nsites ≠ 0 := rect_sites hc
  obtain ⟨r1, r2, L, r3, r4⟩ := saveDataFs_ok fs hr d t ht hn hh
  obtain ⟨_, ⟨M, m1, m2, _⟩, m4⟩ := C89_blocks_partial (saveDataFs fs d).1 r1
    { (saveDataFs fs d).2.1 with ham := ham, eigenstates := es, times := none } (by rw [r2]; exact hn) (by rw [r2])
    (by rw [r2]; exact hham) o.embedding.dyn o.embedding.neel o.embedding.neigh
  refine bars_loaded (savedBoth fs d ham es o) d { (saveDataFs fs d).2.1 with ham := ham, eigenstates := es, times := none } (by rw [r2]; exact ⟨rfl, rfl⟩)
    hc hb hpos hv hvl hw hwl c hcn hch hcb ho ?_ r4 ?_ m2 p hp
  · exact (m4 _ (saveName_ne_blocks _ _ _ _ _ _ _ _ _ _ _)).trans r3
  · rw [r2] at m1
    unfold savedBoth
    rw [r2]
    exact m1

omit [FloorRing K] in
/-- The heights are determined by the amplitudes, whatever their order. -/
theorem heights_perm {v w : List K} (hp : w.Perm v) {n : Nat} {hs hs' : List K} (h : Heights v n hs) (h' : Heights w n hs') : hs' = hs := by
  have key : ∀ {v : List K} {hs : List K}, Heights v n hs → hs = (sortedDesc (v.map (fun x => |x| ^ 2))).take n := by
    rintro v hs ⟨top, ⟨t1, t2, t3, t4, t5⟩, rfl⟩
    set s := v.map (fun x => |x| ^ 2) with hs
    have hget : ∀ i < s.length, |s.getD i 0| = |v.getD i 0| ^ 2 := by
      intro i hi
      have hi' : i < v.length := by simpa [hs] using hi
      have : s.getD i 0 = |v.getD i 0| ^ 2 := by simp [hs, List.getD_eq_getElem?_getD, List.getElem?_eq_getElem hi']
      rw [this]
      exact abs_of_nonneg (by positivity)
    have hpm : (top ++ (List.range s.length).filter (fun j => decide (j ∉ top))).Perm (List.range s.length) := by
      refine (List.perm_ext_iff_of_nodup ?_ List.nodup_range).2 fun j => ?_
      · refine t1.append (List.nodup_range.filter _) fun j h1 h2 => ?_
        simp [h1] at h2
      · simp only [List.mem_append, List.mem_filter, List.mem_range, decide_eq_true_eq]
        exact ⟨fun h => h.elim (t3 j) (·.1), fun h => (em (j ∈ top)).elim .inl fun h' => .inr ⟨h, h'⟩⟩
    set rest := (List.range s.length).filter (fun j => decide (j ∉ top)) with hrest
    have hrange : (List.range s.length).map (fun i => |v.getD i 0| ^ 2) = s := by
      apply List.ext_getElem
      · simp
      · intro i h1 h2
        have hi' : i < v.length := by simpa [hs] using h2
        simp [hs, List.getD_eq_getElem?_getD, List.getElem?_eq_getElem hi']
    have hsort : sortedDesc s = top.map (fun i => |v.getD i 0| ^ 2) ++ sortedDesc (rest.map (fun i => |v.getD i 0| ^ 2)) := by
      refine List.Perm.eq_of_pairwise (fun a b _ _ h1 h2 => le_antisymm h2 h1) (sortedDesc_sorted s) ?_ ?_
      · refine List.pairwise_append.2 ⟨?_, sortedDesc_sorted _, ?_⟩
        · rw [List.pairwise_map]
          refine t4.imp_of_mem fun {i j} hi hj hij => ?_
          rw [← hget i (t3 i hi), ← hget j (t3 j hj)]
          exact hij
        · intro a ha b hb
          obtain ⟨i, hi, rfl⟩ := List.mem_map.1 ha
          obtain ⟨j, hj, rfl⟩ := List.mem_map.1 ((sortedDesc_perm _).mem_iff.1 hb)
          rw [hrest, List.mem_filter, List.mem_range, decide_eq_true_eq] at hj
          rw [← hget i (t3 i hi), ← hget j hj.1]
          exact t5 j hj.1 hj.2 i hi
      · refine (sortedDesc_perm s).trans ?_
        refine List.Perm.trans ?_ ((sortedDesc_perm _).symm.append_left _)
        rw [← List.map_append]
        conv_lhs => rw [← hrange]
        exact (hpm.map _).symm
    rw [hsort]
    by_cases hle : n ≤ s.length
    · rw [List.take_append_of_le_length (by rw [List.length_map, t2]; omega), List.take_of_length_le (by rw [List.length_map, t2]; omega)]
    · have : rest = [] := by
        have := hpm.length_eq
        rw [List.length_append, t2, List.length_range] at this
        exact List.length_eq_zero_iff.1 (by omega)
      rw [this, show sortedDesc (([] : List Nat).map (fun i => |v.getD i 0| ^ 2)) = [] from rfl, List.append_nil,
        List.take_of_length_le (by rw [List.length_map, t2]; omega)]
  rw [key h, key h']
  congr 1
  refine List.Perm.eq_of_pairwise (fun a b _ _ h1 h2 => le_antisymm h2 h1) (sortedDesc_sorted _) (sortedDesc_sorted _) ?_
  exact (sortedDesc_perm _).trans ((hp.map _).trans (sortedDesc_perm _).symm)

/-- C129 fails for what the picture tells about the determinants: the bars of the two states are sorted apart from each other. If the amplitudes of
the embedded ground state are exchanged between the determinants in any way, the pictures are the same. -/
theorem C129_order_lost (fs : FileSys K) (hr : fs.root = true) (d : DataComputations K) (t : Times K) (ht : d.times = some t)
    (hh : CsrShape d.config.nbConf d.ham.data d.ham.indices d.ham.indptr)
    (hc : RectConf d.config d.config.nbh d.config.nbv d.config.nblocs) (hb : constructBasis d.config = .ok d.determinants)
    (hpos : d.config.nholes + d.config.nbeta ≤ d.config.nsites) (v w w' : List K) (vs ws ws' : List (List K))
    (hv : columns d.eigenstates.eigvects = v :: vs) (hvl : v.length = d.determinants.length) (ham ham' : Csr K)
    (hham : CsrShape d.config.nbConf ham.data ham.indices ham.indptr) (hham' : CsrShape d.config.nbConf ham'.data ham'.indices ham'.indptr)
    (es es' : Eigenstates K)
    (hw : columns es.eigvects = w :: ws) (hwl : w.length = d.determinants.length) (hw' : columns es'.eigvects = w' :: ws') (hperm : w'.Perm w)
    (o : InputPlotting) (ho : OnlyBars o) (p : Pictures K) (hp : latticeDir d.config.nsites ∈ p.dirs) (q : List Char) :
    ((generatePlotsConfiguration (savedBoth fs d ham' es' o) d.config d.bools o p).1.file q =
      (generatePlotsConfiguration (savedBoth fs d ham es o) d.config d.bools o p).1.file q) := by
  obtain ⟨P, hs, hs1, a1, a2, a3, a4, a5, _, a6⟩ := C129_saved_partial fs hr d t ht hh hc hb hpos v w vs ws hv hvl ham hham es hw hwl d.config rfl rfl rfl o ho p hp
  obtain ⟨P', hs', hs1', b1, b2, b3, b4, b5, _, b6⟩ := C129_saved_partial fs hr d t ht hh hc hb hpos v w' vs ws' hv hvl ham' hham' es' hw'
    (hperm.length_eq.trans hwl) d.config rfl rfl rfl o ho p hp
  have e1 : hs' = hs := heights_perm (List.Perm.refl v) a4 b4
  have e2 : hs1' = hs1 := heights_perm hperm a5 b5
  rw [a1, b1]
  dsimp only
  by_cases q1 : q = barsFile d.config.nsites (d.config.nsites - d.config.nholes - d.config.nbeta) d.config.nbeta ".png"
  · rw [q1, a2, b2, e1, e2]
  · by_cases q2 : q = barsFile d.config.nsites (d.config.nsites - d.config.nholes - d.config.nbeta) d.config.nbeta ".pdf"
    · rw [q2, a3, b3, e1, e2]
    · rw [a6 q q1 q2, b6 q q1 q2]

/-- C129 fails for several embeddings of the same sector: the results of two embeddings with different options are saved in different files, but the
second picture replaces the first one. -/
theorem C129_overwritten (fs : FileSys K) (hr : fs.root = true) (d : DataComputations K) (t : Times K) (ht : d.times = some t)
    (hh : CsrShape d.config.nbConf d.ham.data d.ham.indices d.ham.indptr)
    (hc : RectConf d.config d.config.nbh d.config.nbv d.config.nblocs) (hb : constructBasis d.config = .ok d.determinants)
    (hpos : d.config.nholes + d.config.nbeta ≤ d.config.nsites) (v w w' : List K) (vs ws ws' : List (List K))
    (hv : columns d.eigenstates.eigvects = v :: vs) (hvl : v.length = d.determinants.length) (ham ham' : Csr K)
    (hham : CsrShape d.config.nbConf ham.data ham.indices ham.indptr) (hham' : CsrShape d.config.nbConf ham'.data ham'.indices ham'.indptr)
    (es es' : Eigenstates K)
    (hw : columns es.eigvects = w :: ws) (hwl : w.length = d.determinants.length) (hw' : columns es'.eigvects = w' :: ws')
    (hwl' : w'.length = d.determinants.length) (o o' : InputPlotting) (ho : OnlyBars o) (ho' : OnlyBars o') (p : Pictures K)
    (hp : latticeDir d.config.nsites ∈ p.dirs) :
    let fs1 := savedBoth fs d ham es o
    let fs2 := (saveBlocks fs1 { (saveDataFs fs d).2.1 with ham := ham', eigenstates := es', times := none }
      o'.embedding.dyn o'.embedding.neel o'.embedding.neigh).1
    let picture := barsFile d.config.nsites (d.config.nsites - d.config.nholes - d.config.nbeta) d.config.nbeta ".png"
    ∃ P P' hs hs1 hs2, generatePlotsConfiguration fs1 d.config d.bools o p = (P, .ok ()) ∧ P.file picture = some (.bars hs hs1) ∧
      Heights w (min d.determinants.length 30) hs1 ∧
      generatePlotsConfiguration fs2 d.config d.bools o' P = (P', .ok ()) ∧ P'.file picture = some (.bars hs hs2) ∧
      Heights w' (min d.determinants.length 30) hs2 := by
  intro fs1 fs2 picture
  have hn : d.config.nsites ≠ 0 := rect_sites hc
  obtain ⟨P, hs, hs1, a1, a2, _, a4, a5, a6, _⟩ := C129_saved_partial fs hr d t ht hh hc hb hpos v w vs ws hv hvl ham hham es hw hwl d.config rfl rfl rfl o ho p hp
  obtain ⟨r1, r2, L, r3, r4⟩ := saveDataFs_ok fs hr d t ht hn hh
  have hroot : fs1.root = true := saveIn_root r1 _ _ _
  obtain ⟨_, _, m4⟩ := C89_blocks_partial (saveDataFs fs d).1 r1
    { (saveDataFs fs d).2.1 with ham := ham, eigenstates := es, times := none } (by rw [r2]; exact hn) (by rw [r2])
    (by rw [r2]; exact hham) o.embedding.dyn o.embedding.neel o.embedding.neigh
  obtain ⟨_, ⟨M, k1, k2, _⟩, k4⟩ := C89_blocks_partial fs1 hroot
    { (saveDataFs fs d).2.1 with ham := ham', eigenstates := es', times := none } (by rw [r2]; exact hn) (by rw [r2])
    (by rw [r2]; exact hham') o'.embedding.dyn o'.embedding.neel o'.embedding.neigh
  obtain ⟨P', hs', hs2, b1, b2, _, b4, b5, _, _⟩ := bars_loaded fs2 d { (saveDataFs fs d).2.1 with ham := ham', eigenstates := es', times := none }
    (by rw [r2]; exact ⟨rfl, rfl⟩) hc hb hpos hv hvl hw' hwl' d.config rfl rfl rfl ho'
    ((k4 _ (saveName_ne_blocks _ _ _ _ _ _ _ _ _ _ _)).trans ((m4 _ (saveName_ne_blocks _ _ _ _ _ _ _ _ _ _ _)).trans r3)) r4
    (by rw [r2] at k1; show FileSys.load (saveBlocks fs1 _ _ _ _).1 _ = _; rw [r2]; exact k1) k2 P (a6 hp)
  have e1 : hs' = hs := heights_perm (List.Perm.refl v) a4 b4
  exact ⟨P, P', hs, hs1, hs2, a1, a2, a5, b1, e1 ▸ b2, b5⟩

omit [IsStrictOrderedRing K] in
/-- C129 fails for `generate_plots`: with one of the flags of the embedding it ends in an exception unless the results of the embedding of
every sector are on the disk; `embedding_blocks` saves those of one sector. -/
theorem C129_all_sectors (fs : FileSys K) (c : Config) (b : BoolInteractions) (o : InputPlotting)
    (ho : o.embedding.neel = true ∨ o.embedding.stat = true ∨ o.embedding.dyn = true) (x y : Nat) (hxy : x + y + c.nholes = c.nsites)
    (e : IoErr) (hmiss : fs.load (savedBlocksFile o.embedding.dyn o.embedding.neel o.embedding.neigh c.nsites x y b) = .error e) (p : Pictures K) :
    ∃ e', (generatePlots fs c b o p).2 = .error e' := by
  unfold generatePlots
  have key : ∀ (as : List Nat), x ∈ as → (∀ a ∈ as, a < c.nsites + 1 - c.nholes) → ∀ p : Pictures K,
      ∃ e', (plotLoop fs c.bond c.nsites c.nholes b o as p).2 = .error e' := by
    intro as
    induction as with
    | nil => intro h; cases h
    | cons a as ih =>
      intro hx hlt p
      unfold plotLoop
      cases hi : Config.init c.bond c.nholes (c.nsites - c.nholes - a) with
      | error e' => exact ⟨_, rfl⟩
      | ok c' =>
        dsimp only
        obtain ⟨i1, i2, i3⟩ : c'.nsites = c.nsites ∧ c'.nholes = c.nholes ∧ c'.nbeta = c.nsites - c.nholes - a := by
          unfold Config.init at hi
          split_ifs at hi
          obtain rfl := Except.ok.inj hi
          exact ⟨rfl, rfl, rfl⟩
        by_cases hax : a = x
        · have hal : c'.nalpha = (x : Int) := by unfold Config.nalpha; rw [i1, i2, i3]; omega
          have hby : c'.nbeta = y := by omega
          have hstop : ∃ e', (generatePlotsConfiguration fs c' b o p).2 = .error e' := by
            unfold generatePlotsConfiguration
            rw [C77_blocks_partial c' b o.embedding ho, i1, hal, hby, List.mapM_cons, List.mapM_cons, hmiss]
            cases fs.load (saveName c.nsites x y b) with
            | error e' => exact ⟨_, rfl⟩
            | ok L => exact ⟨_, rfl⟩
          obtain ⟨e', he⟩ := hstop
          generalize generatePlotsConfiguration fs c' b o p = r at he ⊢
          obtain ⟨P, r⟩ := r
          dsimp only at he
          subst he
          exact ⟨e', rfl⟩
        · generalize generatePlotsConfiguration fs c' b o p = r
          obtain ⟨P, r⟩ := r
          cases r with
          | error e' => exact ⟨e', rfl⟩
          | ok u => exact ih ((List.mem_cons.1 hx).resolve_left (Ne.symm hax)) (fun a' h => hlt a' (List.mem_cons_of_mem _ h)) P
  exact key _ (List.mem_range.2 (by omega)) (fun a ha => List.mem_range.1 ha) p

end

/-- Two sites with an up and a down spin. -/
def exPairSaved : DataComputations ℚ :=
  ⟨rectConf 2 1 1 0 1, exI, ⟨1, 100, 1 / 1000, 20, some [[1], [2]]⟩, ⟨true, true, true, true, true, false⟩, true, [[0, 1], [1, 0]],
    ⟨[1, 2], [0, 1], [0, 1, 2]⟩, ⟨[-1], [some 0], [[3 / 5], [4 / 5]]⟩, some ⟨1, 2, 3⟩⟩

theorem exPairSaved_shape : CsrShape exPairSaved.config.nbConf exPairSaved.ham.data exPairSaved.ham.indices exPairSaved.ham.indptr := by
  have h : exPairSaved.config.nbConf = 2 := by decide +kernel
  rw [h]
  exact ⟨rfl, rfl, rfl, rfl⟩

/-- Only the picture of a static embedding. -/
def exBars (dyn : Bool) : InputPlotting := ⟨1, 4, false, false, false, false, ⟨false, !dyn, dyn, false⟩⟩

/-- The hypotheses of the theorems of C129 hold for the two sites, two embedded ground states with exchanged amplitudes and two kinds of embedding. -/
example (p : Pictures ℚ) (hp : latticeDir 2 ∈ p.dirs) (ham : Csr ℚ)
    (hham : CsrShape exPairSaved.config.nbConf ham.data ham.indices ham.indptr) (q : List Char) :
    (∃ P hs hs', generatePlotsConfiguration (savedBoth exFs exPairSaved ham ⟨[-1], [some 0], [[1], [2]]⟩ (exBars false)) exPairSaved.config
        exPairSaved.bools (exBars false) p = (P, .ok ()) ∧ P.file "tJ-H2/AmplitudesStaticEmbeddingNeel/tJ-H211.png".toList = some (.bars hs hs') ∧
        Heights [3 / 5, 4 / 5] 2 hs ∧ Heights [1, 2] 2 hs') ∧
    (generatePlotsConfiguration (savedBoth exFs exPairSaved ham ⟨[-1], [some 0], [[2], [1]]⟩ (exBars false)) exPairSaved.config exPairSaved.bools
        (exBars false) p).1.file q =
      (generatePlotsConfiguration (savedBoth exFs exPairSaved ham ⟨[-1], [some 0], [[1], [2]]⟩ (exBars false)) exPairSaved.config exPairSaved.bools
        (exBars false) p).1.file q := by
  have hc : RectConf exPairSaved.config exPairSaved.config.nbh exPairSaved.config.nbv exPairSaved.config.nblocs :=
    rectConf_ok 2 1 1 0 1 (by decide) (by decide) (by decide)
  have hb : constructBasis exPairSaved.config = .ok exPairSaved.determinants := by decide +kernel
  have ho : OnlyBars (exBars false) := ⟨.inr (.inl rfl), rfl, rfl, rfl, rfl⟩
  have hv : columns exPairSaved.eigenstates.eigvects = [3 / 5, 4 / 5] :: [] := by simp [columns, exPairSaved]
  have hw : columns ([[1], [2]] : List (List ℚ)) = [1, 2] :: [] := by simp [columns]
  have hw' : columns ([[2], [1]] : List (List ℚ)) = [2, 1] :: [] := by simp [columns]
  constructor
  · obtain ⟨P, hs, hs', h1, h2, _, h4, h5, _⟩ := C129_saved_partial exFs rfl exPairSaved ⟨1, 2, 3⟩ rfl exPairSaved_shape hc hb (by decide +kernel) _ _ _ _ hv rfl ham hham
      ⟨[-1], [some 0], [[1], [2]]⟩ hw rfl exPairSaved.config rfl rfl rfl (exBars false) ho p hp
    exact ⟨P, hs, hs', h1, h2, h4, h5⟩
  · exact C129_order_lost exFs rfl exPairSaved ⟨1, 2, 3⟩ rfl exPairSaved_shape hc hb (by decide +kernel) _ [1, 2] [2, 1] _ _ _ hv rfl ham ham hham hham
      ⟨[-1], [some 0], [[1], [2]]⟩ ⟨[-1], [some 0], [[2], [1]]⟩ hw rfl hw' (List.Perm.swap _ _ _) (exBars false) ho p hp q

/-- The bars of two different embeddings: the first picture shows the amplitudes 1 and 0, the second, under the same name, 3/5 and 4/5. -/
example (p : Pictures ℚ) (hp : latticeDir 2 ∈ p.dirs) (ham : Csr ℚ)
    (hham : CsrShape exPairSaved.config.nbConf ham.data ham.indices ham.indptr) :
    ∃ (P P' : Pictures ℚ) (hs hs1 hs2 : List ℚ), generatePlotsConfiguration (savedBoth exFs exPairSaved ham ⟨[-1], [some 0], [[1], [0]]⟩ (exBars false)) exPairSaved.config
        exPairSaved.bools (exBars false) p = (P, .ok ()) ∧ P.file "tJ-H2/AmplitudesStaticEmbeddingNeel/tJ-H211.png".toList = some (.bars hs hs1) ∧
      P'.file "tJ-H2/AmplitudesStaticEmbeddingNeel/tJ-H211.png".toList = some (.bars hs hs2) ∧
      Heights [1, 0] 2 hs1 ∧ Heights [3 / 5, 4 / 5] 2 hs2 := by
  have hc : RectConf exPairSaved.config exPairSaved.config.nbh exPairSaved.config.nbv exPairSaved.config.nblocs :=
    rectConf_ok 2 1 1 0 1 (by decide) (by decide) (by decide)
  have hb : constructBasis exPairSaved.config = .ok exPairSaved.determinants := by decide +kernel
  have hv : columns exPairSaved.eigenstates.eigvects = [3 / 5, 4 / 5] :: [] := by simp [columns, exPairSaved]
  have hw : columns ([[1], [0]] : List (List ℚ)) = [1, 0] :: [] := by simp [columns]
  have hw' : columns ([[3 / 5], [4 / 5]] : List (List ℚ)) = [3 / 5, 4 / 5] :: [] := by simp [columns]
  obtain ⟨P, P', hs, hs1, hs2, h1, h2, h3, _, h5, h6⟩ := C129_overwritten exFs rfl exPairSaved ⟨1, 2, 3⟩ rfl exPairSaved_shape hc hb (by decide +kernel) _ _ _ _ _ _ hv rfl
    ham ham hham hham ⟨[-1], [some 0], [[1], [0]]⟩ ⟨[-1], [some 0], [[3 / 5], [4 / 5]]⟩ hw rfl hw' rfl (exBars false) (exBars true)
    ⟨.inr (.inl rfl), rfl, rfl, rfl, rfl⟩ ⟨.inr (.inr rfl), rfl, rfl, rfl, rfl⟩ p hp
  exact ⟨P, P', hs, hs1, hs2, h1, h2, h5, h3, h6⟩

/-- After the two results have been saved, the picture of the sector with two up spins cannot be made, nor those of the sweep. -/
example (p : Pictures ℚ) (ham : Csr ℚ) :
    ∃ e', (generatePlots (savedBoth exFs exPairSaved ham ⟨[-1], [some 0], [[1], [0]]⟩ (exBars false)) exPairSaved.config exPairSaved.bools
      (exBars false) p).2 = .error e' := by
  refine C129_all_sectors _ _ _ _ (.inr (.inl rfl)) 2 0 (by decide +kernel) .os ?_ p
  obtain ⟨r1, r2, _⟩ := saveDataFs_ok exFs rfl exPairSaved ⟨1, 2, 3⟩ rfl (by decide +kernel) exPairSaved_shape
  obtain ⟨_, _, m4⟩ := (saveIn_content r1 "Embedding_blocks".toList _
    { (saveDataFs exFs exPairSaved).2.1 with ham := ham, eigenstates := ⟨[-1], [some 0], [[1], [0]]⟩, times := none }
    (by rw [r2]; exact (by decide +kernel : exPairSaved.config.nsites ≠ 0))).1 (by rw [r2])
  refine (m4 _ ?_).trans ((saveDataFs_other _ _ ?_).trans rfl)
  · rw [r2]
    exact (by decide +kernel : savedBlocksFile false false false 2 2 0 exPairSaved.bools ≠ savedBlocksFile false false false 2 1 1 exPairSaved.bools)
  · exact (saveName_ne_blocks _ _ _ _ _ _ _ _ _ _ _).symm

end TJ
