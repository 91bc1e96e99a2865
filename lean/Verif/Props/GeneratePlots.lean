/-
C114: what `generate_plots` saves after `perform_configurations_computations`.
-/
import Verif.Model.GeneratePlots
import Verif.Props.Sweep
import Verif.Props.Plots
import Verif.Props.PostProcessing

namespace TJ

/-! ### Saving pictures -/

section
variable {K : Type}

/-- The pictures after saving the list `W` of paths and contents, in this order. -/
def Pictures.putAll (p : Pictures K) (dirs : List (List Char)) (W : List (List Char × Picture K)) : Pictures K :=
  ⟨dirs, fun q => ((W.reverse.find? (fun e => e.1 = q)).map (·.2)).or (p.file q)⟩

theorem putAll_nil (p : Pictures K) : p.putAll p.dirs [] = p := rfl

theorem putAll_putAll (p : Pictures K) (d1 d2 : List (List Char)) (W1 W2 : List (List Char × Picture K)) :
    (p.putAll d1 W1).putAll d2 W2 = p.putAll d2 (W1 ++ W2) := by
  unfold Pictures.putAll
  congr 1
  funext q
  dsimp only
  rw [List.reverse_append, List.find?_append]
  cases W2.reverse.find? (fun e => e.1 = q) <;> simp

theorem putAll_file {p : Pictures K} {d : List (List Char)} {W : List (List Char × Picture K)} {q : List Char} {x : Picture K} (hx : (q, x) ∈ W)
    (h : ∀ e ∈ W, e.1 = q → e.2 = x) : (p.putAll d W).file q = some x := by
  show ((W.reverse.find? (fun e => e.1 = q)).map (·.2)).or (p.file q) = some x
  cases hf : W.reverse.find? (fun e => e.1 = q) with
  | none =>
    have := List.find?_eq_none.1 hf (q, x) (List.mem_reverse.2 hx)
    simp at this
  | some e =>
    have h1 := List.find?_some hf
    have h2 := List.mem_of_find?_eq_some hf
    rw [Option.map_some, Option.some_or, h e (List.mem_reverse.1 h2) (by simpa using h1)]

theorem putAll_other {p : Pictures K} {d : List (List Char)} {W : List (List Char × Picture K)} {q : List Char} (h : ∀ e ∈ W, e.1 ≠ q) :
    (p.putAll d W).file q = p.file q := by
  show ((W.reverse.find? (fun e => e.1 = q)).map (·.2)).or (p.file q) = _
  rw [List.find?_eq_none.2 (fun e he => by simpa using h e (List.mem_reverse.1 he))]
  rfl

theorem savefig_ok {p : Pictures K} {dir name : List Char} {x : Picture K} (h : dir ∈ p.dirs) :
    p.savefig dir name x = (p.putAll p.dirs [(dir ++ name, x)], .ok ()) := by
  unfold Pictures.savefig Pictures.putAll
  rw [if_pos h]
  congr 2
  funext q
  by_cases hq : q = dir ++ name
  · subst hq; simp
  · rw [if_neg hq, List.reverse_singleton, List.find?_singleton, if_neg (by simpa using Ne.symm hq)]
    rfl

theorem andThen_ok (p : Pictures K) (f : Pictures K → Pictures K × Except IoErr Unit) : andThen (p, .ok ()) f = f p := rfl

/-- With a second try the picture is saved if only the last directory is missing. -/
theorem saveRetry_ok {p : Pictures K} {parent sub name : List Char} {x : Picture K} (h : parent ∈ p.dirs) :
    ∃ d, p.dirs ⊆ d ∧ p.saveRetry parent sub name x = (p.putAll d [(parent ++ sub ++ name, x)], .ok ()) := by
  unfold Pictures.saveRetry
  by_cases hd : parent ++ sub ∈ p.dirs
  · exact ⟨p.dirs, fun _ h => h, by rw [savefig_ok hd]⟩
  · refine ⟨(parent ++ sub) :: p.dirs, List.subset_cons_self _ _, ?_⟩
    have e : p.savefig (parent ++ sub) name x = (p, .error .os) := by
      unfold Pictures.savefig
      rw [if_neg hd]
    rw [e]
    dsimp only
    unfold Pictures.mkdir andThen
    rw [if_pos ⟨h, hd⟩]
    dsimp only
    rw [savefig_ok List.mem_cons_self]
    rfl

end

/-! ### Names -/

theorem latticeDir_nat (n : Nat) : latticeDir n = "tJ-H".toList ++ Nat.toDigits 10 n := by
  unfold latticeDir
  rw [pyFormat_nat]

theorem pictureName_nat (n a b : Nat) (ext : List Char) :
    pictureName n a b ext = "/tJ-H".toList ++ (Nat.toDigits 10 n ++ ((Nat.toDigits 10 a ++ Nat.toDigits 10 b) ++ ext)) := by
  unfold pictureName
  rw [pyFormat_nat, pyFormat_nat, pyFormat_nat]
  simp only [List.append_assoc]

theorem electronFile_parts (n a b k : Nat) :
    latticeDir n ++ "/SpinDistribution".toList ++ stateDir k ++ pictureName n a b ".png".toList = electronFile n a b k := by
  rw [electronFile_eq, pictureName_nat, latticeDir_nat]
  unfold stateDir
  rw [pyFormat_nat]
  by_cases hk : k = 0
  · rw [if_pos hk, if_pos hk]
    simp only [List.append_assoc]
    rfl
  · rw [if_neg hk, if_neg hk]
    simp only [List.append_assoc]
    rfl

/-- The picture of the spectrum of a sector, `tJ-H{n}/Spectrum/tJ-H{n}{a}{b}.png`. -/
def spectrumFile (n a b : Nat) : List Char := latticeDir n ++ "/Spectrum".toList ++ pictureName n a b ".png".toList

/-- The picture of the amplitudes of a sector. -/
def amplitudeFile (n a b : Nat) : List Char := latticeDir n ++ "/DeterminantsAmplitude".toList ++ pictureName n a b ".png".toList

/-- The sector can be read off the last part of a name. -/
theorem pictureName_inj {n a b a' b' : Nat} (he : DistinctNames (a + b)) (hab : a + b = a' + b')
    (h : pictureName n a b ".png".toList = pictureName n a' b' ".png".toList) : a = a' ∧ b = b' := by
  rw [pictureName_nat, pictureName_nat] at h
  have h := List.append_cancel_right (List.append_cancel_left (List.append_cancel_left h))
  exact C55_sweep_partial n a b a' b' he hab ⟨true, true, true, true, true, true⟩ (by rw [saveName_eq, saveName_eq, h])

theorem spectrum_electron {n a b a' b' k : Nat} : spectrumFile n a b ≠ electronFile n a' b' k := by
  rw [← electronFile_parts]
  unfold spectrumFile
  simp only [List.append_assoc]
  intro h
  have h := List.append_cancel_left h
  have h : some 'e' = some 'i' := by
    have := congrArg (fun l : List Char => l[3]?) h
    simpa using this
  simp at h

theorem spectrum_amplitude {n a b a' b' : Nat} : spectrumFile n a b ≠ amplitudeFile n a' b' := by
  unfold spectrumFile amplitudeFile
  simp only [List.append_assoc]
  intro h
  have h := List.append_cancel_left h
  have := congrArg (fun l : List Char => l[1]?) h
  simp at this

theorem amplitude_electron {n a b a' b' k : Nat} : amplitudeFile n a b ≠ electronFile n a' b' k := by
  rw [← electronFile_parts]
  unfold amplitudeFile
  simp only [List.append_assoc]
  intro h
  have h := List.append_cancel_left h
  have := congrArg (fun l : List Char => l[1]?) h
  simp at this

/-! ### Loaded results -/

section
variable {K : Type} [Field K] [LinearOrder K]

/-- The probabilities depend on the numbers and sizes of a configuration only. -/
theorem probability_congr {c c' : Config} (h1 : c.bond.rows = c'.bond.rows) (h2 : c.nholes = c'.nholes) (h3 : c.nbeta = c'.nbeta)
    (h4 : c.ltype = c'.ltype) (h5 : c.nbh = c'.nbh ∧ c.nbv = c'.nbv ∧ c.nblocs = c'.nblocs) (dets : List (List Nat)) (v : List K) (s : Int) :
    probabilityRectangular c dets v s = probabilityRectangular c' dets v s := by
  have hs : ∀ det site, getSpinSite c det site = getSpinSite c' det site := by
    intro det site
    unfold getSpinSite
    rw [h2, h3]
  have hp : probabilitySpin c dets v s = probabilitySpin c' dets v s := by
    unfold probabilitySpin Config.nsites
    simp only [hs, h1]
  unfold probabilityRectangular
  simp only [hp, h4, h5.1, h5.2.1, h5.2.2]

theorem electronPanels_congr {c c' : Config} (h1 : c.bond.rows = c'.bond.rows) (h2 : c.nholes = c'.nholes) (h3 : c.nbeta = c'.nbeta)
    (h4 : c.ltype = c'.ltype) (h5 : c.nbh = c'.nbh ∧ c.nbv = c'.nbv ∧ c.nblocs = c'.nblocs) (dets : List (List Nat)) (vs : List (List K)) (k : Nat) :
    electronPanels c dets vs k = electronPanels c' dets vs k := by
  unfold electronPanels
  simp only [probability_congr h1 h2 h3 h4 h5]

end

/-- The columns of an array given by its rows. -/
theorem columns_ofFn {K : Type} [Zero K] {d : Nat} (hd : 0 < d) (vs : List (Fin d → K)) :
    columns (List.ofFn (fun i => vs.map (fun v => v i))) = vs.map List.ofFn := by
  obtain ⟨d, rfl⟩ : ∃ k, d = k + 1 := ⟨d - 1, by omega⟩
  unfold columns
  rw [List.ofFn_succ, List.headD_cons, List.length_map]
  refine List.ext_getElem (by simp) fun k h1 h2 => ?_
  have hk : k < vs.length := by simpa using h1
  rw [List.getElem_map, List.getElem_range, List.getElem_map, ← List.ofFn_succ (f := fun i => vs.map (fun v => v i)), List.map_ofFn]
  congr 1
  funext i
  simp [hk]

/-! ### What the pictures should show -/

/-- At each energy as many segments as its degeneracy, numbered from 1. -/
def ShownSpectrum (segs : List (Nat × ℝ)) (energies : List ℝ) : Prop := segs.Nodup ∧ ∀ k x, (k, x) ∈ segs ↔ 1 ≤ k ∧ k ≤ energies.count x

/-- The probabilities of an up spin, of a down spin and their difference, from the top of the lattice to the bottom. -/
def ShownElectrons (c : Config) (dets : List (List Nat)) (v : List ℝ) (p : NdArr ℝ × NdArr ℝ × NdArr ℝ) : Prop :=
  ∀ x y : Nat, x < c.nbh * c.nblocs → y < c.nbv * c.nblocs → ∀ s : Fin c.nsites,
    gridPos (c.nbh * c.nblocs) s = ((x : Int), ((c.nbv * c.nblocs - 1 - y : Nat) : Int)) →
    p.1.drawnAt x y = born (amp c dets v) s .up / vdot v v ∧ p.2.1.drawnAt x y = born (amp c dets v) s .down / vdot v v ∧
      p.2.2.drawnAt x y = (born (amp c dets v) s .up - born (amp c dets v) s .down) / vdot v v

/-- In the i-th cell the numbers of coefficients of the i-th state above the abscissae. -/
def ShownAmplitudes (nbPlot : Nat) (vs : List (List ℝ)) (curves : List ((Nat × Nat) × (List ℝ × List Nat))) : Prop :=
  curves.length = min (Nat.sqrt nbPlot * Nat.sqrt nbPlot) vs.length ∧
  ∀ i (h : i < curves.length) (h' : i < vs.length), curves[i].1.1 * Nat.sqrt nbPlot + curves[i].1.2 = i ∧ curves[i].1.2 < Nat.sqrt nbPlot ∧
    curves[i].2.2 = curves[i].2.1.map (fun x => (vs[i].filter (fun a => x ≤ |a|)).length) ∧
    ∀ j (hj : j < curves[i].2.1.length), curves[i].2.1[j] = -(5 / 10000) + j * (1 / 10000)

/-- The pictures of one sector, in the order in which they are saved. -/
def sectorWrites (n a b : Nat) (o : InputPlotting) (segs : List (Nat × ℝ)) (el : Nat → NdArr ℝ × NdArr ℝ × NdArr ℝ) (nst : Nat)
    (curves : List ((Nat × Nat) × (List ℝ × List Nat))) : List (List Char × Picture ℝ) :=
  (if o.spectrum then [(spectrumFile n a b, .spectrum segs)] else []) ++
  ((if o.electrons ∧ 0 < a ∧ 0 < b then (List.range (min o.nbExcited nst)).map (fun k => (electronFile n a b k, .electrons (el k).1 (el k).2.1 (el k).2.2))
    else []) ++
  (if o.determinants then [(amplitudeFile n a b, .amplitudes curves)] else []))

/-- The pictures exist where `generate_plots` makes no directory. -/
structure PictureDirs (n : Nat) (o : InputPlotting) (dirs : List (List Char)) : Prop where
  spectrum : o.spectrum = true → latticeDir n ++ "/Spectrum".toList ∈ dirs
  electrons : o.electrons = true → latticeDir n ++ "/SpinDistribution".toList ∈ dirs
  determinants : o.determinants = true → latticeDir n ++ "/DeterminantsAmplitude".toList ∈ dirs

theorem PictureDirs.mono {n : Nat} {o : InputPlotting} {d d' : List (List Char)} (h : PictureDirs n o d) (hd : d ⊆ d') : PictureDirs n o d' :=
  ⟨fun e => hd (h.spectrum e), fun e => hd (h.electrons e), fun e => hd (h.determinants e)⟩

theorem amplitudePicture_spec (vs : List (List ℝ)) (k : Nat) (hk : 4 ≤ k) (hv : ∀ v ∈ vs, v ≠ []) :
    ∃ curves, amplitudePicture vs k = .ok curves ∧ ShownAmplitudes k vs curves := by
  obtain ⟨cells, c1, c2, c3, c4, c5⟩ := C78_cells_partial k vs.length hk
  have hcur : ∀ v : List ℝ, ∃ z : List ℝ × List Nat, v ≠ [] → amplitudeCurve v = .ok z ∧ z.2 = z.1.map (fun x => (v.filter (fun a => x ≤ |a|)).length) ∧
      ∀ j (hj : j < z.1.length), z.1[j] = -(5 / 10000) + j * (1 / 10000) := by
    intro v
    by_cases h : v = []
    · exact ⟨([], []), fun h' => absurd h h'⟩
    · obtain ⟨xs, ys, h1, h2, h3, _⟩ := C65_curve v h
      exact ⟨(xs, ys), fun _ => ⟨h1, h2, h3⟩⟩
  choose z hz using hcur
  refine ⟨(cells.zip vs).map (fun p => (p.1, z p.2)), ?_, ?_, ?_⟩
  · unfold amplitudePicture
    refine bind_ok c1 (mapM_ok fun p hp => ?_)
    rw [(hz p.2 (hv _ (List.of_mem_zip hp).2)).1]
    rfl
  · rw [List.length_map, List.length_zip, c2]
    omega
  · intro i h h'
    have hi : i < cells.length := by
      rw [List.length_map, List.length_zip] at h
      omega
    rw [List.getElem_map, List.getElem_zip]
    obtain ⟨_, z2, z3⟩ := hz vs[i] (hv _ (List.getElem_mem h'))
    exact ⟨c5 i hi, (c4 _ (List.getElem_mem hi)).2, z2, z3⟩

/-- The pictures of the electrons of one sector. -/
theorem electrons_fold {L : Loaded ℝ} {n a b nst : Nat} (el : Nat → NdArr ℝ × NdArr ℝ × NdArr ℝ) (hn : L.config.plain.nsites = n)
    (ha : L.config.plain.nalpha = a) (hb : L.config.nbeta = b)
    (hel : ∀ k < nst, electronPanels L.config.plain L.determinants (columns L.eigenstates.eigvects) k = .ok (some (el k)))
    (hno : ∀ k, nst ≤ k → electronPanels L.config.plain L.determinants (columns L.eigenstates.eigvects) k = .ok none) (p : Pictures ℝ)
    (hd : latticeDir n ++ "/SpinDistribution".toList ∈ p.dirs) : ∀ m : Nat, ∃ d, p.dirs ⊆ d ∧
      (List.range m).foldl (fun r k => andThen r (fun p => saveElectrons p L k)) (p, .ok ()) =
        (p.putAll d ((List.range (min m nst)).map (fun k => (electronFile n a b k, .electrons (el k).1 (el k).2.1 (el k).2.2))), .ok ()) := by
  intro m
  induction m with
  | zero => exact ⟨p.dirs, fun _ h => h, by simp [putAll_nil]⟩
  | succ m ih =>
    obtain ⟨d, h1, h2⟩ := ih
    rw [List.range_succ, List.foldl_append, h2]
    simp only [List.foldl_cons, List.foldl_nil, andThen]
    by_cases hm : m < nst
    · set q := p.putAll d ((List.range (min m nst)).map (fun k => (electronFile n a b k, .electrons (el k).1 (el k).2.1 (el k).2.2))) with hq
      obtain ⟨d', h3, h4⟩ := saveRetry_ok (p := q) (sub := stateDir m) (name := pictureName n a b ".png".toList)
        (x := .electrons (el m).1 (el m).2.1 (el m).2.2) (show latticeDir n ++ "/SpinDistribution".toList ∈ d from h1 hd)
      refine ⟨d', fun _ h => h3 (h1 h), ?_⟩
      unfold saveElectrons compute
      rw [hel m hm, hn, ha, hb]
      dsimp only
      rw [h4, hq, putAll_putAll, electronFile_parts, show min (m + 1) nst = min m nst + 1 by omega, List.range_succ, List.map_append,
        show min m nst = m by omega]
      rfl
    · refine ⟨d, h1, ?_⟩
      unfold saveElectrons compute
      rw [hno m (by omega), show min (m + 1) nst = min m nst by omega]

/-- The plots of one sector. -/
theorem drawPlots_ok {D : Data ℝ} {w a b : Nat} {r : InitialResult} {t : Times ℝ} {L : Loaded ℝ} (hL : StoredRun D w b r t L)
    (hc : RectConf D.config D.config.nbh D.config.nbv D.config.nblocs) (hab : a + b + D.config.nholes = D.config.nsites) (o : InputPlotting)
    (hho : o.holes = false ∨ D.config.nholes = 0) (hpl : o.determinants = true → 4 ≤ o.nbPlot) :
    ∃ segs el curves, ShownSpectrum segs r.eig.eigvals ∧
      (∀ k (hk : k < r.eig.eigvects.length), ShownElectrons { D.config with nbeta := b } L.determinants (List.ofFn r.eig.eigvects[k]) (el k)) ∧
      (o.determinants = true → ShownAmplitudes o.nbPlot (r.eig.eigvects.map List.ofFn) curves) ∧
      ∀ (c : Config) (p : Pictures ℝ), c.nholes = D.config.nholes → c.nbeta = b → c.nalpha = a → PictureDirs D.config.nsites o p.dirs →
        ∃ d, p.dirs ⊆ d ∧ drawPlots c o L none p =
          (p.putAll d (sectorWrites D.config.nsites a b o segs el r.eig.eigvects.length curves), .ok ()) := by
  have hn : L.config.plain.nsites = D.config.nsites := hL.rows
  have ha : L.config.plain.nalpha = a := by
    show ((L.config.plain.nsites : Int) - L.config.nholes - L.config.nbeta) = a
    rw [hn, hL.holes, hL.down]
    omega
  have hb := hL.down
  have hdim : r.ham.dim = L.determinants.length := hL.dim.2
  have hpos : 0 < r.ham.dim := by
    have h1 : L.determinants.length = if D.config.nholes + b ≤ D.config.nsites then
        D.config.nsites.choose D.config.nholes * (D.config.nsites - D.config.nholes).choose b else 0 :=
      (C02_dimension _ _ hL.basis).trans (C02_dimension_value _)
    rw [hdim, h1, if_pos (by omega)]
    exact Nat.mul_pos (Nat.choose_pos (show D.config.nholes ≤ D.config.nsites by omega))
      (Nat.choose_pos (show b ≤ D.config.nsites - D.config.nholes by omega))
  have hcol : columns L.eigenstates.eigvects = r.eig.eigvects.map List.ofFn := by rw [hL.states, columns_ofFn hpos]
  obtain ⟨levels, segs, s1, s2, _, s3, s4⟩ := C64_segments r.eig.eigvals (r.eig.eigvals.length + 1) (by omega)
  have hel : ∀ k, ∃ e : NdArr ℝ × NdArr ℝ × NdArr ℝ, ∀ hk : k < r.eig.eigvects.length,
      electronPanels L.config.plain L.determinants (columns L.eigenstates.eigvects) k = .ok (some e) ∧
      ShownElectrons { D.config with nbeta := b } L.determinants (List.ofFn r.eig.eigvects[k]) e := by
    intro k
    by_cases hk : k < r.eig.eigvects.length
    · obtain ⟨A, B, C, e1, e2⟩ := C96_third_panel { D.config with nbeta := b } (hc.with_nbeta b) L.determinants hL.basis
        (show D.config.nholes + b ≤ D.config.nsites by omega) (columns L.eigenstates.eigvects) k (List.ofFn r.eig.eigvects[k])
        (by rw [hcol, List.getElem?_map, List.getElem?_eq_getElem hk]; rfl) (by rw [List.length_ofFn, hdim])
      refine ⟨(A, B, C), fun _ => ⟨?_, e2⟩⟩
      rw [← e1]
      exact electronPanels_congr hL.rows hL.holes hL.down (hL.periodic.trans hc.ltype.symm) hL.sizes _ _ _
    · exact ⟨(⟨0, 0, fun _ _ => 0⟩, ⟨0, 0, fun _ _ => 0⟩, ⟨0, 0, fun _ _ => 0⟩), fun h => absurd h hk⟩
  choose el hel using hel
  have hno : ∀ k, r.eig.eigvects.length ≤ k → electronPanels L.config.plain L.determinants (columns L.eigenstates.eigvects) k = .ok none := by
    intro k hk
    unfold electronPanels
    rw [hcol, List.getElem?_eq_none (by simpa using hk)]
  have hcur : ∃ curves, o.determinants = true → amplitudePicture (r.eig.eigvects.map List.ofFn) o.nbPlot = .ok curves ∧
      ShownAmplitudes o.nbPlot (r.eig.eigvects.map List.ofFn) curves := by
    by_cases h : o.determinants = true
    · obtain ⟨curves, h1, h2⟩ := amplitudePicture_spec (r.eig.eigvects.map List.ofFn) o.nbPlot (hpl h) (by
        intro v hv e
        obtain ⟨u, _, rfl⟩ := List.mem_map.1 hv
        have := congrArg List.length e
        rw [List.length_ofFn] at this
        simp at this
        omega)
      exact ⟨curves, fun _ => ⟨h1, h2⟩⟩
    · exact ⟨[], fun h' => absurd h' h⟩
  obtain ⟨curves, hcur⟩ := hcur
  refine ⟨segs, el, curves, ⟨s3, s4⟩, fun k hk => (hel k hk).2, fun h => (hcur h).2, ?_⟩
  intro c p c1 c2 c3 hp
  have h1 : ∃ d, p.dirs ⊆ d ∧ (if o.spectrum = true then saveSpectrum p L else (p, .ok ())) =
      (p.putAll d (if o.spectrum then [(spectrumFile D.config.nsites a b, .spectrum segs)] else []), .ok ()) := by
    refine ⟨p.dirs, fun _ h => h, ?_⟩
    by_cases h : o.spectrum = true
    · rw [if_pos h, if_pos h]
      unfold saveSpectrum compute
      rw [hL.energies, bind_ok s1 s2, hn, ha, hb]
      dsimp only
      rw [savefig_ok (hp.spectrum h)]
      rfl
    · rw [if_neg h, if_neg h, putAll_nil]
  obtain ⟨d1, p1, e1⟩ := h1
  have h3 : ∀ q : Pictures ℝ, p.dirs ⊆ q.dirs → ∃ d, q.dirs ⊆ d ∧ (if o.electrons = true ∧ 0 < c.nalpha * c.nbeta then
      (List.range o.nbExcited).foldl (fun r k => andThen r (fun p => saveElectrons p L k)) (q, .ok ()) else (q, .ok ())) =
      (q.putAll d (if o.electrons ∧ 0 < a ∧ 0 < b then (List.range (min o.nbExcited r.eig.eigvects.length)).map (fun k =>
        (electronFile D.config.nsites a b k, .electrons (el k).1 (el k).2.1 (el k).2.2)) else []), .ok ()) := by
    intro q hq
    have hiff : 0 < c.nalpha * c.nbeta ↔ 0 < a ∧ 0 < b := by
      rw [c2, c3]
      norm_cast
      constructor
      · intro h
        exact ⟨Nat.pos_of_ne_zero (by rintro rfl; simp at h), Nat.pos_of_ne_zero (by rintro rfl; simp at h)⟩
      · rintro ⟨x, y⟩
        exact Nat.mul_pos x y
    by_cases h : o.electrons = true ∧ 0 < a ∧ 0 < b
    · obtain ⟨d, f1, f2⟩ := electrons_fold el hn ha hb (fun k hk => (hel k hk).1) hno q (hq (hp.electrons h.1)) o.nbExcited
      exact ⟨d, f1, by rw [if_pos ⟨h.1, hiff.2 h.2⟩, if_pos h, f2]⟩
    · exact ⟨q.dirs, fun _ h => h, by rw [if_neg (fun h' => h ⟨h'.1, hiff.1 h'.2⟩), if_neg h, putAll_nil]⟩
  have h4 : ∀ q : Pictures ℝ, p.dirs ⊆ q.dirs → (if o.determinants = true then saveAmplitudes q L o.nbPlot else (q, .ok ())) =
      (q.putAll q.dirs (if o.determinants then [(amplitudeFile D.config.nsites a b, .amplitudes curves)] else []), .ok ()) := by
    intro q hq
    by_cases h : o.determinants = true
    · rw [if_pos h, if_pos h]
      unfold saveAmplitudes compute
      rw [hcol, (hcur h).1, hn, ha, hb]
      dsimp only
      rw [savefig_ok (hq (hp.determinants h))]
      rfl
    · rw [if_neg h, if_neg h, putAll_nil]
  have h2 : ¬ (0 < c.nholes ∧ o.holes = true) := by
    rintro ⟨x, y⟩
    rcases hho with h | h
    · rw [h] at y; cases y
    · omega
  unfold drawPlots
  rw [e1, andThen_ok, if_neg h2, andThen_ok]
  obtain ⟨d3, p3, e3⟩ := h3 (p.putAll d1 (if o.spectrum then [(spectrumFile D.config.nsites a b, .spectrum segs)] else [])) p1
  rw [e3, andThen_ok, h4 _ (fun _ h => p3 (p1 h)), andThen_ok]
  refine ⟨d3, fun _ h => p3 (p1 h), ?_⟩
  rw [putAll_putAll, putAll_putAll]
  rfl

/-- The loop over the sectors. -/
theorem plotLoop_ok {K : Type} [Field K] [LinearOrder K] [FloorRing K] {fs : FileSys K} {c : Config} (hn : c.nsites ≠ 0) {b : BoolInteractions}
    {o : InputPlotting} (W : Nat → List (List Char × Picture K)) : ∀ (as : List Nat),
      (∀ a ∈ as, ∀ c' p, c'.nholes = c.nholes → c'.nbeta = c.nsites - c.nholes - a → c'.nsites = c.nsites → PictureDirs c.nsites o p.dirs →
        ∃ d, p.dirs ⊆ d ∧ generatePlotsConfiguration fs c' b o p = (p.putAll d (W a), .ok ())) →
      ∀ p, PictureDirs c.nsites o p.dirs → ∃ d, p.dirs ⊆ d ∧ plotLoop fs c.bond c.nsites c.nholes b o as p = (p.putAll d (as.flatMap W), .ok ()) := by
  intro as
  induction as with
  | nil => intro _ p _; exact ⟨p.dirs, fun _ h => h, rfl⟩
  | cons a as ih =>
    intro h p hp
    obtain ⟨c', hi, i1, i2, i3⟩ : ∃ c', Config.init c.bond c.nholes (c.nsites - c.nholes - a) = .ok c' ∧ c'.nholes = c.nholes ∧
        c'.nbeta = c.nsites - c.nholes - a ∧ c'.nsites = c.nsites := by
      unfold Config.init
      rw [if_neg (show ¬ c.bond.rows = 0 from hn)]
      exact ⟨_, rfl, rfl, rfl, rfl⟩
    unfold plotLoop
    rw [hi]
    dsimp only
    obtain ⟨d, h1, h2⟩ := h a List.mem_cons_self c' p i1 i2 i3 hp
    rw [h2, andThen_ok]
    obtain ⟨d', h3, h4⟩ := ih (fun a' h' => h a' (List.mem_cons_of_mem _ h')) (p.putAll d (W a)) (hp.mono h1)
    refine ⟨d', fun _ h => h3 (h1 h), ?_⟩
    rw [h4, putAll_putAll, List.flatMap_cons]

/-! ### C114 -/

/-- C114, part: after a sweep over an unrestricted rectangular lattice whose number of electrons satisfies `DistinctNames` (at most 10
for instance), `generate_plots` without the pictures of the holes and of the embedding ends without exception; afterwards every picture that was asked for exists and shows the results of its sector, and
no other picture has changed. The directories for which the code has no `mkdir` must exist. Missing: false with the pictures of the holes
(`C114_stops`) and for all other numbers of electrons (`C113_always_overwritten`, `C97_collision`). -/
theorem C114_pictures_partial (E : Env) (R : Nat → RunLib) (hq : ∀ a, (R a).lin.ExactQr) (hrand : ∀ a d m, ((R a).lin.rand d m).length = m)
    (hs : ∀ a, RowSort (R a).srt) (fs : FileSys ℝ) (hr : fs.root = true) (D : Data ℝ)
    (hc : RectConf D.config D.config.nbh D.config.nbv D.config.nblocs) (hf : D.config.Full) (hh : D.config.nholes ≤ D.config.nsites)
    (ho : D.spinMult = true → HolesInOrder E.toSetSem D.config) (hst : 1 ≤ D.diag.stp)
    (hv : D.diag.count (D.config.nsites.choose D.config.nholes) ≤ D.config.nsites.choose D.config.nholes)
    (hg : ∀ rows, D.diag.guess = some rows → rows.length = D.config.nsites.choose D.config.nholes ∧
      (rows.headD []).length = D.diag.count (D.config.nsites.choose D.config.nholes)) (h10 : DistinctNames (D.config.nsites - D.config.nholes))
    (o : InputPlotting) (hemb : o.embedding.neel = false ∧ o.embedding.stat = false ∧ o.embedding.dyn = false)
    (hho : o.holes = false ∨ D.config.nholes = 0) (hpl : o.determinants = true → 4 ≤ o.nbPlot) (p : Pictures ℝ)
    (hp : PictureDirs D.config.nsites o p.dirs) :
    ∃ P : Pictures ℝ, generatePlots (performConfigurations E R fs D).1 D.config D.bools o p = (P, .ok ()) ∧
    (∀ a b, a + b + D.config.nholes = D.config.nsites → ∃ r, performInitial E (R a).lin (R a).swap (sectorData D a) = .ok r ∧
      (o.spectrum = true → ∃ segs, P.file (spectrumFile D.config.nsites a b) = some (.spectrum segs) ∧ ShownSpectrum segs r.eig.eigvals) ∧
      (o.electrons = true → 0 < a → 0 < b → ∀ k (hk : k < r.eig.eigvects.length), k < o.nbExcited →
        ∃ x y z, P.file (electronFile D.config.nsites a b k) = some (.electrons x y z) ∧
          ShownElectrons { D.config with nbeta := b } r.determinants (List.ofFn r.eig.eigvects[k]) (x, y, z)) ∧
      (o.determinants = true → ∃ curves, P.file (amplitudeFile D.config.nsites a b) = some (.amplitudes curves) ∧
        ShownAmplitudes o.nbPlot (r.eig.eigvects.map List.ofFn) curves)) ∧
    ∀ q, (∀ a b, a + b + D.config.nholes = D.config.nsites → q ≠ spectrumFile D.config.nsites a b ∧ q ≠ amplitudeFile D.config.nsites a b ∧
      ∀ k : Nat, q ≠ electronFile D.config.nsites a b k) → P.file q = p.file q := by
  set n := D.config.nsites with hndef
  set N := n - D.config.nholes with hNdef
  obtain ⟨_, hsw, _⟩ := C113_sweep_partial E R hq hrand hs fs hr D _ _ _ hc hf hh ho hst hv hg h10
  set fs' := (performConfigurations E R fs D).1 with hfs
  have hsec : ∀ a, ∃ r segs el curves, a ≤ N → performInitial E (R a).lin (R a).swap (sectorData D a) = .ok r ∧
      ShownSpectrum segs r.eig.eigvals ∧
      (∀ k (hk : k < r.eig.eigvects.length), ShownElectrons { D.config with nbeta := N - a } r.determinants (List.ofFn r.eig.eigvects[k]) (el k)) ∧
      (o.determinants = true → ShownAmplitudes o.nbPlot (r.eig.eigvects.map List.ofFn) curves) ∧
      ∀ c' p, c'.nholes = D.config.nholes → c'.nbeta = n - D.config.nholes - a → c'.nsites = n → PictureDirs n o p.dirs →
        ∃ d, p.dirs ⊆ d ∧ generatePlotsConfiguration fs' c' D.bools o p =
          (p.putAll d (sectorWrites n a (N - a) o segs el r.eig.eigvects.length curves), .ok ()) := by
    intro a
    by_cases ha : a ≤ N
    · obtain ⟨r, L, h1, _, h3, h4⟩ := hsw a (N - a) (by omega)
      obtain ⟨segs, el, curves, g1, g2, g3, g4⟩ := drawPlots_ok h4 hc (a := a) (by omega) o hho hpl
      have hdet : L.determinants = r.determinants := Except.ok.inj (h4.basis.symm.trans (performInitial_ok h1).1)
      refine ⟨r, segs, el, curves, fun _ => ⟨h1, g1, fun k hk => hdet ▸ g2 k hk, g3, ?_⟩⟩
      intro c' p' e1 e2 e3 hp'
      have e4 : c'.nalpha = a := by
        show ((c'.nsites : Int) - c'.nholes - c'.nbeta) = a
        rw [e1, e2, e3]
        omega
      obtain ⟨d, d1, d2⟩ := g4 c' p' e1 e2 e4 hp'
      refine ⟨d, d1, ?_⟩
      have hfile : plotFiles c' D.bools o.embedding = [saveName n a (N - a : Nat) D.bools] := by
        unfold plotFiles
        dsimp only
        rw [hemb.1, hemb.2.1, hemb.2.2, e4, e2, e3]
        rfl
      unfold generatePlotsConfiguration
      rw [hfile, show [saveName n a (N - a : Nat) D.bools].mapM fs'.load = .ok [L] by
        rw [List.mapM_cons, h3]; rfl]
      exact d2
    · obtain ⟨r, _⟩ := hsw 0 N (by omega)
      exact ⟨r, [], fun _ => (⟨0, 0, fun _ _ => 0⟩, ⟨0, 0, fun _ _ => 0⟩, ⟨0, 0, fun _ _ => 0⟩), [], fun h => absurd h ha⟩
  choose r segs el curves hsec using hsec
  set W : Nat → List (List Char × Picture ℝ) := fun a => sectorWrites n a (N - a) o (segs a) (el a) (r a).eig.eigvects.length (curves a) with hW
  obtain ⟨d, d1, d2⟩ := plotLoop_ok (fs := fs') (c := D.config) (rect_sites hc) (b := D.bools) (o := o) W (List.range (n + 1 - D.config.nholes)) (by
    intro a ha c' p' e1 e2 e3 hp'
    have := List.mem_range.1 ha
    exact (hsec a (by omega)).2.2.2.2 c' p' e1 e2 e3 hp') p hp
  set all := (List.range (n + 1 - D.config.nholes)).flatMap W with hall
  have hmem : ∀ e : List Char × Picture ℝ, e ∈ all ↔ ∃ a, a ≤ N ∧
      ((o.spectrum = true ∧ e = (spectrumFile n a (N - a), .spectrum (segs a))) ∨
       ((o.electrons = true ∧ 0 < a ∧ 0 < N - a) ∧ ∃ k < min o.nbExcited (r a).eig.eigvects.length,
         e = (electronFile n a (N - a : Nat) k, .electrons (el a k).1 (el a k).2.1 (el a k).2.2)) ∨
       (o.determinants = true ∧ e = (amplitudeFile n a (N - a), .amplitudes (curves a)))) := by
    intro e
    rw [hall, List.mem_flatMap]
    refine exists_congr fun a => and_congr ?_ ?_
    · rw [List.mem_range]; omega
    · rw [hW]
      unfold sectorWrites
      rw [List.mem_append, List.mem_append]
      refine or_congr ?_ (or_congr ?_ ?_)
      · split_ifs with h <;> simp [h]
      · split_ifs with h
        · simp only [List.mem_map, List.mem_range, h, true_and, and_self]
          exact ⟨fun ⟨k, h1, h2⟩ => ⟨k, h1, h2.symm⟩, fun ⟨k, h1, h2⟩ => ⟨k, h1, h2.symm⟩⟩
        · exact ⟨fun h' => absurd h' List.not_mem_nil, fun ⟨h', _⟩ => absurd h' h⟩
      · split_ifs with h <;> simp [h]
  refine ⟨p.putAll d all, d2, ?_, ?_⟩
  · intro a b hab
    have hb : b = N - a := by omega
    subst hb
    have ha : a ≤ N := by omega
    obtain ⟨h1, h2, h3, h4, _⟩ := hsec a ha
    refine ⟨r a, h1, ?_, ?_, ?_⟩
    · intro hsp
      refine ⟨segs a, putAll_file ((hmem _).2 ⟨a, ha, Or.inl ⟨hsp, rfl⟩⟩) ?_, h2⟩
      intro e he heq
      obtain ⟨a', ha', ⟨_, rfl⟩ | ⟨_, k, _, rfl⟩ | ⟨_, rfl⟩⟩ := (hmem e).1 he
      · obtain ⟨rfl, _⟩ := pictureName_inj (by rwa [show a' + (N - a') = N by omega]) (by omega) (List.append_cancel_left heq)
        rfl
      · exact absurd heq.symm spectrum_electron
      · exact absurd heq.symm spectrum_amplitude
    · intro hel ha0 hb0 k hk hk'
      refine ⟨(el a k).1, (el a k).2.1, (el a k).2.2, putAll_file ((hmem _).2 ⟨a, ha, Or.inr (Or.inl ⟨⟨hel, ha0, hb0⟩, k, by omega, rfl⟩)⟩) ?_, h3 k hk⟩
      intro e he heq
      obtain ⟨a', ha', ⟨_, rfl⟩ | ⟨_, k', _, rfl⟩ | ⟨_, rfl⟩⟩ := (hmem e).1 he
      · exact absurd heq spectrum_electron
      · obtain ⟨_, rfl, _, rfl⟩ := C97_names_partial n a' (N - a') k' n a (N - a) k (by rwa [show a' + (N - a') = N by omega]) (by omega) heq
        rfl
      · exact absurd heq amplitude_electron
    · intro hde
      refine ⟨curves a, putAll_file ((hmem _).2 ⟨a, ha, Or.inr (Or.inr ⟨hde, rfl⟩)⟩) ?_, h4 hde⟩
      intro e he heq
      obtain ⟨a', ha', ⟨_, rfl⟩ | ⟨_, k', _, rfl⟩ | ⟨_, rfl⟩⟩ := (hmem e).1 he
      · exact absurd heq spectrum_amplitude
      · exact absurd heq.symm amplitude_electron
      · obtain ⟨rfl, _⟩ := pictureName_inj (by rwa [show a' + (N - a') = N by omega]) (by omega) (List.append_cancel_left heq)
        rfl
  · intro q hq
    refine putAll_other fun e he => ?_
    obtain ⟨a, ha, ⟨_, rfl⟩ | ⟨_, k, _, rfl⟩ | ⟨_, rfl⟩⟩ := (hmem e).1 he
    · exact (hq a (N - a) (by omega)).1.symm
    · exact ((hq a (N - a) (by omega)).2.2 k).symm
    · exact (hq a (N - a) (by omega)).2.1.symm

/-- C114 fails with the pictures of the holes: whatever the files contain, `generate_plots` ends with an exception in the first sector that
reaches them, and at most one picture, a spectrum, has been saved. -/
theorem C114_stops_anyway {K : Type} [Field K] [LinearOrder K] [FloorRing K] (fs : FileSys K) (c : Config) (hh : c.nholes ≤ c.nsites)
    (hpos : 0 < c.nholes) (b : BoolInteractions) (o : InputPlotting) (hho : o.holes = true) (p : Pictures K) :
    ∃ e, (generatePlots fs c b o p).2 = .error e ∧ (generatePlots fs c b o p).1.dirs = p.dirs ∧
      ∃ q0 x, ∀ q, (generatePlots fs c b o p).1.file q = p.file q ∨ q = q0 ∧ (generatePlots fs c b o p).1.file q = some (.spectrum x) := by
  have hn : c.nsites ≠ 0 := by omega
  obtain ⟨c', hi, i1, i2, i3⟩ : ∃ c', Config.init c.bond c.nholes (c.nsites - c.nholes - 0) = .ok c' ∧ c'.nholes = c.nholes ∧
      c'.nbeta = c.nsites - c.nholes - 0 ∧ c'.nsites = c.nsites := by
    unfold Config.init
    rw [if_neg (show ¬ c.bond.rows = 0 from hn)]
    exact ⟨_, rfl, rfl, rfl, rfl⟩
  have hstop : ∃ e, (generatePlotsConfiguration fs c' b o p).2 = .error e ∧ (generatePlotsConfiguration fs c' b o p).1.dirs = p.dirs ∧
      ∃ q0 x, ∀ q, (generatePlotsConfiguration fs c' b o p).1.file q = p.file q ∨
        q = q0 ∧ (generatePlotsConfiguration fs c' b o p).1.file q = some (.spectrum x) := by
    unfold generatePlotsConfiguration
    have hne : ∀ Ls, (plotFiles c' b o.embedding).mapM fs.load = .ok Ls → Ls ≠ [] := by
      intro Ls h e
      subst e
      obtain ⟨f, fs', hpf⟩ : ∃ f fs', plotFiles c' b o.embedding = f :: fs' := ⟨_, _, rfl⟩
      rw [hpf, List.mapM_cons] at h
      cases h1 : fs.load f with
      | error e => rw [h1] at h; cases h
      | ok L =>
        rw [h1] at h
        cases h2 : fs'.mapM fs.load with
        | error e => rw [h2] at h; cases h
        | ok Ls => rw [h2] at h; cases h
    cases hm : (plotFiles c' b o.embedding).mapM fs.load with
    | error e => exact ⟨e, rfl, rfl, [], [], fun q => Or.inl rfl⟩
    | ok Ls =>
      cases Ls with
      | nil => exact absurd rfl (hne _ hm)
      | cons L Ms =>
        dsimp only
        have hhole : ∀ p' : Pictures K, ∃ e, saveHoles p' L o.nbPlot = (p', .error e) := by
          intro p'
          obtain ⟨e, he⟩ := C95_never_saved L.config.plain L.determinants (columns L.eigenstates.eigvects) o.nbPlot L.bools
          refine ⟨.py e, ?_⟩
          unfold saveHoles compute
          rw [he]
        have hspec : (∃ e, (if o.spectrum = true then saveSpectrum p L else (p, .ok ())) = (p, .error e)) ∨
            ∃ p' : Pictures K, (if o.spectrum = true then saveSpectrum p L else (p, .ok ())) = (p', .ok ()) ∧ p'.dirs = p.dirs ∧
              ∃ q0 x, ∀ q, p'.file q = p.file q ∨ q = q0 ∧ p'.file q = some (.spectrum x) := by
          by_cases h : o.spectrum = true
          · rw [if_pos h]
            unfold saveSpectrum compute
            cases spectrumLevels (L.eigenstates.eigvals.length + 1) L.eigenstates.eigvals >>= orbitals with
            | error e => exact Or.inl ⟨.py e, rfl⟩
            | ok segs =>
              dsimp only
              unfold Pictures.savefig
              split_ifs with hd
              · refine Or.inr ⟨_, rfl, rfl, (latticeDir L.config.plain.nsites ++ "/Spectrum".toList) ++
                    pictureName L.config.plain.nsites L.config.plain.nalpha L.config.nbeta ".png".toList, segs, fun q => ?_⟩
                by_cases hq : q = (latticeDir L.config.plain.nsites ++ "/Spectrum".toList) ++
                    pictureName L.config.plain.nsites L.config.plain.nalpha L.config.nbeta ".png".toList
                · exact Or.inr ⟨hq, if_pos hq⟩
                · exact Or.inl (if_neg hq)
              · exact Or.inl ⟨.os, rfl⟩
          · rw [if_neg h]
            exact Or.inr ⟨p, rfl, rfl, [], [], fun q => Or.inl rfl⟩
        unfold drawPlots
        rcases hspec with ⟨e, h⟩ | ⟨p', h, hd, hq⟩
        · rw [h]
          exact ⟨e, rfl, rfl, [], [], fun q => Or.inl rfl⟩
        · rw [h, andThen_ok, if_pos ⟨by omega, hho⟩]
          obtain ⟨e, he⟩ := hhole p'
          rw [he]
          exact ⟨e, rfl, hd, hq⟩
  obtain ⟨e, s1, s2, s3⟩ := hstop
  have hgen : generatePlots fs c b o p = generatePlotsConfiguration fs c' b o p := by
    unfold generatePlots
    rw [show c.nsites + 1 - c.nholes = c.nsites - c.nholes + 1 by omega, List.range_succ_eq_map]
    unfold plotLoop
    rw [hi]
    dsimp only
    unfold andThen
    rcases hx : generatePlotsConfiguration fs c' b o p with ⟨P, (x | x)⟩
    · rfl
    · rw [hx] at s1; cases s1
  rw [hgen]
  exact ⟨e, s1, s2, s3⟩

/-- C114 fails with holes and `bool_holes`, as in main.py: after a sweep whose number of electrons satisfies `DistinctNames`, `generate_plots` raises `AttributeError` in the
sector without up spins. The spectrum of this sector is the only picture that is saved. -/
theorem C114_stops (E : Env) (R : Nat → RunLib) (hq : ∀ a, (R a).lin.ExactQr) (hrand : ∀ a d m, ((R a).lin.rand d m).length = m)
    (hs : ∀ a, RowSort (R a).srt) (fs : FileSys ℝ) (hr : fs.root = true) (D : Data ℝ)
    (hc : RectConf D.config D.config.nbh D.config.nbv D.config.nblocs) (hf : D.config.Full) (hh : D.config.nholes ≤ D.config.nsites)
    (ho : D.spinMult = true → HolesInOrder E.toSetSem D.config) (hst : 1 ≤ D.diag.stp)
    (hv : D.diag.count (D.config.nsites.choose D.config.nholes) ≤ D.config.nsites.choose D.config.nholes)
    (hg : ∀ rows, D.diag.guess = some rows → rows.length = D.config.nsites.choose D.config.nholes ∧
      (rows.headD []).length = D.diag.count (D.config.nsites.choose D.config.nholes)) (h10 : DistinctNames (D.config.nsites - D.config.nholes))
    (o : InputPlotting) (hemb : o.embedding.neel = false ∧ o.embedding.stat = false ∧ o.embedding.dyn = false)
    (hho : o.holes = true) (hpos : 0 < D.config.nholes) (hpl : 4 ≤ o.nbPlot) (p : Pictures ℝ) (hp : PictureDirs D.config.nsites o p.dirs) :
    ∃ P : Pictures ℝ, generatePlots (performConfigurations E R fs D).1 D.config D.bools o p = (P, .error (.py .attributeError)) ∧
      (∀ q, q ≠ spectrumFile D.config.nsites 0 (D.config.nsites - D.config.nholes) → P.file q = p.file q) ∧
      ∃ r, performInitial E (R 0).lin (R 0).swap (sectorData D 0) = .ok r ∧ (o.spectrum = true →
        ∃ segs, P.file (spectrumFile D.config.nsites 0 (D.config.nsites - D.config.nholes)) = some (.spectrum segs) ∧
          ShownSpectrum segs r.eig.eigvals) := by
  set n := D.config.nsites with hndef
  set N := n - D.config.nholes with hNdef
  have hn : n ≠ 0 := rect_sites hc
  obtain ⟨_, hsw, _⟩ := C113_sweep_partial E R hq hrand hs fs hr D _ _ _ hc hf hh ho hst hv hg h10
  obtain ⟨r, L, h1, _, h3, hL⟩ := hsw 0 N (by omega)
  set fs' := (performConfigurations E R fs D).1 with hfs
  obtain ⟨c', hi, i1, i2, i3⟩ : ∃ c', Config.init D.config.bond D.config.nholes (n - D.config.nholes - 0) = .ok c' ∧ c'.nholes = D.config.nholes ∧
      c'.nbeta = N ∧ c'.nsites = n := by
    unfold Config.init
    rw [if_neg (show ¬ D.config.bond.rows = 0 from hn)]
    exact ⟨_, rfl, rfl, rfl, rfl⟩
  have i4 : c'.nalpha = (0 : Nat) := by
    show ((c'.nsites : Int) - c'.nholes - c'.nbeta) = (0 : Nat)
    rw [i1, i2, i3]
    omega
  have hLn : L.config.plain.nsites = n := hL.rows
  have hLa : L.config.plain.nalpha = (0 : Nat) := by
    show ((L.config.plain.nsites : Int) - L.config.nholes - L.config.nbeta) = (0 : Nat)
    rw [hLn, hL.holes, hL.down]
    omega
  have hLb : L.config.nbeta = N := hL.down
  obtain ⟨levels, segs, s1, s2, _, s3, s4⟩ := C64_segments r.eig.eigvals (r.eig.eigvals.length + 1) (by omega)
  have hspec : (if o.spectrum = true then saveSpectrum p L else (p, .ok ())) =
      (p.putAll p.dirs (if o.spectrum then [(spectrumFile n 0 N, .spectrum segs)] else []), .ok ()) := by
    by_cases h : o.spectrum = true
    · rw [if_pos h, if_pos h]
      unfold saveSpectrum compute
      rw [hL.energies, bind_ok s1 s2, hLn, hLa, hLb]
      dsimp only
      rw [savefig_ok (hp.spectrum h)]
      rfl
    · rw [if_neg h, if_neg h, putAll_nil]
  have hdim : r.ham.dim = L.determinants.length := hL.dim.2
  have hdpos : 0 < r.ham.dim := by
    have h1 : L.determinants.length = if D.config.nholes + N ≤ n then n.choose D.config.nholes * (n - D.config.nholes).choose N else 0 :=
      (C02_dimension _ _ hL.basis).trans (C02_dimension_value _)
    rw [hdim, h1, if_pos (by omega)]
    exact Nat.mul_pos (Nat.choose_pos hh) (Nat.choose_pos le_rfl)
  have hcol : columns L.eigenstates.eigvects = r.eig.eigvects.map List.ofFn := by rw [hL.states, columns_ofFn hdpos]
  have hholes : ∀ p' : Pictures ℝ, saveHoles p' L o.nbPlot = (p', .error (.py .attributeError)) := by
    intro p'
    obtain ⟨_, e⟩ := C95_panels_partial { D.config with nbeta := N } (hc.with_nbeta N) L.determinants hL.basis
      (show D.config.nholes + N ≤ D.config.nsites by omega) (columns L.eigenstates.eigvects) (by
        intro v hv
        rw [hcol] at hv
        obtain ⟨u, _, rfl⟩ := List.mem_map.1 hv
        rw [List.length_ofFn, hdim]) o.nbPlot hpl L.bools
    have e' : holePicture L.config.plain L.determinants (columns L.eigenstates.eigvects) o.nbPlot L.bools = .error .attributeError := by
      rw [← e]
      unfold holePicture holePanels
      simp only [probability_congr (c := L.config.plain) (c' := { D.config with nbeta := N }) hL.rows hL.holes hL.down
        (hL.periodic.trans hc.ltype.symm) hL.sizes, holeFile_error]
    unfold saveHoles compute
    rw [e']
  have hfile : plotFiles c' D.bools o.embedding = [saveName n (0 : Nat) N D.bools] := by
    unfold plotFiles
    dsimp only
    rw [hemb.1, hemb.2.1, hemb.2.2, i4, i2, i3]
    rfl
  have hgen : generatePlots fs' D.config D.bools o p =
      (p.putAll p.dirs (if o.spectrum then [(spectrumFile n 0 N, .spectrum segs)] else []), .error (.py .attributeError)) := by
    unfold generatePlots
    rw [show D.config.nsites + 1 - D.config.nholes = D.config.nsites - D.config.nholes + 1 by omega, List.range_succ_eq_map]
    unfold plotLoop
    rw [hi]
    dsimp only
    unfold generatePlotsConfiguration
    rw [hfile, show [saveName n (0 : Nat) N D.bools].mapM fs'.load = .ok [L] by
      rw [List.mapM_cons, h3]; rfl]
    dsimp only
    unfold drawPlots
    rw [hspec, andThen_ok, if_pos ⟨by omega, hho⟩, hholes]
    rfl
  refine ⟨_, hgen, ?_, r, h1, ?_⟩
  · intro q hq
    refine putAll_other fun e he => ?_
    split_ifs at he with h
    · obtain rfl := List.mem_singleton.1 he
      exact hq.symm
    · cases he
  · intro h
    refine ⟨segs, ?_, s3, s4⟩
    rw [if_pos h]
    refine putAll_file List.mem_cons_self ?_
    intro e he _
    obtain rfl := List.mem_singleton.1 he
    rfl

/-- The directories that the pictures need. -/
def pictureTree : Pictures ℝ := ⟨[latticeDir 4 ++ "/Spectrum".toList, latticeDir 4 ++ "/SpinDistribution".toList,
  latticeDir 4 ++ "/DeterminantsAmplitude".toList], fun _ => none⟩

/-- The plots asked for in main.py, with or without the holes. -/
def mainPlots (holes : Bool) : InputPlotting := ⟨12, 4, true, holes, true, true, ⟨false, false, false, false⟩⟩

theorem mainPlots_dirs (holes : Bool) : PictureDirs 4 (mainPlots holes) pictureTree.dirs :=
  ⟨fun _ => List.mem_cons_self, fun _ => List.mem_cons_of_mem _ List.mem_cons_self,
    fun _ => List.mem_cons_of_mem _ (List.mem_cons_of_mem _ List.mem_cons_self)⟩

/-- C114 on 2 x 2 sites with one hole: the spectrum of the sector with two up spins is saved without `bool_holes` and not saved with it. -/
example : ∃ segs, (generatePlots (performConfigurations exEnv exactRuns emptyDir sweepData).1 sweepData.config sweepData.bools (mainPlots false)
      pictureTree).1.file "tJ-H4/Spectrum/tJ-H421.png".toList = some (.spectrum segs) ∧
    (generatePlots (performConfigurations exEnv exactRuns emptyDir sweepData).1 sweepData.config sweepData.bools (mainPlots true)
      pictureTree).1.file "tJ-H4/Spectrum/tJ-H421.png".toList = none := by
  have hc : RectConf sweepData.config sweepData.config.nbh sweepData.config.nbv sweepData.config.nblocs :=
    rectConf_ok 2 2 1 1 0 (by omega) (by omega) (by omega)
  have hf : sweepData.config.Full := by unfold Config.Full; decide +kernel
  have ho : sweepData.spinMult = true → HolesInOrder exEnv.toSetSem sweepData.config := fun _ => C39_one_hole_in_order _ _ (by decide +kernel)
  obtain ⟨P, p1, p2, _⟩ := C114_pictures_partial exEnv exactRuns (fun _ => realLib_qr) (fun _ => realLib_rand) (fun _ => insertionRows_sort) emptyDir
    rfl sweepData hc hf (by decide +kernel) ho (by decide +kernel) (by decide +kernel) (by intro rows h; cases h) (distinct_small (by decide +kernel))
    (mainPlots false) ⟨rfl, rfl, rfl⟩ (Or.inl rfl) (fun _ => le_rfl) pictureTree (mainPlots_dirs false)
  obtain ⟨r, _, r1, _⟩ := p2 2 1 (by decide +kernel)
  obtain ⟨segs, s1, _⟩ := r1 rfl
  obtain ⟨Q, q1, q2, _⟩ := C114_stops exEnv exactRuns (fun _ => realLib_qr) (fun _ => realLib_rand) (fun _ => insertionRows_sort) emptyDir
    rfl sweepData hc hf (by decide +kernel) ho (by decide +kernel) (by decide +kernel) (by intro rows h; cases h) (distinct_small (by decide +kernel))
    (mainPlots true) ⟨rfl, rfl, rfl⟩ rfl (by decide +kernel) le_rfl pictureTree (mainPlots_dirs true)
  have hname : spectrumFile sweepData.config.nsites 2 1 = "tJ-H4/Spectrum/tJ-H421.png".toList := by decide +kernel
  refine ⟨segs, ?_, ?_⟩
  · rw [p1, ← hname]
    exact s1
  · rw [q1]
    rw [q2 _ (by decide +kernel)]
    rfl

end TJ
