/-
C143: which files `plot_spectrum_dependance` leaves (postProcessing.py 181-368).
-/
import Verif.Model.DependancePictures
import Verif.Props.Dependance
import Verif.Props.GeneratePlots
import Verif.Props.IO

namespace TJ

/-- The file of a picture of the energies over t/J, from the numbers of sites, up and down spins. -/
def curvesFile (n a b : Nat) (ending : String) : List Char :=
  "tJ-H".toList ++ Nat.toDigits 10 n ++ "/ParametrizedSpectrum/tJ-H".toList ++ Nat.toDigits 10 n ++ Nat.toDigits 10 a ++ Nat.toDigits 10 b ++
    ending.toList

/-- The directory of these pictures. -/
def curvesDir (n : Nat) : List Char := "tJ-H".toList ++ Nat.toDigits 10 n ++ "/ParametrizedSpectrum".toList

theorem curvesDir_eq (n : Nat) : latticeDir n ++ "/ParametrizedSpectrum".toList = curvesDir n := by
  rw [latticeDir_nat]
  rfl

theorem curvesFile_eq (n a b : Nat) (suffix ext : String) :
    latticeDir n ++ "/ParametrizedSpectrum".toList ++ pictureName n a b (suffix.toList ++ ext.toList) = curvesFile n a b (suffix ++ ext) := by
  have e : "/ParametrizedSpectrum/tJ-H".toList = "/ParametrizedSpectrum".toList ++ "/tJ-H".toList := rfl
  rw [pictureName_nat, latticeDir_nat]
  unfold curvesFile
  rw [e, String.toList_append]
  simp only [List.append_assoc]

/-- Saving one figure: both endings, and the directory is made if it is missing. -/
theorem saveCurves_ok {c : Config} {suffix : List Char} {fig : List Drawn} {p : Pictures ℝ}
    (hp : latticeDir c.nsites ∈ p.dirs ∨ latticeDir c.nsites ++ "/ParametrizedSpectrum".toList ∈ p.dirs) :
    ∃ d, d = (if latticeDir c.nsites ++ "/ParametrizedSpectrum".toList ∈ p.dirs then p.dirs
        else (latticeDir c.nsites ++ "/ParametrizedSpectrum".toList) :: p.dirs) ∧
      saveCurves p c suffix fig = (p.putAll d
        [(latticeDir c.nsites ++ "/ParametrizedSpectrum".toList ++ pictureName c.nsites c.nalpha c.nbeta (suffix ++ ".png".toList),
            .curves (fig.map Drawn.line)),
         (latticeDir c.nsites ++ "/ParametrizedSpectrum".toList ++ pictureName c.nsites c.nalpha c.nbeta (suffix ++ ".pdf".toList),
            .curves (fig.map Drawn.line))], .ok ()) := by
  refine ⟨_, rfl, ?_⟩
  unfold saveCurves
  dsimp only
  generalize latticeDir c.nsites = dir at hp ⊢
  generalize pictureName c.nsites c.nalpha c.nbeta = name
  generalize (Picture.curves (fig.map Drawn.line) : Picture ℝ) = x
  have both : ∀ p : Pictures ℝ, dir ++ "/ParametrizedSpectrum".toList ∈ p.dirs →
      andThen (p.savefig (dir ++ "/ParametrizedSpectrum".toList) (name (suffix ++ ".png".toList)) x)
        (fun p => p.savefig (dir ++ "/ParametrizedSpectrum".toList) (name (suffix ++ ".pdf".toList)) x) =
      (p.putAll p.dirs [(dir ++ "/ParametrizedSpectrum".toList ++ name (suffix ++ ".png".toList), x),
        (dir ++ "/ParametrizedSpectrum".toList ++ name (suffix ++ ".pdf".toList), x)], .ok ()) := by
    intro p hd
    rw [savefig_ok hd, andThen_ok, savefig_ok (by exact hd), putAll_putAll]
    rfl
  by_cases hd : dir ++ "/ParametrizedSpectrum".toList ∈ p.dirs
  · rw [both p hd, if_pos hd]
  · rw [if_neg hd]
    have hp := hp.resolve_right hd
    have e : p.savefig (dir ++ "/ParametrizedSpectrum".toList) (name (suffix ++ ".png".toList)) x = (p, .error .os) := by
      unfold Pictures.savefig
      rw [if_neg hd]
    have e' : p.mkdir dir "/ParametrizedSpectrum".toList = (⟨(dir ++ "/ParametrizedSpectrum".toList) :: p.dirs, p.file⟩, .ok ()) := by
      unfold Pictures.mkdir
      rw [if_pos ⟨hp, hd⟩]
    rw [e]
    unfold andThen
    dsimp only
    rw [e']
    dsimp only
    have := both ⟨(dir ++ "/ParametrizedSpectrum".toList) :: p.dirs, p.file⟩ List.mem_cons_self
    unfold andThen at this
    rw [this]
    rfl

/-- Without the directory of the lattice nothing is saved. -/
theorem saveCurves_no {c : Config} {suffix : List Char} {fig : List Drawn} {p : Pictures ℝ}
    (h1 : latticeDir c.nsites ∉ p.dirs) (h2 : latticeDir c.nsites ++ "/ParametrizedSpectrum".toList ∉ p.dirs) :
    saveCurves p c suffix fig = (p, .error .os) := by
  unfold saveCurves Pictures.savefig Pictures.mkdir
  simp only [if_neg h2, andThen, h1, false_and, if_false]

/-- The relation of the call with files to the figures. -/
theorem dependancePictures_eq (fuel : Nat) (E : Env) (L : Nat → Bool → LinAlg ℝ) (swap : List ℝ → Bool) (D : Data ℝ) (n : Nat) (p : Pictures ℝ) :
    (∃ e, plotSpectrumDependance fuel E L swap D n = ([], .error e) ∧ dependancePictures fuel E L swap D n p = (p, .error (.py e))) ∨
    (∃ fig1 e, plotSpectrumDependance fuel E L swap D n = ([fig1], .error e) ∧ dependancePictures fuel E L swap D n p =
      andThen (saveCurves p D.config [] fig1) fun p => (p, .error (.py e))) ∨
    (∃ fig1 fig2, plotSpectrumDependance fuel E L swap D n = ([fig1, fig2], .ok ()) ∧ dependancePictures fuel E L swap D n p =
      andThen (saveCurves p D.config [] fig1) fun p => saveCurves p D.config "-extended".toList fig2) := by
  unfold plotSpectrumDependance dependancePictures
  generalize (do
    let (c, c') ← dependanceSweep E L swap D n n
    let c ← reorganise fuel c 0
    let c' ← reorganise fuel c' 0
    let fig1 ← drawCurves n D.diag.nbVal c
    return (fig1, c')) = X
  cases X with
  | error e => exact Or.inl ⟨e, rfl, rfl⟩
  | ok r =>
    obtain ⟨fig1, c'⟩ := r
    dsimp only [compute]
    cases drawCurves n D.diag.nbVal c' with
    | error e => exact Or.inr (Or.inl ⟨fig1, e, rfl, rfl⟩)
    | ok fig2 => exact Or.inr (Or.inr ⟨fig1, fig2, rfl, rfl⟩)

/-- The files of the four pictures are different. -/
theorem curvesFile_ne (n a b : Nat) {x y : String} (h : x ≠ y) : curvesFile n a b x ≠ curvesFile n a b y := by
  unfold curvesFile
  intro e
  exact h (String.toList_inj.1 (List.append_cancel_left e))

/-- The statements of the four savings. -/
theorem saveCurves_files {c : Config} (hc : c.nholes + c.nbeta ≤ c.nsites) (suffix : String) {fig : List Drawn} {p : Pictures ℝ}
    (hp : latticeDir c.nsites ∈ p.dirs ∨ curvesDir c.nsites ∈ p.dirs) :
    saveCurves p c suffix.toList fig = (p.putAll (if curvesDir c.nsites ∈ p.dirs then p.dirs else curvesDir c.nsites :: p.dirs)
        [(curvesFile c.nsites (c.nsites - c.nholes - c.nbeta) c.nbeta (suffix ++ ".png"), .curves (fig.map Drawn.line)),
         (curvesFile c.nsites (c.nsites - c.nholes - c.nbeta) c.nbeta (suffix ++ ".pdf"), .curves (fig.map Drawn.line))], .ok ()) := by
  have ha : c.nalpha = ((c.nsites - c.nholes - c.nbeta : Nat) : Int) := by unfold Config.nalpha; omega
  rw [← curvesDir_eq] at hp ⊢
  obtain ⟨d, rfl, h⟩ := saveCurves_ok (suffix := suffix.toList) (fig := fig) hp
  rw [h, ha, curvesFile_eq, curvesFile_eq]

/-- What the tree is after the first, or after both figures are saved. -/
def Pictures.withCurves (p : Pictures ℝ) (c : Config) (files : List (String × List Drawn)) : Pictures ℝ :=
  p.putAll (if curvesDir c.nsites ∈ p.dirs then p.dirs else curvesDir c.nsites :: p.dirs)
    (files.map (fun x => (curvesFile c.nsites (c.nsites - c.nholes - c.nbeta) c.nbeta x.1, .curves (x.2.map Drawn.line))))

theorem withCurves_file {p : Pictures ℝ} {c : Config} {files : List (String × List Drawn)} {ext : String} {fig : List Drawn}
    (hx : (ext, fig) ∈ files) (h : ∀ x ∈ files, x.1 = ext → x.2 = fig) :
    (p.withCurves c files).file (curvesFile c.nsites (c.nsites - c.nholes - c.nbeta) c.nbeta ext) = some (.curves (fig.map Drawn.line)) := by
  unfold Pictures.withCurves
  refine putAll_file (List.mem_map.2 ⟨_, hx, rfl⟩) ?_
  intro e he hq
  obtain ⟨x, h1, rfl⟩ := List.mem_map.1 he
  have : x.1 = ext := by
    by_contra hne
    exact curvesFile_ne _ _ _ hne hq
  rw [h x h1 this]

theorem withCurves_other {p : Pictures ℝ} {c : Config} {files : List (String × List Drawn)} {q : List Char}
    (h : ∀ x ∈ files, q ≠ curvesFile c.nsites (c.nsites - c.nholes - c.nbeta) c.nbeta x.1) : (p.withCurves c files).file q = p.file q := by
  unfold Pictures.withCurves
  refine putAll_other ?_
  intro e he hq
  obtain ⟨x, h1, rfl⟩ := List.mem_map.1 he
  exact h x h1 hq.symm

theorem withCurves_dirs (p : Pictures ℝ) (c : Config) (files : List (String × List Drawn)) (q : List Char) :
    q ∈ (p.withCurves c files).dirs ↔ q ∈ p.dirs ∨ q = curvesDir c.nsites := by
  show q ∈ (if curvesDir c.nsites ∈ p.dirs then p.dirs else curvesDir c.nsites :: p.dirs) ↔ _
  split_ifs with h
  · constructor
    · exact Or.inl
    · rintro (h' | rfl)
      · exact h'
      · exact h
  · rw [List.mem_cons, or_comm]

/-- Both figures. -/
theorem saveCurves_both {c : Config} (hc : c.nholes + c.nbeta ≤ c.nsites) {fig1 fig2 : List Drawn} {p : Pictures ℝ}
    (hp : latticeDir c.nsites ∈ p.dirs ∨ curvesDir c.nsites ∈ p.dirs) :
    (andThen (saveCurves p c [] fig1) fun p => saveCurves p c "-extended".toList fig2) =
      (p.withCurves c [(".png", fig1), (".pdf", fig1), ("-extended.png", fig2), ("-extended.pdf", fig2)], .ok ()) := by
  have h1 := saveCurves_files hc "" (fig := fig1) hp
  have e : "".toList = [] := rfl
  rw [e] at h1
  rw [h1, andThen_ok]
  generalize hd : (if curvesDir c.nsites ∈ p.dirs then p.dirs else curvesDir c.nsites :: p.dirs) = d
  have hdm : curvesDir c.nsites ∈ d := by
    rw [← hd]
    split_ifs with h
    · exact h
    · exact List.mem_cons_self
  rw [saveCurves_files hc "-extended" (fig := fig2) (Or.inr (by exact hdm))]
  rw [putAll_putAll]
  have hdm' : ∀ W : List (List Char × Picture ℝ), curvesDir c.nsites ∈ (p.putAll d W).dirs := fun _ => hdm
  rw [if_pos (hdm' _)]
  unfold Pictures.withCurves
  rw [hd]
  rfl

/-- C143, part: if the directory of the lattice exists, all requested states exist and all states at the first ratio are doublets or
quartets with an apparent degeneracy of 1 or 2, then the call ends normally and leaves four pictures: the spectrum without the extension in
`tJ-H{n}/ParametrizedSpectrum/tJ-H{n}{a}{b}` with the endings .png and .pdf, the one with the extension under the same name with `-extended`.
Each has one line per state, at every ratio the ordinates are the energies of this ratio in some order, and colours and styles are those of
the legend for the states at the first ratio. No other picture is changed and no other directory is made. Missing: other multiplicities and degeneracies
(`C143_outcome`), trees without the directory of the lattice (`C143_no_directory`), sectors with the same name (`C143_collision`). -/
theorem C143_saved_partial (E : Env) (L : Nat → Bool → LinAlg ℝ) (swap : List ℝ → Bool) (D : Data ℝ) (n : Nat) (hn : 0 < n)
    (fuel : Nat) (hf : D.diag.nbVal * (n + 1) + 1 ≤ fuel) (hst : D.nbStates = D.diag.nbVal) (c c' : List (Curve ℝ))
    (h : dependanceSweep E L swap D n n = .ok (c, c')) (hd : ∀ x ∈ c ++ c', ∀ q, x[0]? = some q → Drawable q)
    (hc : D.config.nholes + D.config.nbeta ≤ D.config.nsites) (p : Pictures ℝ)
    (hp : "tJ-H".toList ++ Nat.toDigits 10 D.config.nsites ∈ p.dirs) :
    ∃ (P : Pictures ℝ) (lines lines' : List (List ℝ × Char × String)), dependancePictures fuel E L swap D n p = (P, .ok ()) ∧
      (∀ ext ∈ [".png", ".pdf"],
        P.file (curvesFile D.config.nsites (D.config.nsites - D.config.nholes - D.config.nbeta) D.config.nbeta ext) = some (.curves lines) ∧
        P.file (curvesFile D.config.nsites (D.config.nsites - D.config.nholes - D.config.nbeta) D.config.nbeta ("-extended" ++ ext)) =
          some (.curves lines')) ∧
      lines.length = D.diag.nbVal ∧ lines'.length = D.diag.nbVal ∧
      (∀ i < n, (lines.map (fun f => f.1[i]?)).Perm (c.map (fun x => (x[i]?).map Prod.fst)) ∧
        (lines'.map (fun f => f.1[i]?)).Perm (c'.map (fun x => (x[i]?).map Prod.fst))) ∧
      (∃ starts starts' : List (ℝ × String × Nat), (starts.map some).Perm (c.map (fun x => x[0]?)) ∧
        (starts'.map some).Perm (c'.map (fun x => x[0]?)) ∧
        List.Forall₂ (fun (f : List ℝ × Char × String) q => f.1[0]? = some q.1 ∧ Legend q f.2.1 f.2.2) lines starts ∧
        List.Forall₂ (fun (f : List ℝ × Char × String) q => f.1[0]? = some q.1 ∧ Legend q f.2.1 f.2.2) lines' starts') ∧
      (∀ q, (∀ ext ∈ [".png", ".pdf", "-extended.png", "-extended.pdf"],
        q ≠ curvesFile D.config.nsites (D.config.nsites - D.config.nholes - D.config.nbeta) D.config.nbeta ext) → P.file q = p.file q) ∧
      ∀ q, q ∈ P.dirs ↔ q ∈ p.dirs ∨ q = curvesDir D.config.nsites := by
  obtain ⟨fig1, fig2, h1, h2, h3, h4, starts, starts', h5, h6, h7, h8⟩ := C103_saved_partial E L swap D n hn fuel hf hst c c' h hd
  have hrun : dependancePictures fuel E L swap D n p =
      (p.withCurves D.config [(".png", fig1), (".pdf", fig1), ("-extended.png", fig2), ("-extended.pdf", fig2)], .ok ()) := by
    rcases dependancePictures_eq fuel E L swap D n p with ⟨e, g, _⟩ | ⟨f1, e, g, _⟩ | ⟨f1, f2, g, g'⟩
    · rw [h1] at g; simp at g
    · rw [h1] at g; simp at g
    · rw [h1] at g
      simp only [Prod.mk.injEq, List.cons.injEq, and_true] at g
      obtain ⟨rfl, rfl⟩ := g
      rw [g']
      exact saveCurves_both hc (Or.inl (by rw [latticeDir_nat]; exact hp))
  refine ⟨_, fig1.map Drawn.line, fig2.map Drawn.line, hrun, ?_, by simpa using h2, by simpa using h3, ?_, ?_, ?_, ?_⟩
  · intro ext hext
    simp only [List.mem_cons, List.not_mem_nil, or_false] at hext
    rcases hext with rfl | rfl
    · exact ⟨withCurves_file (by simp) (by simp), withCurves_file (ext := "-extended.png") (by simp) (by simp)⟩
    · exact ⟨withCurves_file (by simp) (by simp), withCurves_file (ext := "-extended.pdf") (by simp) (by simp)⟩
  · intro i hi
    obtain ⟨g1, g2⟩ := h4 i hi
    rw [List.map_map, List.map_map]
    exact ⟨g1, g2⟩
  · refine ⟨starts, starts', h5, h6, ?_, ?_⟩
    · rw [List.forall₂_map_left_iff]
      exact h7
    · rw [List.forall₂_map_left_iff]
      exact h8
  · intro q hq
    refine withCurves_other ?_
    intro x hx
    refine hq x.1 ?_
    simp only [List.mem_cons, List.not_mem_nil, or_false] at hx ⊢
    rcases hx with rfl | rfl | rfl | rfl <;> simp
  · exact withCurves_dirs _ _ _

/-- C143, all outcomes with the directory of the lattice: if the computations or the first figure fail nothing is changed; if only the
second figure fails, the two pictures without extension are replaced and the ones with `-extended` stay those of an earlier run; otherwise all four are
replaced. -/
theorem C143_outcome (fuel : Nat) (E : Env) (L : Nat → Bool → LinAlg ℝ) (swap : List ℝ → Bool) (D : Data ℝ) (n : Nat)
    (hc : D.config.nholes + D.config.nbeta ≤ D.config.nsites) (p : Pictures ℝ)
    (hp : "tJ-H".toList ++ Nat.toDigits 10 D.config.nsites ∈ p.dirs ∨ curvesDir D.config.nsites ∈ p.dirs) :
    ∃ P end_, dependancePictures fuel E L swap D n p = (P, end_) ∧
      ((plotSpectrumDependance fuel E L swap D n).1 = [] → P = p ∧ end_ ≠ .ok ()) ∧
      (∀ fig1, (plotSpectrumDependance fuel E L swap D n).1 = [fig1] → end_ ≠ .ok () ∧
        (∀ ext ∈ [".png", ".pdf"],
          P.file (curvesFile D.config.nsites (D.config.nsites - D.config.nholes - D.config.nbeta) D.config.nbeta ext) =
            some (.curves (fig1.map (fun f => (f.ys, f.colour, f.style)))) ∧
          P.file (curvesFile D.config.nsites (D.config.nsites - D.config.nholes - D.config.nbeta) D.config.nbeta ("-extended" ++ ext)) =
            p.file (curvesFile D.config.nsites (D.config.nsites - D.config.nholes - D.config.nbeta) D.config.nbeta ("-extended" ++ ext)))) ∧
      (∀ fig1 fig2, (plotSpectrumDependance fuel E L swap D n).1 = [fig1, fig2] → end_ = .ok () ∧
        (∀ ext ∈ [".png", ".pdf"],
          P.file (curvesFile D.config.nsites (D.config.nsites - D.config.nholes - D.config.nbeta) D.config.nbeta ext) =
            some (.curves (fig1.map (fun f => (f.ys, f.colour, f.style)))) ∧
          P.file (curvesFile D.config.nsites (D.config.nsites - D.config.nholes - D.config.nbeta) D.config.nbeta ("-extended" ++ ext)) =
            some (.curves (fig2.map (fun f => (f.ys, f.colour, f.style)))))) ∧
      (plotSpectrumDependance fuel E L swap D n).1.length ≤ 2 := by
  rw [← latticeDir_nat] at hp
  rcases dependancePictures_eq fuel E L swap D n p with ⟨e, g, g'⟩ | ⟨f1, e, g, g'⟩ | ⟨f1, f2, g, g'⟩
  · rw [g, g']
    refine ⟨p, _, rfl, fun _ => ⟨rfl, by simp⟩, fun _ h => by simp at h, fun _ _ h => by simp at h, by simp⟩
  · have h1 := saveCurves_files hc "" (fig := f1) hp
    have e0 : "".toList = [] := rfl
    rw [e0] at h1
    rw [h1, andThen_ok] at g'
    rw [g, g']
    refine ⟨p.withCurves D.config [(".png", f1), (".pdf", f1)], _, rfl, fun h => by simp at h, fun fig1 h => ?_, fun _ _ h => by simp at h, by simp⟩
    obtain rfl : f1 = fig1 := by simpa using h
    refine ⟨by simp, ?_⟩
    intro ext hext
    simp only [List.mem_cons, List.not_mem_nil, or_false] at hext
    rcases hext with rfl | rfl
    · refine ⟨withCurves_file (by simp) (by simp), withCurves_other ?_⟩
      intro x hx
      simp only [List.mem_cons, List.not_mem_nil, or_false] at hx
      rcases hx with rfl | rfl
      · exact curvesFile_ne _ _ _ (by dsimp only; decide)
      · exact curvesFile_ne _ _ _ (by dsimp only; decide)
    · refine ⟨withCurves_file (by simp) (by simp), withCurves_other ?_⟩
      intro x hx
      simp only [List.mem_cons, List.not_mem_nil, or_false] at hx
      rcases hx with rfl | rfl
      · exact curvesFile_ne _ _ _ (by dsimp only; decide)
      · exact curvesFile_ne _ _ _ (by dsimp only; decide)
  · rw [saveCurves_both hc hp] at g'
    rw [g, g']
    refine ⟨_, _, rfl, fun h => by simp at h, fun _ h => by simp at h, fun fig1 fig2 h => ?_, by simp⟩
    obtain ⟨rfl, rfl⟩ : f1 = fig1 ∧ f2 = fig2 := by simpa using h
    refine ⟨rfl, ?_⟩
    intro ext hext
    simp only [List.mem_cons, List.not_mem_nil, or_false] at hext
    rcases hext with rfl | rfl
    · exact ⟨withCurves_file (by simp) (by simp), withCurves_file (ext := "-extended.png") (by simp) (by simp)⟩
    · exact ⟨withCurves_file (by simp) (by simp), withCurves_file (ext := "-extended.pdf") (by simp) (by simp)⟩

/-- C143 fails without the directory of the lattice: after all diagonalisations the call ends with an exception and no picture is saved. -/
theorem C143_no_directory (fuel : Nat) (E : Env) (L : Nat → Bool → LinAlg ℝ) (swap : List ℝ → Bool) (D : Data ℝ) (n : Nat) (p : Pictures ℝ)
    (h1 : "tJ-H".toList ++ Nat.toDigits 10 D.config.nsites ∉ p.dirs) (h2 : curvesDir D.config.nsites ∉ p.dirs) :
    ∃ e, dependancePictures fuel E L swap D n p = (p, .error e) := by
  rw [← latticeDir_nat] at h1
  rw [← curvesDir_eq] at h2
  rcases dependancePictures_eq fuel E L swap D n p with ⟨e, g, g'⟩ | ⟨f1, e, g, g'⟩ | ⟨f1, f2, g, g'⟩
  · exact ⟨_, g'⟩
  · rw [g', saveCurves_no h1 h2]
    exact ⟨_, rfl⟩
  · rw [g', saveCurves_no h1 h2]
    exact ⟨_, rfl⟩

/-- C143, exact condition: when the computations succeed, the call ends normally if and only if the directory of the lattice (or of these
pictures) exists, all requested states exist, and all states at the first ratio are doublets or quartets with an apparent degeneracy of 1 or 2. -/
theorem C143_iff (E : Env) (L : Nat → Bool → LinAlg ℝ) (swap : List ℝ → Bool) (D : Data ℝ) (n : Nat) (hn : 0 < n)
    (fuel : Nat) (hf : D.diag.nbVal * (n + 1) + 1 ≤ fuel) (c c' : List (Curve ℝ)) (h : dependanceSweep E L swap D n n = .ok (c, c'))
    (hc : D.config.nholes + D.config.nbeta ≤ D.config.nsites) (p : Pictures ℝ) :
    (∃ P, dependancePictures fuel E L swap D n p = (P, .ok ())) ↔
      ("tJ-H".toList ++ Nat.toDigits 10 D.config.nsites ∈ p.dirs ∨ curvesDir D.config.nsites ∈ p.dirs) ∧
      D.nbStates = D.diag.nbVal ∧ ∀ x ∈ c ++ c', ∀ q, x[0]? = some q → Drawable q := by
  rw [← C103_saved_iff E L swap D n hn fuel hf c c' h]
  by_cases hp : "tJ-H".toList ++ Nat.toDigits 10 D.config.nsites ∈ p.dirs ∨ curvesDir D.config.nsites ∈ p.dirs
  · have hp' := hp
    rw [← latticeDir_nat] at hp'
    rcases dependancePictures_eq fuel E L swap D n p with ⟨e, g, g'⟩ | ⟨f1, e, g, g'⟩ | ⟨f1, f2, g, g'⟩
    · rw [g, g']
      simp
    · have h1 := saveCurves_files hc "" (fig := f1) hp'
      have e0 : "".toList = [] := rfl
      rw [e0] at h1
      rw [h1, andThen_ok] at g'
      rw [g, g']
      simp
    · rw [saveCurves_both hc hp'] at g'
      rw [g, g']
      refine ⟨fun _ => ⟨hp, f1, f2, rfl⟩, fun _ => ⟨_, rfl⟩⟩
  · have := not_or.1 hp
    obtain ⟨e, he⟩ := C143_no_directory fuel E L swap D n p this.1 this.2
    rw [he]
    exact ⟨fun ⟨_, g⟩ => by simp at g, fun g => absurd g.1 hp⟩

/-- C143 fails from 11 electrons on: two sectors with the same number of electrons have the same files, the later run replaces the pictures
of the earlier one. -/
theorem C143_collision (n y z : Nat) (hy : 1 ≤ y) (hy' : y ≤ 9) (hz : z ≤ 9) (ending : String) :
    curvesFile n (11 * y) z ending = curvesFile n y (10 * y + z) ending ∧ 11 * y + z = y + (10 * y + z) ∧ 11 * y ≠ y := by
  refine ⟨?_, by omega, by omega⟩
  obtain ⟨h, _⟩ := saveName_split (C55_collision n y z hy hy' hz ⟨true, true, true, true, true, true⟩).1
  have h := List.append_cancel_left h
  unfold curvesFile
  rw [List.append_assoc _ (Nat.toDigits 10 (11 * y)), h, List.append_assoc _ (Nat.toDigits 10 y)]

/-- C143, exact extent of the collisions: the sectors with `N` electrons have different pictures if and only if `DistinctNames N`. -/
theorem C143_names_iff (n N : Nat) (ending : String) :
    (∀ a b a' b', a + b = N → a' + b' = N → curvesFile n a b ending = curvesFile n a' b' ending → a = a' ∧ b = b') ↔ DistinctNames N := by
  rw [← C55_sweep_exact n N ⟨true, true, true, true, true, true⟩]
  have key : ∀ a b a' b', curvesFile n a b ending = curvesFile n a' b' ending ↔
      saveName n a b ⟨true, true, true, true, true, true⟩ = saveName n a' b' ⟨true, true, true, true, true, true⟩ := by
    intro a b a' b'
    unfold curvesFile
    rw [List.append_assoc _ (Nat.toDigits 10 a), List.append_assoc _ (Nat.toDigits 10 a')]
    constructor
    · intro h
      rw [saveName_eq, saveName_eq, List.append_cancel_left (List.append_cancel_right h)]
    · intro h
      rw [List.append_cancel_left (saveName_split h).1]
  simp only [key]

/-! ### Cases that meet the hypotheses -/

/-- One electron, 1000 ratios, a tree with the directory `tJ-H2` only: four pictures with two lines each (C143_saved_partial, C143_iff). -/
example : ∃ (P : Pictures ℝ) (lines lines' : List (List ℝ × Char × String)),
    dependancePictures 2003 exEnv (fun _ _ => realLib) (fun _ => false) sweepCase 1000 ⟨["tJ-H2".toList], fun _ => none⟩ = (P, .ok ()) ∧
      P.file "tJ-H2/ParametrizedSpectrum/tJ-H210.png".toList = some (.curves lines) ∧
      P.file "tJ-H2/ParametrizedSpectrum/tJ-H210-extended.pdf".toList = some (.curves lines') ∧ lines.length = 2 := by
  obtain ⟨c, c', hs, hd⟩ := sweepCase_drawn
  obtain ⟨P, lines, lines', h1, h2, h3, _⟩ := C143_saved_partial exEnv (fun _ _ => realLib) (fun _ => false) sweepCase 1000 (by omega) 2003
    (by show 2 * 1001 + 1 ≤ 2003; omega) sweepCase_states c c' hs hd (by decide +kernel) ⟨["tJ-H2".toList], fun _ => none⟩ (by
      have : sweepCase.config.nsites = 2 := by decide +kernel
      rw [this]
      decide +kernel)
  have hsi : sweepCase.config.nsites = 2 := by decide +kernel
  have hho : sweepCase.config.nholes = 1 := rfl
  have hbe : sweepCase.config.nbeta = 0 := rfl
  rw [hsi, hho, hbe] at h2
  have f1 : curvesFile 2 (2 - 1 - 0) 0 ".png" = "tJ-H2/ParametrizedSpectrum/tJ-H210.png".toList := by decide +kernel
  have f2 : curvesFile 2 (2 - 1 - 0) 0 ("-extended" ++ ".pdf") = "tJ-H2/ParametrizedSpectrum/tJ-H210-extended.pdf".toList := by decide +kernel
  refine ⟨P, lines, lines', h1, ?_, ?_, h3⟩
  · rw [← f1]; exact (h2 ".png" (by simp)).1
  · rw [← f2]; exact (h2 ".pdf" (by simp)).2

/-- The same run in an empty tree fails after all diagonalisations. -/
example : ∃ e, dependancePictures 2003 exEnv (fun _ _ => realLib) (fun _ => false) sweepCase 1000 ⟨[], fun _ => none⟩ =
    (⟨[], fun _ => none⟩, .error e) :=
  C143_no_directory _ _ _ _ _ _ _ (by simp) (by simp)

/-- Two up spins and a hole: no figure (C143_outcome). -/
example : ∃ P end_, dependancePictures 2003 exEnv (fun _ _ => realLib) (fun _ => false) sweepCase3 1000 ⟨["tJ-H3".toList], fun _ => none⟩ =
    (P, end_) ∧ end_ ≠ .ok () := by
  obtain ⟨P, r, h1, h2, _⟩ := C143_outcome 2003 exEnv (fun _ _ => realLib) (fun _ => false) sweepCase3 1000 (by decide +kernel)
    ⟨["tJ-H3".toList], fun _ => none⟩ (by
      have : sweepCase3.config.nsites = 3 := by decide +kernel
      rw [this]
      left
      decide +kernel)
  refine ⟨P, r, h1, (h2 ?_).2⟩
  exact C103_polarised exEnv (fun _ _ => realLib) (fun _ _ => realLib_eigh) (fun _ _ => realLib_qr) (fun _ => false) sweepCase3 3 1 1
    (rectConf_ok 3 1 1 1 0 (by omega) (by omega) (by omega)) (by unfold Config.Full; decide +kernel) rfl (by decide +kernel)
    (C39_one_hole_in_order _ _ (by decide +kernel)) (by decide +kernel) (by decide +kernel) (by decide +kernel) 1000 (by omega) 2003
    (by show 2 * 1001 + 1 ≤ 2003; omega)

example : curvesFile 12 11 0 ".png" = curvesFile 12 1 10 ".png" := (C143_collision 12 1 0 (by omega) (by omega) (by omega) ".png").1

end TJ
