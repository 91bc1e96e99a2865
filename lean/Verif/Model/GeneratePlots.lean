/-
Model of /repo/postProcessing.py 51-176: `generate_plots_configuration` and `generate_plots` with the files they read and the pictures they save.
-/
import Verif.Model.Plots
import Verif.Model.Files

namespace TJ

section
variable {K : Type}

/-- What a saved picture shows: the segments of a spectrum, the panels of the probabilities of a hole or of the electrons, the curves of
the amplitudes, the bars of two ground states, the rows of a phase diagram, or the curves of the energies over t/J with their colours and
line styles. Other colours, axes and interpolated values between the sites are not modelled. -/
inductive Picture (K : Type) where
  | spectrum (segments : List (Nat × K))
  | holes (panels : List ((Nat × Nat) × NdArr K))
  | electrons (up down difference : NdArr K)
  | amplitudes (curves : List ((Nat × Nat) × (List K × List Nat)))
  | bars (isolated embedded : List K)
  | phase (energies spins : List (List K))
  | curves (lines : List (List K × Char × String))

/-- The tree `./tJ-HamCsr`: the existing directories and the pictures, by their paths from `./tJ-HamCsr/` on. -/
structure Pictures (K : Type) where
  dirs : List (List Char)
  file : List Char → Option (Picture K)

/-- `plt.savefig(dir + name)`: replaces the file; a missing directory raises `FileNotFoundError`. -/
def Pictures.savefig (p : Pictures K) (dir name : List Char) (x : Picture K) : Pictures K × Except IoErr Unit :=
  if dir ∈ p.dirs then ({ p with file := fun q => if q = dir ++ name then some x else p.file q }, .ok ()) else (p, .error .os)

/-- `os.mkdir(parent + sub)`. -/
def Pictures.mkdir (p : Pictures K) (parent sub : List Char) : Pictures K × Except IoErr Unit :=
  if parent ∈ p.dirs ∧ parent ++ sub ∉ p.dirs then ({ p with dirs := (parent ++ sub) :: p.dirs }, .ok ()) else (p, .error .os)

/-- Statements after each other: the second is not reached after an exception. -/
def andThen (r : Pictures K × Except IoErr Unit) (f : Pictures K → Pictures K × Except IoErr Unit) : Pictures K × Except IoErr Unit :=
  match r with
  | (p, .ok ()) => f p
  | r => r

/-- A computation, then statements with its result. -/
def compute {α : Type} (p : Pictures K) (x : Py α) (f : α → Pictures K × Except IoErr Unit) : Pictures K × Except IoErr Unit :=
  match x with
  | .ok a => f a
  | .error e => (p, .error (.py e))

/-- postProcessing.py 613-625, 712-726, 729-743: `try` to save, `except FileNotFoundError` (or `OSError`) make the directory and save
again. -/
def Pictures.saveRetry (p : Pictures K) (parent sub name : List Char) (x : Picture K) : Pictures K × Except IoErr Unit :=
  match p.savefig (parent ++ sub) name x with
  | (p, .error .os) => andThen (p.mkdir parent sub) (fun p => p.savefig (parent ++ sub) name x)
  | r => r

/-- The directory `tJ-H{n}` of the pictures of a lattice. -/
def latticeDir (nsites : Int) : List Char := "tJ-H".toList ++ pyFormat nsites

/-- The last part of the name of a picture, `/tJ-H{n}{a}{b}.png`. -/
def pictureName (nsites nalpha nbeta : Int) (ext : List Char) : List Char :=
  "/tJ-H".toList ++ pyFormat nsites ++ pyFormat nalpha ++ pyFormat nbeta ++ ext

/-- A loaded configuration where the restriction plays no part: none of the functions of the plots reads it, so an empty one is used here
(the restored one is a list of lists, see `LoadedConfig.restr`). -/
def LoadedConfig.plain (c : LoadedConfig K) : Config := ⟨c.bond, c.nholes, c.nbeta, ([], []), c.ltype, c.nbh, c.nbv, c.nblocs⟩

/-- The columns `eigvects[:, [k]]`, `k < eigvects.shape[1]`, of an array given by its rows. -/
def columns [Zero K] (rows : List (List K)) : List (List K) :=
  (List.range (rows.headD []).length).map (fun k => rows.map (fun r => r.getD k 0))

variable [Field K] [LinearOrder K] [FloorRing K]

/-- postProcessing.py 478-528, `save_spectrum`. The number of turns of the loop is bounded by the number of energies (C64). -/
def saveSpectrum (p : Pictures K) (L : Loaded K) : Pictures K × Except IoErr Unit :=
  compute p (spectrumLevels (L.eigenstates.eigvals.length + 1) L.eigenstates.eigvals >>= orbitals) (fun segs =>
    p.savefig (latticeDir L.config.plain.nsites ++ "/Spectrum".toList)
      (pictureName L.config.plain.nsites L.config.plain.nalpha L.config.nbeta ".png".toList) (.spectrum segs))

/-- postProcessing.py 532-626, `save_hole_probability_lattice`. `holePicture` gives the panels and the file; the name contains the directory. The
missing directory is made for a second try (613-625). -/
def saveHoles (p : Pictures K) (L : Loaded K) (nbSubplots : Nat) : Pictures K × Except IoErr Unit :=
  compute p (holePicture L.config.plain L.determinants (columns L.eigenstates.eigvects) nbSubplots L.bools) (fun r =>
    p.saveRetry (latticeDir L.config.plain.nsites) "/HolePresenceProbability".toList
      (r.2.drop (latticeDir L.config.plain.nsites ++ "/HolePresenceProbability".toList).length) (.holes r.1))

/-- postProcessing.py 711-743: the directory of the pictures of a state, below `SpinDistribution`. -/
def stateDir (nbState : Nat) : List Char := if nbState = 0 then "/GroundState".toList else "/Excited".toList ++ pyFormat nbState

/-- postProcessing.py 628-744, `save_electron_probability_lattice`; without a state of this number nothing is saved. -/
def saveElectrons (p : Pictures K) (L : Loaded K) (nbState : Nat) : Pictures K × Except IoErr Unit :=
  compute p (electronPanels L.config.plain L.determinants (columns L.eigenstates.eigvects) nbState) (fun r =>
    match r with
    | none => (p, .ok ())
    | some (a, b, d) => p.saveRetry (latticeDir L.config.plain.nsites ++ "/SpinDistribution".toList) (stateDir nbState)
        (pictureName L.config.plain.nsites L.config.plain.nalpha L.config.nbeta ".png".toList) (.electrons a b d))

/-- postProcessing.py 748-800, `plot_determinants_amplitude_repartition`: the curves and their cells. -/
def amplitudePicture (eigvects : List (List K)) (nbSubplots : Nat) : Py (List ((Nat × Nat) × (List K × List Nat))) := do
  let cells ← subplots nbSubplots eigvects.length
  (cells.zip eigvects).mapM (fun p => (amplitudeCurve p.2).map (fun z => (p.1, z)))

@[inherit_doc amplitudePicture]
def saveAmplitudes (p : Pictures K) (L : Loaded K) (nbSubplots : Nat) : Pictures K × Except IoErr Unit :=
  compute p (amplitudePicture (columns L.eigenstates.eigvects) nbSubplots) (fun r =>
    p.savefig (latticeDir L.config.plain.nsites ++ "/DeterminantsAmplitude".toList)
      (pictureName L.config.plain.nsites L.config.plain.nalpha L.config.nbeta ".png".toList) (.amplitudes r))

/-- postProcessing.py 820-842, `plot_embedding_effect_on_determinants`: the heights of the bars; `eigvects[:, 0]` raises `IndexError` if there is no
state, `highests_det_emb[0]` in the printed message `KeyError` for `nb_det = 0`, and the message contains the picture of a determinant. -/
def embeddingBars (L M : Loaded K) (nbDet : Nat) : Py (List K × List K) := do
  let v ← pyGet (columns L.eigenstates.eigvects) 0
  let _ ← highestsDet v nbDet
  let w ← pyGet (columns M.eigenstates.eigvects) 0
  let h ← highestsDet w nbDet
  let top ← match h with
    | [] => (.error .keyError : Py Nat)
    | i :: _ => .ok i
  let det ← pyGet M.determinants top
  let _ ← displayRectangular (.config M.config.plain) det
  return (← highestCoeffs v nbDet, ← highestCoeffs w nbDet)

/-- postProcessing.py 804-882, `plot_embedding_effect_on_determinants`: a picture with the ending .png and one with .pdf are saved; a missing directory
is made once. -/
def saveBars (p : Pictures K) (L M : Loaded K) (nbDet : Nat) : Pictures K × Except IoErr Unit :=
  compute p (embeddingBars L M nbDet) (fun r =>
    let dir := latticeDir L.config.plain.nsites
    let name := pictureName L.config.plain.nsites L.config.plain.nalpha L.config.nbeta
    let both := fun (p : Pictures K) => andThen (p.savefig (dir ++ "/AmplitudesStaticEmbeddingNeel".toList) (name ".png".toList) (.bars r.1 r.2))
      (fun p => p.savefig (dir ++ "/AmplitudesStaticEmbeddingNeel".toList) (name ".pdf".toList) (.bars r.1 r.2))
    match both p with
    | (p, .error .os) => andThen (p.mkdir dir "/AmplitudesStaticEmbeddingNeel".toList) both
    | r => r)

/-- postProcessing.py 24-49, `class InputPlotting`. -/
structure InputPlotting where
  nbExcited : Nat
  nbPlot : Nat
  spectrum : Bool
  holes : Bool
  electrons : Bool
  determinants : Bool
  embedding : PlotOptions

/-- postProcessing.py 134-152: the plots of one configuration; `M` are the results of the embedding, if they were loaded. In lines 149 and 152
`data_computations_embedding` is always defined, because one of the flags is on. -/
def drawPlots (c : Config) (o : InputPlotting) (L : Loaded K) (M : Option (Loaded K)) (p : Pictures K) : Pictures K × Except IoErr Unit :=
  andThen (if o.spectrum then saveSpectrum p L else (p, .ok ())) fun p =>
  andThen (if 0 < c.nholes ∧ o.holes then saveHoles p L o.nbPlot else (p, .ok ())) fun p =>
  andThen (if o.electrons ∧ 0 < c.nalpha * c.nbeta then
    (List.range o.nbExcited).foldl (fun r k => andThen r (fun p => saveElectrons p L k)) (p, .ok ()) else (p, .ok ())) fun p =>
  andThen (if o.determinants then saveAmplitudes p L o.nbPlot else (p, .ok ())) fun p =>
  match M with
  | none => (p, .ok ())
  | some M =>
    andThen (if o.embedding.neel then saveBars p L M (min c.nbConf 30) else (p, .ok ())) fun p =>
    if o.embedding.stat || o.embedding.dyn then saveBars p L M (min c.nbConf 30) else (p, .ok ())

/-- postProcessing.py 51-152, `generate_plots_configuration` for the configuration `c`; `plotFiles` are the files it loads. -/
def generatePlotsConfiguration (fs : FileSys K) (c : Config) (b : BoolInteractions) (o : InputPlotting) (p : Pictures K) :
    Pictures K × Except IoErr Unit :=
  match (plotFiles c b o.embedding).mapM fs.load with
  | .error e => (p, .error e)
  | .ok (L :: Ms) => drawPlots c o L Ms.head? p
  | .ok [] => (p, .ok ())

/-- postProcessing.py 168-176, the loop of `generate_plots` over the numbers of up spins; only the bonds and the numbers are handed on to the new
configuration. -/
def plotLoop (fs : FileSys K) (bond : NdMat) (nsites nholes : Nat) (b : BoolInteractions) (o : InputPlotting) :
    List Nat → Pictures K → Pictures K × Except IoErr Unit
  | [], p => (p, .ok ())
  | a :: as, p =>
    match Config.init bond nholes (nsites - nholes - a) with
    | .error e => (p, .error (.py e))
    | .ok c => andThen (generatePlotsConfiguration fs c b o p) (plotLoop fs bond nsites nholes b o as)

/-- postProcessing.py 154-176, `generate_plots`. -/
def generatePlots (fs : FileSys K) (c : Config) (b : BoolInteractions) (o : InputPlotting) (p : Pictures K) : Pictures K × Except IoErr Unit :=
  plotLoop fs c.bond c.nsites c.nholes b o (List.range (c.nsites + 1 - c.nholes)) p

end

end TJ
