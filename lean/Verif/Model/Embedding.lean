/-
Model of /repo/embedding.py: `embedding_neel` and `embedding_blocks` without the loading and saving of files
(file names and file contents are modelled in `Verif/Model/IO.lean`). The diagonalisation is a parameter.
-/
import Verif.Model.Observables
import Verif.Model.Davidson

namespace TJ

section
variable {K : Type} [Field K] [LinearOrder K]

/-! ### Common parts -/

/-- `modified_davidson_algorithm` as seen by the embedding functions: the `k`-th call on a matrix gives eigenvalues and
eigenvectors (columns). Two calls may differ because the initial guess is random. -/
abbrev Solver (K : Type) := Nat → SpMat K → Py (List K × List (List K))

/-- The matrix given to the diagonalisation. -/
def SpMat.toMatrix (M : SpMat K) : Matrix (Fin M.dim) (Fin M.dim) K := fun i j => M.entry i j

/-- The solver really used: davidson.py 229-290. `guess` is the optional initial guess (one column). -/
def davidsonSolver (L : Nat → LinAlg K) (nbVal : Nat) (guess : Option (List K)) (stp : Nat) (tol : K) (dimMax : Nat) :
    Solver K := fun k M => do
  let r ← modifiedDavidson (L k) M.toMatrix nbVal (guess.map (fun v => [fun i => v.getD i 0])) stp tol dimMax
  return (r.eigvals, r.eigvects.map List.ofFn)

/-- hamiltonianConstruction.py 97-104, `add_ham_coo` on a `coo_matrix`: a new matrix with one more triple; an index outside the
shape raises `ValueError`. -/
def addHamCoo (M : SpMat K) (elt : K) (row col : Nat) : Py (SpMat K) := cooMatrix M.dim (M.coo ++ [(elt, row, col)])

/-- `probabilities[spin][site]`. -/
def probAt (p : List (Int × List K)) (spin : Int) (site : Nat) : Py K :=
  match p.lookup spin with
  | some l => pyGet l site
  | none => .error .keyError

/-- embedding.py 147-148, 484-485: the basis vector number `ind`. -/
def unitVect (nbConf ind : Nat) : Py (List K) := pySet (List.replicate nbConf (0 : K)) ind 1

/-- embedding.py 168, 504: the interaction of a bond between two sites with given probabilities. -/
def bondTerm (I : Interactions K) (alphaA betaA holeA alphaB betaB holeB : K) : K :=
  - (I.J / 2) * (alphaA * betaB + betaA * alphaB) + I.VNN * holeA * holeB

/-- `lin.norm(v)` of a column. -/
def normList (sqrt : K → K) (v : List K) : K := sqrt (vdot v v)

/-- embedding.py 248, 751: `lin.norm(new - old) / lin.norm(old) < tol`. A zero norm of `old` gives `nan` or `inf`, and the
comparison is false. Columns of different lengths (1 excepted) raise `ValueError`. -/
def converged (sqrt : K → K) (tol : K) (new old : List K) : Py Bool :=
  if new.length ≠ old.length then .error .valueError
  else if normList sqrt old = 0 then .ok false
  else .ok (decide (normList sqrt (List.zipWith (· - ·) new old) / normList sqrt old < tol))

/-! ### Embedding in a Néel lattice -/

/-- A Python bool used as an integer. -/
def b2n (p : Prop) [Decidable p] : Nat := if p then 1 else 0

/-- embedding.py 91: number of peripheral sites. -/
def nRest (nbh nbv nb : Nat) : Nat := 2 * (nbh + nbv) * nb

/-- embedding.py 94-95, `beta_neel`. -/
def betaNeel (nbh nbv nb : Nat) : List Nat :=
  (List.range (nRest nbh nbv nb)).filter (fun site =>
    (site + 1 + b2n (nbh * nb ≤ site) + b2n ((nbh + nbv) * nb ≤ site) + b2n ((2 * nbh + nbv) * nb ≤ site)) % 2 = 1)

/-- embedding.py 96, `det_neel`. -/
def detNeel (S : SetSem) (nbh nbv nb : Nat) : List Nat :=
  betaNeel nbh nbv nb ++ S.diff (List.range (nRest nbh nbv nb)) (betaNeel nbh nbv nb)

/-- embedding.py 97-100, `configuration_rest`. -/
def configRest (nbh nbv nb : Nat) : Py Config := do
  let bond ← buildBondMatrixNeelOuterLattice nbh nbv nb
  Config.init bond 0 (betaNeel nbh nbv nb).length (.list []) .periodic nbh nbv nb

/-- embedding.py 103, 119-122: the initial probabilities of the peripheral sites. -/
def initialProb (S : SetSem) (nbh nbv nb : Nat) : Py (List (Int × List K)) := do
  let cR ← configRest nbh nbv nb
  let basis ← constructBasis cR
  let v ← unitVect (K := K) cR.nbConf (getIndexInBasis cR (detNeel S nbh nbv nb))
  spinsProbabilities cR basis v

/-- embedding.py 109: the block sites with more neighbours in the embedding than in the block. -/
def frontierNeel (S : SetSem) (c : Config) (emb : NdMat) : Py (List Nat) :=
  (List.range c.nsites).filterM (fun site => do
    let a ← getNeighbors S site c.bond (.list [])
    let b ← getNeighbors S site emb (.list [])
    return decide (a.length < b.length))

/-- embedding.py 111-116: `configuration_embedding`. -/
def configNeel (S : SetSem) (c : Config) (emb : NdMat) : Py Config := do
  let nb ← (List.range c.nsites).mapM (fun site => getNeighbors S site emb (.list []))
  Config.init emb (c.nholes + 0) (c.nbeta + (betaNeel c.nbh c.nbv c.nblocs).length)
    (.list (S.ofList (List.range c.nsites ++ nb.flatten))) .peripheral c.nbh c.nbv c.nblocs

/-- embedding.py 159, 217: the peripheral neighbours of a block site (as sites of the embedding). -/
def foreignNeel (S : SetSem) (c : Config) (emb : NdMat) (site : Nat) : Py (List Nat) :=
  getNeighbors S site emb (.list (List.range' c.nsites (nRest c.nbh c.nbv c.nblocs)))

/-- embedding.py 155-184: the contribution of one frontier site to `intr`. -/
def neelSite (E : Env) (I : Interactions K) (c cE : Config) (pA pR : List (Int × List K)) (intr : K) (siteA : Nat) : Py K := do
  let alphaA ← probAt pA 1 siteA
  let betaA ← probAt pA (-1) siteA
  let holeA ← probAt pA 0 siteA
  let foreign ← foreignNeel E.toSetSem c cE.bond siteA
  let intr ← foreign.foldlM (fun (intr : K) siteR => do
    let alphaR ← probAt pR 1 (siteR - c.nsites)
    let betaR ← probAt pR (-1) (siteR - c.nsites)
    let holeR ← probAt pR 0 (siteR - c.nsites)
    return intr + bondTerm I alphaA betaA holeA alphaR betaR holeR) intr
  let diag ← getDiagonalSecondNeighbors E cE siteA
  (E.inter (List.range' c.nsites (nRest c.nbh c.nbv c.nblocs)) diag).foldlM (fun (intr : K) siteR => do
    let holeR ← probAt pR 0 (siteR - c.nsites)
    return intr + I.VNNNper * holeA * holeR) intr

/-- embedding.py 143-193: the Hamiltonian dressed by the peripheral sites. -/
def neelDressed (E : Env) (I : Interactions K) (c cE : Config) (frontier : List Nat) (dets : List (List Nat)) (ham : SpMat K)
    (pR : List (Int × List K)) : Py (SpMat K) :=
  dets.zipIdx.foldlM (fun (h : SpMat K) p => do
    let v ← unitVect (K := K) c.nbConf p.2
    let pA ← spinsProbabilities c dets v
    let intr ← frontier.foldlM (neelSite E I c cE pA pR) 0
    addHamCoo h intr p.2 p.2) ham

/-- embedding.py 220-223: the three assignments for one peripheral site. -/
def assignProb (pR : List (Int × List K)) (site : Nat) (alpha beta hole : K) : Py (List (Int × List K)) :=
  pR.mapM (fun p => do
    let l ← pySet p.2 site (if p.1 = 1 then beta else if p.1 = -1 then alpha else hole)
    return (p.1, l))

/-- embedding.py 207-223: the new probabilities of the peripheral sites, from those of the block. -/
def updateProb (S : SetSem) (c : Config) (emb : NdMat) (frontier : List Nat) (pL : List (Int × List K)) : Py (List (Int × List K)) :=
  let zero := List.replicate (nRest c.nbh c.nbv c.nblocs) (0 : K)
  frontier.foldlM (fun (pR : List (Int × List K)) siteA => do
    let alpha ← probAt pL 1 siteA
    let beta ← probAt pL (-1) siteA
    let hole ← probAt pL 0 siteA
    let foreign ← foreignNeel S c emb siteA
    foreign.foldlM (fun (pR : List (Int × List K)) siteR => assignProb pR (siteR - c.nsites) alpha beta hole) pR)
    [(1, zero), (-1, zero), (0, zero)]

/-- embedding.py 196-203: the diagonalisation is repeated until there is an eigenvalue; the ground state is taken first
(`IndexError` if there is no column), then the hole probabilities are printed (which may raise). `k` counts the calls. -/
def neelSolve (solve : Solver K) (c : Config) (dets : List (List Nat)) (h : SpMat K) : Nat → Nat → Py (Nat × List K × List (List K) × List K)
  | 0, _ => .error .nonTermination
  | fuel + 1, k => do
    let r ← solve k h
    let gs ← pyGet r.2 0
    if r.1 ≠ [] then do
      let _ ← probabilityRectangular c dets gs 0
      return (k + 1, r.1, r.2, gs)
    else neelSolve solve c dets h fuel (k + 1)

/-- One iteration of `embedding_neel`: the diagonalised matrix, the probabilities of the peripheral sites used for it, the
ground state found. -/
structure NeelStep (K : Type) where
  ham : SpMat K
  prob : List (Int × List K)
  gs : List K

/-- What `embedding_neel` returns (`ham` is the stored Hamiltonian), with two ghost fields: the iterations, and the outcome of
the last convergence test. -/
structure NeelResult (K : Type) where
  ham : SpMat K
  eigvals : List K
  eigvects : List (List K)
  trace : List (NeelStep K)
  converged : Bool

/-- Everything `embedding_neel` computes before the iterations. -/
structure NeelSetup where
  emb : NdMat
  frontier : List Nat
  cE : Config

/-- embedding.py 107-116. -/
def neelSetup (S : SetSem) (c : Config) : Py NeelSetup := do
  let emb ← buildBondMatrixNeelEmbedding c.nbh c.nbv c.nblocs
  let frontier ← frontierNeel S c emb
  let cE ← configNeel S c emb
  return ⟨emb, frontier, cE⟩

/-- embedding.py 130-262: the iterations; `last` is the result of the previous one (`NameError` if there is none). The stored
Hamiltonian is `ham_block`. -/
def neelLoop (E : Env) (sqrt : K → K) (solve : Solver K) (fuel : Nat) (I : Interactions K) (c : Config) (su : NeelSetup)
    (dets : List (List Nat)) (ham : SpMat K) (tol : K) :
    Nat → Nat → List (Int × List K) → List K → Option (List K × List (List K)) → List (NeelStep K) → Py (NeelResult K)
  | 0, _, _, _, none, _ => .error .nameError
  | 0, _, _, _, some (vals, vects), trace => .ok ⟨ham, vals, vects, trace, false⟩
  | iter + 1, k, pR, gsTemp, _, trace => do
    let h ← neelDressed E I c su.cE su.frontier dets ham pR
    let r ← neelSolve solve c dets h fuel k
    let pL ← spinsProbabilities c dets r.2.2.2
    let pR' ← updateProb E.toSetSem c su.emb su.frontier pL
    let trace := trace ++ [⟨h, pR, r.2.2.2⟩]
    let conv ← converged sqrt tol r.2.2.2 gsTemp
    if conv then return ⟨ham, r.2.1, r.2.2.1, trace, true⟩
    else neelLoop E sqrt solve fuel I c su dets ham tol iter r.1 pR' r.2.2.2 (some (r.2.1, r.2.2.1)) trace

/-- embedding.py 19-262, `embedding_neel`: `c` is the block, `dets`, `ham`, `eigvects` come from the file. -/
def embeddingNeel (E : Env) (sqrt : K → K) (solve : Solver K) (fuel : Nat) (I : Interactions K) (c : Config) (dets : List (List Nat))
    (ham : SpMat K) (eigvects : List (List K)) (tol : K) (maxIter : Nat) : Py (NeelResult K) := do
  let gs ← pyGet eigvects 0
  let su ← neelSetup E.toSetSem c
  let pR ← initialProb E.toSetSem c.nbh c.nbv c.nblocs
  neelLoop E sqrt solve fuel I c su dets ham tol maxIter 0 pR gs none []

/-! ### Embedding in neighbouring blocks -/

/-- embedding.py 437-444: neighbours of the sites which have more neighbours in the embedding than in their block. -/
def frontierBlocks (S : SetSem) (c : Config) (nNeighbor : Nat) (emb : NdMat) : Py (List Nat) := do
  let f := fun (shift : Nat) (site : Nat) => (do
    let a ← getNeighbors S site c.bond (.list [])
    let b ← getNeighbors S (site + shift) emb (.list [])
    return if a.length < b.length then b else [] : Py (List Nat))
  let l1 ← (List.range c.nsites).mapM (f 0)
  let l2 ← (List.range nNeighbor).mapM (f c.nsites)
  return S.ofList (l1.flatten ++ l2.flatten)

/-- What `embedding_blocks` computes before the iterations: `configuration_neighbor`, `determinants_neighbor`, the
frontiers, `configuration_embedding` and `configuration_full`. -/
structure BlockSetup where
  cB : Config
  detsB : List (List Nat)
  fA : List Nat
  fB : List Nat
  cE : Config
  cF : Config

/-- embedding.py 421-464. -/
def blockSetup (S : SetSem) (c : Config) (dets : List (List Nat)) (reverse : Bool) : Py BlockSetup := do
  let nb ← if reverse then reverseSpinsBasis S c dets else .ok (c, dets)
  let emb ← buildBondMatrixBlockEmbedding c.nbh c.nbv c.nblocs
  let frontier ← frontierBlocks S c nb.1.nsites emb
  let fA := frontier.filter (fun s => s < c.nsites)
  let fB := frontier.filter (fun s => c.nsites ≤ s)
  let cE ← Config.init emb (c.nholes + nb.1.nholes) (c.nbeta + nb.1.nbeta) (.pair fA fB) .clusters (2 * c.nbh) c.nbv c.nblocs
  let cF ← Config.init emb (c.nholes + nb.1.nholes) (c.nbeta + nb.1.nbeta) (.list []) .clusters (2 * c.nbh) c.nbv c.nblocs
  return ⟨nb.1, nb.2, fA, fB, cE, cF⟩

/-- embedding.py 491-514: the contribution of one frontier site to `intr`. -/
def blockSite (E : Env) (I : Interactions K) (c : Config) (su : BlockSetup) (pA pB : List (Int × List K)) (intr : K) (siteA : Nat) : Py K := do
  let alphaA ← probAt pA 1 siteA
  let betaA ← probAt pA (-1) siteA
  let holeA ← probAt pA 0 siteA
  let nbrs ← getNeighbors E.toSetSem siteA su.cE.bond (.pair su.fA su.fB)
  let intr ← (E.inter su.fB nbrs).foldlM (fun (intr : K) siteB => do
    let alphaB ← probAt pB 1 (siteB - c.nsites)
    let betaB ← probAt pB (-1) (siteB - c.nsites)
    let holeB ← probAt pB 0 (siteB - c.nsites)
    return intr + bondTerm I alphaA betaA holeA alphaB betaB holeB) intr
  let diag ← getDiagonalSecondNeighbors E su.cE siteA
  (E.inter su.fB diag).foldlM (fun (intr : K) siteB => do
    let holeB ← probAt pB 0 (siteB - c.nsites)
    return intr + I.VNNNper * holeA * holeB) intr

/-- embedding.py 484-514: `intr` for the determinant number `ind`. -/
def blockIntr (E : Env) (I : Interactions K) (c : Config) (su : BlockSetup) (dets : List (List Nat)) (pB : List (Int × List K)) (ind : Nat) :
    Py K := do
  let v ← unitVect (K := K) c.nbConf ind
  let pA ← spinsProbabilities c dets v
  su.fA.foldlM (blockSite E I c su pA pB) 0

/-- baseConstruction.py 832-856 with 819-830, `get_distance_hash` and `project_hash` on Python ints (the "sites" of a rotated
determinant can be negative or too large, see `rotateDeterminant`). -/
def getDistanceHashInt (nsites : Nat) (listH listB : List Int) : Nat :=
  if listB = [] then 0
  else
    let nbeta := listB.length
    let listBh : List Nat := listB.map (fun b => (listH.map (fun h => if h ≤ b then 1 else 0)).sum)
    let listB1 : List Int := List.zipWith (fun (b : Int) (bh : Nat) => b - (bh : Int)) listB listBh
    let free : Int := (nsites : Int) - listH.length
    let d0 := ((rangeInt 0 (listB1.getD 0 0)).map
      (fun ind => pyComb (free - ind - 1) ((nbeta : Int) - 1))).sum
    let d1 := ((List.range' 1 (nbeta - 1)).map (fun i =>
      ((rangeInt (listB1.getD (i - 1) 0 + 1) (listB1.getD i 0)).map
        (fun j => pyComb (free - j - 1) ((nbeta : Int) - i - 1))).sum)).sum
    d0 + d1

/-- baseConstruction.py 125-135 with 858-875, `get_index_in_basis` and `compute_hash_table` on a list of Python ints. -/
def getIndexInt (c : Config) (det : List Int) : Nat :=
  let d := reorderInt c det
  let listH := d.take c.nholes
  let listB := (d.drop c.nholes).take c.nbeta
  getDistanceHashInt c.nsites [] listH * pyComb ((c.nsites : Int) - c.nholes) c.nbeta
    + getDistanceHashInt c.nsites listH listB

/-- embedding.py 521-522, 707-710: the index of a rotated determinant. On blocks that are not square the rotated "sites" can be
negative or too large (see `rotateDeterminant`). -/
def rotatedIndex (c : Config) (rot : Nat) (det : List Nat) : Nat := getIndexInt c (rotateDeterminant rot c det)

/-- embedding.py 515-526: `intr` is added to the determinant (one neighbouring block) or to its four rotated copies (blocks on
all sides). -/
def addStaticDressing (c : Config) (neighbor : Bool) (det : List Nat) (ind : Nat) (intr : K) (h : SpMat K) : Py (SpMat K) :=
  if neighbor then addHamCoo h intr ind ind
  else (List.range 4).foldlM (fun (h : SpMat K) rot => addHamCoo h intr (rotatedIndex c rot det) (rotatedIndex c rot det)) h

/-! #### Dynamic part -/

/-- Numbers of particles as the attributes `nholes`, `nbeta`, `nalpha` of a configuration (arbitrary Python ints). -/
structure Counts where
  nholes : Int
  nbeta : Int
  nalpha : Int
  deriving DecidableEq, Repr

/-- The counts of a configuration. -/
def Config.counts (c : Config) : Counts := ⟨c.nholes, c.nbeta, c.nalpha⟩

/-- embedding.py 549, 558, `getattr(configuration, spins_attributes[spin])`. -/
def Counts.get (c : Counts) : Occ → Int
  | .hole => c.nholes
  | .down => c.nbeta
  | .up => c.nalpha

/-- `setattr(configuration, spins_attributes[spin], x)`. -/
def Counts.set (c : Counts) (o : Occ) (x : Int) : Counts :=
  match o with
  | .hole => { c with nholes := x }
  | .down => { c with nbeta := x }
  | .up => { c with nalpha := x }

/-- `Configuration(bond_matrix, nholes, nbeta)` recomputes `nalpha`. -/
def Counts.rebuild (nsites : Nat) (c : Counts) : Counts := ⟨c.nholes, c.nbeta, nsites - c.nholes - c.nbeta⟩

/-- embedding.py 560-570, `configuration_perturbed_A`: one particle of kind `spin` becomes `new`. -/
def countsA (nsites : Nat) (block : Counts) (spin new : Occ) : Counts :=
  ((block.set new (block.get new + 1)).set spin (block.get spin - 1)).rebuild nsites

/-- embedding.py 573-583, `configuration_perturbed_B`: a copy of the neighbour whose counts are set from those of the block. -/
def countsB (nsites : Nat) (neighbor block : Counts) (spin new : Occ) : Counts :=
  ((neighbor.set spin (block.get spin + 1)).set new (block.get new - 1)).rebuild nsites

/-- `get_id()` (baseConstruction.py 61-67). -/
def Counts.id (c : Counts) : Int × Int := (c.nholes, c.nbeta)

/-- A configuration with given counts and the default lattice type. Negative counts of down spins are legal in Python: without
holes the slices `det[0:nbeta]` and `det[nbeta:]` of a list of `nsites` sites then count from the end, as they do for
`nsites + nbeta` down spins. With holes they overlap and no longer describe determinants; there the model raises. (The counts that
Python keeps in the object are passed on apart from the configuration.) -/
def configOf (c : Config) (n : Counts) (restr : List Nat × List Nat) : Py Config :=
  if n.nholes < 0 ∨ (n.nbeta < 0 ∧ n.nholes ≠ 0) then .error .valueError
  else Config.init c.bond n.nholes.toNat (if n.nbeta < 0 then (c.nsites + n.nbeta).toNat else n.nbeta.toNat)
    (.pair restr.1 restr.2) .periodic c.nbh c.nbv c.nblocs

/-- embedding.py 530-548: the keys of `perturbators_memory`. -/
def memoryKeys (block : Counts) : List ((Int × Int) × (Int × Int)) :=
  ([(-1, 0), (-1, 1), (0, -1), (0, 1), (1, -1), (1, 0)] : List (Int × Int)).map (fun d =>
    let s : Int := d.1 + d.2
    let up : Int := if s = -1 then 1 else 0
    let down : Int := if s = 1 then 1 else 0
    ((block.nholes + up - down, block.nbeta + d.2), (block.nholes - up + down, block.nbeta - d.2)))

/-- `perturbators_memory`: for each key the list of the visited pairs of indices. -/
abbrev Memory := List (((Int × Int) × (Int × Int)) × List (Nat × Nat))

/-- embedding.py 585-595, 617-626: moving one site from the particles of kind `old` to those of kind `new`: the three lists of
sites, concatenated and reordered. -/
def exchange (S : SetSem) (c cNew : Config) (det : List Nat) (site : Nat) (old new : Occ) : Py (List Nat) := do
  let holes ← getIndexesOf S c det 0
  let beta ← getIndexesOf S c det (-1)
  let alpha ← getIndexesOf S c det 1
  let lists : Occ → List Nat := fun o => match o with
    | .hole => holes
    | .down => beta
    | .up => alpha
  let removed ← pyRemove (lists old) site
  let upd : Occ → List Nat := fun o => if o = old then removed else if o = new then lists o ++ [site] else lists o
  return reorder cNew (upd .hole ++ upd .down ++ upd .up)

/-- embedding.py 611-615, `reverse_interactions[delta_n_B]`. -/
def reverseInteractions (deltaN : Int) : Py BoolInteractions :=
  if deltaN = 0 then .ok ⟨false, false, true, false, false, false⟩
  else if deltaN = 1 ∨ deltaN = -1 then .ok ⟨true, false, false, true, true, false⟩
  else .error .keyError

/-- All pairs of elements at different positions, the earlier one first (embedding.py 672-673). -/
def pairsOf {α : Type} : List α → List (α × α)
  | [] => []
  | x :: l => l.map (fun y => (x, y)) ++ pairsOf l

/-- embedding.py 674-719: the pair of matrix elements added for two determinants coupled to the same perturbator (coefficients
are real, so `np.conj` is the identity). A zero denominator gives `inf` in numpy and 0 here. -/
def addCoupling (c : Config) (neighbor : Bool) (threshold : K) (gs : List K) (energy energyP : K) (h : SpMat K)
    (p : (List Nat × K) × (List Nat × K)) : Py (SpMat K) := do
  let partB := fun (d : List Nat) => (d.filter (fun s => c.nsites ≤ s)).map (fun s => s - c.nsites)
  let partA := fun (d : List Nat) => d.filter (fun s => s < c.nsites)
  let x1 ← pyGet gs (getIndexInBasis c (partB p.1.1))
  let x2 ← pyGet gs (getIndexInBasis c (partB p.2.1))
  let coupling := (x1 * x2 * p.1.2 * p.2.2) / (2 * energy - energyP)
  let pair := fun (i j : Nat) (h : SpMat K) => (do
    if threshold ≤ |coupling| then
      let h ← addHamCoo h coupling i j
      addHamCoo h coupling j i
    else return h : Py (SpMat K))
  if neighbor then pair (getIndexInBasis c (partA p.1.1)) (getIndexInBasis c (partA p.2.1)) h
  else (List.range 4).foldlM (fun (h : SpMat K) rot => pair (rotatedIndex c rot (partA p.1.1)) (rotatedIndex c rot (partA p.2.1)) h) h

/-- embedding.py 636-719: what is added for one perturbator; `nB` are the counts of `configuration_perturbed_B`. -/
def addPerturbator (E : Env) (I : Interactions K) (c : Config) (su : BlockSetup) (neighbor : Bool) (threshold : K) (gs : List K) (energy : K)
    (cPA cPB : Config) (nB : Counts) (pertA pertB : List Nat) (h : SpMat K) : Py (SpMat K) := do
  let deltaN : Int := nB.nalpha + nB.nbeta - su.cB.nalpha - su.cB.nbeta
  let deltaMs2 : Int := nB.nalpha - nB.nbeta - su.cB.nalpha + su.cB.nbeta
  let pert ← extendDeterminant E.toSetSem cPA cPB pertA pertB
  let energyP ← computeEnergy E su.cF I pert
  let onB ← getIndexesOf E.toSetSem cPB pertB (max deltaN 0 * deltaMs2)
  let onA ← getIndexesOf E.toSetSem cPA pertA (min 0 deltaN * deltaMs2)
  let cRev : Config := { su.cE with restr := (E.inter su.cE.restr.2 (onB.map (· + c.nsites)), E.inter su.cE.restr.1 onA) }
  let b ← reverseInteractions deltaN
  let coupled ← computeDynamic E cRev I b pert
  (pairsOf coupled).foldlM (addCoupling c neighbor threshold gs energy energyP) h

/-- embedding.py 603-634: one determinant of the neighbour and one of its sites; `nA` and `nB` are the counts of the two perturbed
configurations. -/
def blockPair (E : Env) (I : Interactions K) (c : Config) (su : BlockSetup) (neighbor : Bool) (threshold : K) (gs : List K) (energy : K)
    (cPA cPB : Config) (nA nB : Counts) (pertA : List Nat) (spin new : Occ) (detB : List Nat) (st : Memory × SpMat K) (newSite : Nat) : Py (Memory × SpMat K) := do
  let s ← getSpinSite su.cB detB (newSite - c.nsites)
  if s = new then do
    let pertB ← exchange E.toSetSem su.cB cPB detB (newSite - c.nsites) new spin
    let key := (nA.id, nB.id)
    let ids := (computeHashTable cPA pertA, computeHashTable cPB pertB)
    match st.1.lookup key with
    | none => .error .keyError
    | some l =>
      if ids ∈ l then return st
      else do
        let mem := st.1.map (fun p => if p.1 = key then (p.1, p.2 ++ [ids]) else p)
        let h ← addPerturbator E I c su neighbor threshold gs energy cPA cPB nB pertA pertB st.2
        return (mem, h)
  else return st

/-- embedding.py 557-719: one frontier site and one new kind of particle on it. -/
def blockExchange (E : Env) (I : Interactions K) (c : Config) (su : BlockSetup) (neighbor : Bool) (threshold : K) (gs : List K) (energy : K)
    (detA : List Nat) (site : Nat) (spin : Occ) (st : Memory × SpMat K) (new : Occ) : Py (Memory × SpMat K) :=
  if 0 < su.cB.counts.get new then do
    let nA := countsA c.nsites c.counts spin new
    let nB := countsB su.cB.nsites su.cB.counts c.counts spin new
    let cPA ← configOf c nA c.restr
    let cPB ← configOf su.cB nB (su.cB.restr.2, su.cB.restr.1)
    let pertA ← exchange E.toSetSem c cPA detA site spin new
    let n1 ← getNeighbors E.toSetSem site su.cE.bond (.list su.fB)
    let n2 ← getSecondNeighbors E.toSetSem site su.cE.bond (.list su.fB)
    su.detsB.foldlM (fun st detB =>
      (n1 ++ n2).foldlM (blockPair E I c su neighbor threshold gs energy cPA cPB nA nB pertA spin new detB) st) st
  else .ok st

/-- embedding.py 528-719: the dynamic part for one determinant of the block. -/
def blockDynamic (E : Env) (I : Interactions K) (c : Config) (su : BlockSetup) (neighbor : Bool) (threshold : K) (gs : List K) (energy : K)
    (detA : List Nat) (h : SpMat K) : Py (SpMat K) := do
  let st ← su.fA.foldlM (fun (st : Memory × SpMat K) site => do
    let spin ← getSpinSite c detA site
    (([.down, .hole, .up] : List Occ).filter (fun o => o ≠ spin)).foldlM
      (blockExchange E I c su neighbor threshold gs energy detA site spin) st)
    ((memoryKeys c.counts).map (fun k => (k, [])), h)
  return st.2

/-- The options of `embedding_blocks` (embedding.py 341). -/
structure BlockOptions (K : Type) where
  dynamic : Bool
  neighbor : Bool
  reverse : Bool
  threshold : K

/-- embedding.py 475-723: the dressed Hamiltonian of one iteration. -/
def blockDressed (E : Env) (I : Interactions K) (c : Config) (su : BlockSetup) (o : BlockOptions K) (dets : List (List Nat)) (ham : SpMat K)
    (gs : List K) (energy : K) : Py (SpMat K) := do
  let pB ← spinsProbabilities c dets gs o.reverse
  dets.zipIdx.foldlM (fun (h : SpMat K) p => do
    let intr ← blockIntr E I c su dets pB p.2
    let h ← addStaticDressing c o.neighbor p.1 p.2 intr h
    if o.dynamic then blockDynamic E I c su o.neighbor o.threshold gs energy p.1 h else return h) ham

/-- embedding.py 741-746: the diagonalisation is repeated until there is an eigenvalue. -/
def blockSolve (solve : Solver K) (h : SpMat K) : Nat → Nat → Py (Nat × List K × List (List K))
  | 0, _ => .error .nonTermination
  | fuel + 1, k => do
    let r ← solve k h
    if r.1 ≠ [] then return (k + 1, r.1, r.2)
    else blockSolve solve h fuel (k + 1)

/-- One iteration of `embedding_blocks`: the diagonalised matrix and the ground state found. -/
structure BlockStep (K : Type) where
  ham : SpMat K
  gs : List K

/-- What `embedding_blocks` returns when it converges, with the iterations as a ghost field. -/
structure BlockResult (K : Type) where
  ham : SpMat K
  eigvals : List K
  eigvects : List (List K)
  trace : List (BlockStep K)

/-- embedding.py 468-766: the iterations. Python returns `None` (here `Sum.inr`, with the iterations) when the number
of iterations is used up; the final message raises `NameError` if there was no iteration. -/
def blockLoop (E : Env) (sqrt : K → K) (solve : Solver K) (fuel : Nat) (I : Interactions K) (c : Config) (su : BlockSetup) (o : BlockOptions K)
    (dets : List (List Nat)) (ham : SpMat K) (tol : K) :
    Nat → Nat → List K → K → Bool → List (BlockStep K) → Py (BlockResult K ⊕ List (BlockStep K))
  | 0, _, _, _, false, _ => .error .nameError
  | 0, _, _, _, true, trace => .ok (.inr trace)
  | iter + 1, k, gsTemp, energy, _, trace => do
    let h ← blockDressed E I c su o dets ham gsTemp energy
    let r ← blockSolve solve h fuel k
    let gs ← pyGet r.2.2 0
    let e0 ← pyGet r.2.1 0
    let trace := trace ++ [⟨h, gs⟩]
    let conv ← converged sqrt tol gs gsTemp
    if conv then return .inl ⟨h, r.2.1, r.2.2, trace⟩
    else blockLoop E sqrt solve fuel I c su o dets ham tol iter r.1 gs e0 true trace

/-- embedding.py 341-766, `embedding_blocks`: `c` is the block, `dets`, `ham`, `eigvals`, `eigvects` come from the file. -/
def embeddingBlocks (E : Env) (sqrt : K → K) (solve : Solver K) (fuel : Nat) (I : Interactions K) (c : Config) (o : BlockOptions K)
    (dets : List (List Nat)) (ham : SpMat K) (eigvals : List K) (eigvects : List (List K)) (tol : K) (maxIter : Nat) :
    Py (BlockResult K ⊕ List (BlockStep K)) := do
  let gs ← pyGet eigvects 0
  let e0 ← pyGet eigvals 0
  let su ← blockSetup E.toSetSem c dets o.reverse
  blockLoop E sqrt solve fuel I c su o dets ham tol maxIter 0 gs e0 false []

end

end TJ
