/-
Model of davidson.py. Vectors of the full space are functions on `Fin d`, arrays with
`d` rows are lists of columns. Numbers are elements of an arbitrary ordered field: rounding
is not modelled. The LAPACK and numpy.random calls are parameters (`LinAlg`).
-/
import Verif.Model.Base
import Mathlib.Data.Matrix.Mul
import Mathlib.Algebra.Order.Field.Basic

namespace TJ

open Matrix

/-- The numerical library calls made by davidson.py. -/
structure LinAlg (K : Type) where
  /-- the square root in `lin.norm` -/
  sqrt : K → K
  /-- `lin.eigh`: eigenvalues and columns of eigenvectors -/
  eigh : (n : Nat) → Matrix (Fin n) (Fin n) K → (Fin n → K) × (Fin n → Fin n → K)
  /-- first component of `lin.qr` -/
  qr : (d : Nat) → List (Fin d → K) → List (Fin d → K)
  /-- `np.random.rand(d, m)` -/
  rand : (d m : Nat) → List (Fin d → K)

/-- A slice `l[:k]`, also for negative `k`. -/
def pySliceTo {α : Type} (l : List α) (k : Int) : List α :=
  if 0 ≤ k then l.take k.toNat else l.take (l.length - (-k).toNat)

/-- A slice `l[-k:]` for a natural number `k`: as `-0` is `0`, `l[-0:]` is the whole list. -/
def pySliceLast {α : Type} (l : List α) (k : Nat) : List α :=
  if k = 0 then l else l.drop (l.length - k)

section
variable {K : Type} [Field K] [LinearOrder K] {d : Nat}

/-- `lin.norm(v)`. -/
def LinAlg.norm (L : LinAlg K) (v : Fin d → K) : K := L.sqrt (v ⬝ᵥ v)

/-- davidson.py 101-120, `get_lowests_eig` (for `nb_eig ≥ 0`). The columns of `eigvects` are the
elements of a list. `sorted(list(set(l)))` is the sorted list of the different elements. -/
def getLowestsEig {α : Type} (eigvals : List K) (eigvects : List α) (nb : Nat) : Py (List K × List α) := do
  let sortedEigvals := (eigvals.insertionSort (· ≤ ·)).take nb
  let valSorted := sortedEigvals.dedup.insertionSort (· ≤ ·)
  let sortedIndexes := valSorted.foldl (fun (acc : List Nat) val =>
    let valIndices := (List.range eigvals.length).filter (fun i => decide (eigvals[i]? = some val))
    acc ++ pySliceTo valIndices (min (valIndices.length : Int) ((nb : Int) - acc.length))) []
  let vectSorted ← sortedIndexes.mapM (fun i => pyGet eigvects i)
  return (sortedEigvals, vectSorted)

/-- davidson.py 142-148: `while True` loop, one pass projects the vector out of all columns; the
loop is left after `max_orth - 1 = 1` passes or if the norm is larger than `eta * old`. -/
def projectLoop (L : LinAlg K) (eta : K) (cols : List (Fin d → K)) : Nat → Nat → (Fin d → K) → Py (Fin d → K)
  | 0, _, _ => .error .nonTermination
  | fuel + 1, indK, t =>
    let old := L.norm t
    let t' := cols.foldl (fun t q => (1 - vecMulVec q q) *ᵥ t) t
    let indK := indK + 1
    if indK = 1 ∨ eta * old < L.norm t' then .ok t' else projectLoop L eta cols fuel indK t'

/-- davidson.py 122-153, `get_meaningful_corrections` (the modification of `temp_corrections` in
place has no effect outside). `IndexError` when there are less than `nu` corrections. -/
def getMeaningfulCorrections (L : LinAlg K) (krylov temp : List (Fin d → K)) (droptol eta : K) (nu : Nat) :
    Py (List (Fin d → K)) := do
  let st ← (List.range nu).foldlM (fun (st : List (Fin d → K) × Nat) corr => do
    let t0 ← pyGet temp corr
    let t ← projectLoop L eta st.1 2 0 t0
    if droptol < L.norm t then return (st.1 ++ [(L.norm t)⁻¹ • t], st.2 + 1)
    else return st) (krylov, 0)
  return pySliceLast st.1 st.2

/-- davidson.py 260-262: `krylov_basis.T A krylov_basis`. -/
def rayleigh (A : Matrix (Fin d) (Fin d) K) (V : List (Fin d → K)) : Matrix (Fin V.length) (Fin V.length) K :=
  fun i j => V.get i ⬝ᵥ (A *ᵥ V.get j)

/-- The product of an array (list of columns) with a vector. -/
def combine (V : List (Fin d → K)) (y : Fin V.length → K) : Fin d → K := ∑ i, y i • V.get i

/-- davidson.py 260-270 (and 187-198): Ritz values, Ritz vectors and residues of the search space
`V`. `np.dot(mat_w, y)` is `A` applied to the columns, then combined. -/
def ritz (L : LinAlg K) (A : Matrix (Fin d) (Fin d) K) (V : List (Fin d → K)) (nb : Nat) :
    Py (List K × List (Fin d → K) × List (Fin d → K)) := do
  let e := L.eigh V.length (rayleigh A V)
  let low ← getLowestsEig (List.ofFn e.1) (List.ofFn e.2) nb
  let ritzVectors := low.2.map (combine V)
  let residues ← (List.range nb).mapM (fun col => do
    let lam ← pyGet low.1 col
    let u ← pyGet ritzVectors col
    let y ← pyGet low.2 col
    return lam • u - ∑ i, y i • (A *ᵥ V.get i))
  return (low.1, ritzVectors, residues)

/-- What `modified_davidson_algorithm` returns, with two ghost fields used in statements: the
search spaces at the beginning of each iteration, and whether the convergence test succeeded. -/
structure DavidsonResult (K : Type) (d : Nat) where
  eigvals : List K
  eigvects : List (Fin d → K)
  trace : List (List (Fin d → K))
  converged : Bool

/-- davidson.py 280-283: the preconditioned residue. (A zero denominator gives `inf` or `nan` in numpy
and 0 here; C126 tells when it occurs. After a zero denominator the search spaces of the model are not those of numpy.) -/
def precondition (A : Matrix (Fin d) (Fin d) K) (lam : K) (r : Fin d → K) : Fin d → K :=
  fun i => (1 / (A i i - lam)) * r i

/-- davidson.py 258-290: the loop of `modified_davidson_algorithm`. `last` are the values of
`eigvals_temp`, `ritz_vectors` in the previous iteration: `NameError` if there is none.
`krylov_basis.shape[0]` is the dimension `d`. -/
def davidsonLoop (L : LinAlg K) (A : Matrix (Fin d) (Fin d) K) (nb : Nat) (tol : K) (dimMax : Nat) :
    Nat → List (Fin d → K) → Option (List K × List (Fin d → K)) → List (List (Fin d → K)) → Py (DavidsonResult K d)
  | 0, _, none, _ => .error .nameError
  | 0, _, some (vals, vects), trace => .ok ⟨vals, vects, trace, false⟩
  | stp + 1, V, _, trace => do
    let r ← ritz L A V nb
    let trace := trace ++ [V]
    if r.2.2.all (fun res => decide (L.norm res ≤ tol)) then return ⟨r.1, r.2.1, trace, true⟩
    else do
      let corrections ← (List.range nb).mapM (fun ind => do
        let lam ← pyGet r.1 ind
        let res ← pyGet r.2.2 ind
        return precondition A lam res)
      let V' := if (dimMax : Int) - nb < d then L.qr d (r.2.1 ++ corrections) else L.qr d (V ++ corrections)
      davidsonLoop L A nb tol dimMax stp V' (some (r.1, r.2.1)) trace

/-- davidson.py 229-290, `modified_davidson_algorithm`. -/
def modifiedDavidson (L : LinAlg K) (A : Matrix (Fin d) (Fin d) K) (nbVal : Nat) (guess : Option (List (Fin d → K)))
    (stp : Nat) (tol : K) (dimMax : Nat) : Py (DavidsonResult K d) :=
  let dimMax := if dimMax = 0 then d else dimMax
  let nb := min nbVal dimMax
  let guess := guess.getD (L.rand d nb)
  let V := if 1 < nb then L.qr d guess else guess
  davidsonLoop L A nb tol dimMax stp V none []

/-! ### The deflating variant -/

/-- davidson.py 202-208, one turn of the deflation loop. `nbc` is reset to 0 in each turn, so
the accepted vector goes to column `nb_found`, and the "swap" of `ritz_vectors[:, col]`
and `ritz_vectors[:, 0]` is done with views: first column `col` is overwritten with column 0, then
column 0 with the new column `col`, i.e. with itself. The state is (eigvals, eigvects,
ritz_vectors). -/
def deflateTurn (nbVal nbFound : Nat) (vals : List K) (st : List K × List (Fin d → K) × List (Fin d → K))
    (colConv : Nat × Bool) : Py (List K × List (Fin d → K) × List (Fin d → K)) :=
  if colConv.2 = true ∧ nbFound < nbVal then do
    let lam ← pyGet vals colConv.1
    let u ← pyGet st.2.2 colConv.1
    let eigvects ← pySet st.2.1 (nbFound + 0) u
    let u0 ← pyGet st.2.2 0
    let r1 ← pySet st.2.2 colConv.1 u0
    let u1 ← pyGet r1 colConv.1
    let r2 ← pySet r1 0 u1
    return (st.1 ++ [lam], eigvects, r2)
  else return st

/-- State of `modified_davidson_algorithm_opt` between iterations; `accepted` is a ghost field: the
number of converged residues per iteration. -/
structure OptState (K : Type) (d : Nat) where
  nbFound : Nat
  eigvals : List K
  eigvects : List (Fin d → K)
  krylov : List (Fin d → K)
  accepted : List Nat

/-- davidson.py 187-226, one iteration of `modified_davidson_algorithm_opt`; the flag tells
whether the function returns. The corrections are `lin.inv(diag(A) - lambda)` times the residue
(`LinAlgError` for a zero denominator: `optStepStrict` in Verif/Model/StrictDavidson.lean). -/
def optStep (L : LinAlg K) (A : Matrix (Fin d) (Fin d) K) (nbVal nu0 : Nat) (tol droptol eta : K) (dimMax : Nat)
    (s : OptState K d) : Py (OptState K d × Bool) := do
  let nu := min s.krylov.length (nu0 - s.nbFound)
  let r ← ritz L A s.krylov nu
  let conv := r.2.2.map (fun res => decide (L.norm res ≤ tol))
  let nc := conv.count true
  let st ← ((List.range nu).zip conv).foldlM (deflateTurn nbVal s.nbFound r.1) (s.eigvals, s.eigvects, r.2.1)
  let nbFound := s.nbFound + nc
  let accepted := s.accepted ++ [nc]
  if nbVal ≤ nbFound then return (⟨nbFound, st.1, st.2.1, s.krylov, accepted⟩, true)
  else do
    let temp ← (List.range nu).mapM (fun ind =>
      if nc ≤ ind then do
        let lam ← pyGet r.1 ind
        let res ← pyGet r.2.2 ind
        return precondition A lam res
      else return 0)
    let corrections ← getMeaningfulCorrections L s.krylov temp droptol eta nu
    let krylov := if (dimMax : Int) - corrections.length < d ∨ nc ≠ 0 ∨ corrections.length = 0
      then L.qr d (st.2.2.drop nc ++ corrections) else L.qr d (s.krylov ++ corrections)
    return (⟨nbFound, st.1, st.2.1, krylov, accepted⟩, false)

/-- davidson.py 185-227: the loop. -/
def optLoop (L : LinAlg K) (A : Matrix (Fin d) (Fin d) K) (nbVal nu0 : Nat) (tol droptol eta : K) (dimMax : Nat) :
    Nat → OptState K d → Py (OptState K d)
  | 0, s => .ok s
  | stp + 1, s => do
    let r ← optStep L A nbVal nu0 tol droptol eta dimMax s
    if r.2 then return r.1 else optLoop L A nbVal nu0 tol droptol eta dimMax stp r.1

/-- davidson.py 156-227, `modified_davidson_algorithm_opt`; the returned object has the fields
`eigvals`, `eigvects` of the final state. -/
def modifiedDavidsonOpt (L : LinAlg K) (A : Matrix (Fin d) (Fin d) K) (nbVal initBlockSize stp : Nat) (tol droptol eta : K)
    (dimMax : Nat) : Py (OptState K d) :=
  let dimMax := if dimMax = 0 then d else dimMax
  let nu0 := max initBlockSize nbVal
  optLoop L A nbVal nu0 tol droptol eta dimMax stp
    ⟨0, [], List.replicate nbVal 0, L.qr d (L.rand d nu0), []⟩

/-! ### The single-vector variant -/

/-- davidson.py 62-71, 80-89: lowest eigenpair in the search space and its residue. `index(min(val))`
raises `ValueError` on an empty list. -/
def lowestPair (L : LinAlg K) (A : Matrix (Fin d) (Fin d) K) (V : List (Fin d → K)) : Py (K × (Fin d → K) × (Fin d → K)) := do
  let e := L.eigh V.length (rayleigh A V)
  let vals := List.ofFn e.1
  match vals.min? with
  | none => .error .valueError
  | some m => do
    let ind ← pyIndex vals m
    let lam ← pyGet vals ind
    let y ← pyGet (List.ofFn e.2) ind
    let u := combine V y
    return (lam, u, A *ᵥ u - lam • u)

/-- davidson.py 79-96: the inner loop, `stp` turns; `Sum.inl` is a return. -/
def innerLoop (L : LinAlg K) (A : Matrix (Fin d) (Fin d) K) (tol : K) (round : K → K) :
    Nat → List (Fin d → K) → K × (Fin d → K) × (Fin d → K) → Py ((K × (Fin d → K)) ⊕ (List (Fin d → K) × K × (Fin d → K) × (Fin d → K)))
  | 0, V, p => .ok (.inr (V, p))
  | stp + 1, V, _ => do
    let p ← lowestPair L A V
    if L.norm p.2.2 < tol then return .inl (round p.1, p.2.1)
    else innerLoop L A tol round stp (L.qr d (V ++ [p.2.2])) p

/-- davidson.py 78-98: `while lin.norm(rj) > tol`, with a bound on the number of turns. -/
def outerLoop (L : LinAlg K) (A : Matrix (Fin d) (Fin d) K) (tol : K) (round : K → K) (stp : Nat) :
    Nat → List (Fin d → K) → K × (Fin d → K) × (Fin d → K) → Py (K × (Fin d → K))
  | 0, _, _ => .error .nonTermination
  | fuel + 1, V, p =>
    if tol < L.norm p.2.2 then do
      let r ← innerLoop L A tol round stp V p
      match r with
      | .inl x => return x
      | .inr (V', p') => outerLoop L A tol round stp fuel V' p'
    else .ok (round p.1, p.2.1)

/-- davidson.py 50-98, `davidson_algorithm`; `round` is `round(., prec)`. (`LinAlgError` of `lin.inv` for a
zero denominator: `strictDavidsonAlgorithm` in Verif/Model/StrictDavidson.lean.) -/
def davidsonAlgorithm (L : LinAlg K) (A : Matrix (Fin d) (Fin d) K) (stp : Nat) (tol : K) (round : K → K) (fuel : Nat) :
    Py (K × (Fin d → K)) := do
  let V := L.rand d 1
  let p ← lowestPair L A V
  if L.norm p.2.2 < tol then return (p.1, p.2.1)
  else outerLoop L A tol round stp fuel (L.qr d (V ++ [precondition A p.1 p.2.2])) p

/-! ### Gram-Schmidt -/

/-- davidson.py 307-324, `gramSchmidt`. The loop runs over `range(1, dim)` where `dim` is the
number of rows; `V[:, [col]]` raises `IndexError` if there are less columns, and the columns from
`dim` on stay zero. (Division by a zero norm gives `nan` in numpy and 0 here.) -/
def gramSchmidt (L : LinAlg K) (V : List (Fin d → K)) : Py (List (Fin d → K)) := do
  let v0 ← pyGet V 0
  let A ← pySet (List.replicate V.length (0 : Fin d → K)) 0 ((L.norm v0)⁻¹ • v0)
  (List.range' 1 (d - 1)).foldlM (fun (A : List (Fin d → K)) col => do
    let v ← pyGet V col
    let vect ← (List.range col).foldlM (fun (vect : Fin d → K) prec => do
      let p ← pyGet A prec
      return vect - ((vect ⬝ᵥ p) / (p ⬝ᵥ p)) • p) v
    pySet A col ((L.norm vect)⁻¹ • vect)) A

/-- The slice `P[m:, m:]`. -/
def sliceFrom {n : Nat} (m : Nat) (P : Matrix (Fin n) (Fin n) K) : Matrix (Fin (n - m)) (Fin (n - m)) K :=
  fun i j => P ⟨m + i, by omega⟩ ⟨m + j, by omega⟩

/-- davidson.py 326-343, `perform_matrix_orthogonal_projection`: the columns `vects` are completed with columns of ones. `np.ones` raises
`ValueError` for a negative number of columns. The result has its size as first component. -/
def performMatrixOrthogonalProjection (L : LinAlg K) (A : Matrix (Fin d) (Fin d) K) (vects : List (Fin d → K)) :
    Py (Σ n, Matrix (Fin n) (Fin n) K) :=
  if d < vects.length then .error .valueError
  else
    let projector := L.qr d (vects ++ List.replicate (d - vects.length) (fun _ => 1))
    .ok ⟨_, sliceFrom vects.length (rayleigh A projector)⟩

end

end TJ
