/-
Model of /repo/davidson.py, `modified_davidson_algorithm`, with the denominators of the corrections.
-/
import Verif.Model.Davidson

namespace TJ

open Matrix

section
variable {K : Type} [Field K] [LinearOrder K] {d : Nat}

/-- davidson.py 280-283: the preconditioned residue. `1 / (diag - eigval)` with a zero denominator is `inf` in numpy (with a warning), and
`inf` times a zero component of the residue is `nan`; from then on `lin.qr` and `lin.eigh` get arrays with `nan`. Here such a division
ends the computation with `zeroDivisionError`. -/
def preconditionStrict (A : Matrix (Fin d) (Fin d) K) (lam : K) (r : Fin d → K) : Py (Fin d → K) :=
  if ∃ i, A i i - lam = 0 then .error .zeroDivisionError else .ok (fun i => (1 / (A i i - lam)) * r i)

/-- davidson.py 258-290: the loop of `modified_davidson_algorithm`, as `davidsonLoop`, with `preconditionStrict`. -/
def strictLoop (L : LinAlg K) (A : Matrix (Fin d) (Fin d) K) (nb : Nat) (tol : K) (dimMax : Nat) :
    Nat → List (Fin d → K) → Option (List K × List (Fin d → K)) → List (List (Fin d → K)) → Py (DavidsonResult K d)
  | 0, _, none, _ => .error .nameError
  | 0, _, some (vals, vects), trace => .ok ⟨vals, vects, trace, false⟩
  | stp + 1, V, _, trace => do
    let r ← ritz L A V nb
    let trace := trace ++ [V]
    if r.2.2.all (fun res => decide (L.norm res ≤ tol)) then return ⟨r.1, r.2.1, trace, true⟩
    else do
      let corrections ← (List.range nb).mapM (fun ind => do
        let lam ← pyGet r.1 ind
        let res ← pyGet r.2.2 ind
        preconditionStrict A lam res)
      let V' := if (dimMax : Int) - nb < d then L.qr d (r.2.1 ++ corrections) else L.qr d (V ++ corrections)
      strictLoop L A nb tol dimMax stp V' (some (r.1, r.2.1)) trace

/-- davidson.py 229-290, `modified_davidson_algorithm`, as `modifiedDavidson`, with `preconditionStrict`. -/
def strictDavidson (L : LinAlg K) (A : Matrix (Fin d) (Fin d) K) (nbVal : Nat) (guess : Option (List (Fin d → K)))
    (stp : Nat) (tol : K) (dimMax : Nat) : Py (DavidsonResult K d) :=
  let dimMax := if dimMax = 0 then d else dimMax
  let nb := min nbVal dimMax
  let guess := guess.getD (L.rand d nb)
  let V := if 1 < nb then L.qr d guess else guess
  strictLoop L A nb tol dimMax stp V none []

/-- davidson.py 187-226, one iteration of `modified_davidson_algorithm_opt`, as `optStep`: `lin.inv` of a diagonal matrix with a zero raises
`LinAlgError` (line 215), for which `zeroDivisionError` stands here. -/
def optStepStrict (L : LinAlg K) (A : Matrix (Fin d) (Fin d) K) (nbVal nu0 : Nat) (tol droptol eta : K) (dimMax : Nat)
    (s : OptState K d) : Py (OptState K d × Bool) := do
  let nu := min s.krylov.length (nu0 - s.nbFound)
  let r ← ritz L A s.krylov nu
  let conv := r.2.2.map (fun res => decide (L.norm res ≤ tol))
  let nc := conv.count true
  let st ← ((List.range nu).zip conv).foldlM (deflateTurn nbVal s.nbFound r.1) (s.eigvals, s.eigvects, r.2.1)
  let nbFound := s.nbFound + nc
  let accepted := s.accepted ++ [nc]
  if nbVal ≤ nbFound then return (⟨nbFound, st.1, st.2.1, s.krylov, accepted⟩, true)
  else do
    let temp ← (List.range nu).mapM (fun ind =>
      if nc ≤ ind then do
        let lam ← pyGet r.1 ind
        let res ← pyGet r.2.2 ind
        preconditionStrict A lam res
      else return 0)
    let corrections ← getMeaningfulCorrections L s.krylov temp droptol eta nu
    let krylov := if (dimMax : Int) - corrections.length < d ∨ nc ≠ 0 ∨ corrections.length = 0
      then L.qr d (st.2.2.drop nc ++ corrections) else L.qr d (s.krylov ++ corrections)
    return (⟨nbFound, st.1, st.2.1, krylov, accepted⟩, false)

/-- davidson.py 185-227: the loop, as `optLoop`. -/
def optLoopStrict (L : LinAlg K) (A : Matrix (Fin d) (Fin d) K) (nbVal nu0 : Nat) (tol droptol eta : K) (dimMax : Nat) :
    Nat → OptState K d → Py (OptState K d)
  | 0, s => .ok s
  | stp + 1, s => do
    let r ← optStepStrict L A nbVal nu0 tol droptol eta dimMax s
    if r.2 then return r.1 else optLoopStrict L A nbVal nu0 tol droptol eta dimMax stp r.1

/-- davidson.py 156-227, `modified_davidson_algorithm_opt`, as `modifiedDavidsonOpt`. -/
def strictDavidsonOpt (L : LinAlg K) (A : Matrix (Fin d) (Fin d) K) (nbVal initBlockSize stp : Nat) (tol droptol eta : K)
    (dimMax : Nat) : Py (OptState K d) :=
  let dimMax := if dimMax = 0 then d else dimMax
  let nu0 := max initBlockSize nbVal
  optLoopStrict L A nbVal nu0 tol droptol eta dimMax stp
    ⟨0, [], List.replicate nbVal 0, L.qr d (L.rand d nu0), []⟩

/-- davidson.py 50-98, `davidson_algorithm`, as `davidsonAlgorithm`: `lin.inv` in line 75 raises `LinAlgError` for a zero on the diagonal, for
which `zeroDivisionError` stands here. (The corrections of the following iterations do not divide, line 94.) -/
def strictDavidsonAlgorithm (L : LinAlg K) (A : Matrix (Fin d) (Fin d) K) (stp : Nat) (tol : K) (round : K → K) (fuel : Nat) :
    Py (K × (Fin d → K)) := do
  let V := L.rand d 1
  let p ← lowestPair L A V
  if L.norm p.2.2 < tol then return (p.1, p.2.1)
  else do
    let t ← preconditionStrict A p.1 p.2.2
    outerLoop L A tol round stp fuel (L.qr d (V ++ [t])) p

end

end TJ
