/-
Properties of embedding_blocks: the static dressing (C61), the exchange across the frontier (C62).
-/
import Verif.Props.Embedding
import Verif.Lemmas.EmbedRot

namespace TJ

section
variable {K : Type} [Field K] [LinearOrder K] [IsStrictOrderedRing K]

/-! ### C61 -/

theorem staticDressing_entry {c : Config} {det : List Nat} {ind : Nat} {intr : K} {M M' : SpMat K}
    (h : addStaticDressing c false det ind intr M = .ok M') :
    M'.dim = M.dim ∧ ∀ i j, M'.entry i j = M.entry i j +
      ∑ r ∈ Finset.range 4, if rotatedIndex c r det = i ∧ rotatedIndex c r det = j then intr else 0 := by
  obtain ⟨h1, h2⟩ := foldlM_entry (g := fun (r : Nat) i j => if rotatedIndex c r det = i ∧ rotatedIndex c r det = j then intr else 0)
    (fun M r M' e => ⟨(addHamCoo_entry e).1, (addHamCoo_entry e).2.1⟩) _ _ _ h
  refine ⟨h1, fun i j => ?_⟩
  rw [h2, sum_map_range]

/-- The value of `intr`, 0 if it is not defined. -/
def intrVal (E : Env) (I : Interactions K) (c : Config) (su : BlockSetup) (dets : List (List Nat)) (pB : List (Int × List K)) (i : Nat) : K :=
  match blockIntr E I c su dets pB i with
  | .ok x => x
  | .error _ => 0

theorem blockDressed_entry {E : Env} {I : Interactions K} {c : Config} {su : BlockSetup} {o : BlockOptions K} (ho : o.neighbor = false)
    (hd : o.dynamic = false) {dets : List (List Nat)} {ham h : SpMat K} {gs : List K} {energy : K}
    (hh : blockDressed E I c su o dets ham gs energy = .ok h) :
    ∃ pB, spinsProbabilities c dets gs o.reverse = .ok pB ∧ ∀ i j, h.entry i j = ham.entry i j +
      ∑ p ∈ Finset.range dets.length, ∑ r ∈ Finset.range 4,
        if rotIdx c dets r p = i ∧ rotIdx c dets r p = j then intrVal E I c su dets pB p else 0 := by
  unfold blockDressed at hh
  obtain ⟨pB, e0, hh⟩ := bind_eq_ok.1 hh
  refine ⟨pB, e0, fun i j => ?_⟩
  have key := (foldlM_entry (g := fun (p : List Nat × Nat) i j => ∑ r ∈ Finset.range 4,
      if rotatedIndex c r p.1 = i ∧ rotatedIndex c r p.1 = j then intrVal E I c su dets pB p.2 else 0) ?_ _ _ _ hh).2 i j
  · rw [key]
    congr 1
    rw [← sum_map_range]
    congr 1
    apply List.ext_getElem
    · simp
    · intro n h1 h2
      simp only [List.getElem_map, List.getElem_zipIdx, List.getElem_range, zero_add]
      have hn : n < dets.length := by simpa using h1
      refine Finset.sum_congr rfl fun r _ => ?_
      have : rotIdx c dets (r : Int) n = rotatedIndex c r dets[n] := by
        unfold rotIdx rotatedIndex
        rw [List.getD_eq_getElem dets [] hn]
      rw [this]
  · intro M p M' e
    obtain ⟨intr, e1, e⟩ := bind_eq_ok.1 e
    obtain ⟨M1, e2, e⟩ := bind_eq_ok.1 e
    rw [hd, if_neg (by simp)] at e
    obtain rfl := Except.ok.inj e
    rw [ho] at e2
    have hx : intrVal E I c su dets pB p.2 = intr := by unfold intrVal; rw [e1]
    simp only [hx]
    exact staticDressing_entry e2

/-- C61. On a square block with blocks on all four sides the static dressing is diagonal, and a determinant and its rotated copies
get the same dressing, for every state of the neighbours. -/
theorem C61_rotation_invariant (E : Env) (I : Interactions K) (c : Config) (L : Nat) (hq : SquareConf c L)
    (hn : c.nholes + c.nbeta ≤ c.nsites) (dets : List (List Nat)) (hb : constructBasis c = .ok dets) (su : BlockSetup) (o : BlockOptions K)
    (ho : o.neighbor = false) (hd : o.dynamic = false) (ham h : SpMat K) (gs : List K) (energy : K)
    (hh : blockDressed E I c su o dets ham gs energy = .ok h) :
    (∀ i j, i ≠ j → h.entry i j = ham.entry i j) ∧
    ∀ (k : Int) (i i' : Nat) (hi : i < dets.length) (hi' : i' < dets.length),
      rotateDeterminant k c dets[i] = dets[i'].map (fun (s : Nat) => (s : Int)) →
      h.entry i' i' - ham.entry i' i' = h.entry i i - ham.entry i i := by
  obtain ⟨pB, _, he⟩ := blockDressed_entry ho hd hh
  constructor
  · intro i j hij
    rw [he, Finset.sum_eq_zero, add_zero]
    intro p _
    refine Finset.sum_eq_zero fun r _ => if_neg ?_
    rintro ⟨rfl, h⟩
    exact hij h
  · intro k i i' hi hi' hr
    have e : i' = rotIdx c dets k i := by
      unfold rotIdx
      rw [List.getD_eq_getElem dets [] hi, hr, getIndexInt_cast]
      exact (C04_index_is_position c dets hb i' hi').symm
    subst e
    rw [he, he, add_sub_cancel_left, add_sub_cancel_left]
    simp only [and_self]
    refine Finset.sum_congr rfl fun p hp => ?_
    have hp := Finset.mem_range.1 hp
    simp only [rotIdx_eq_iff hq hn hb _ _ hp hi]
    exact sum_rotations (fun m => if rotIdx c dets m p = i then intrVal E I c su dets pB p else 0)
      (fun a b h => by rw [rotIdx_mod h]) k

end

/-- The diagonal of a matrix. -/
def SpMat.diagonal (M : SpMat ℚ) : List ℚ := (List.range M.dim).map (fun i => M.entry i i)

/-- The diagonal of the dressing alone, for a state of a block. -/
def dressingOf (c : Config) (neighbor : Bool) (gs : List ℚ) : Py (List ℚ) := do
  let dets ← constructBasis c
  let su ← blockSetup SetSem.sorted c dets true
  let h ← blockDressed twoEnv exI c su ⟨false, neighbor, true, 0⟩ dets ⟨dets.length, []⟩ gs 0
  return h.diagonal

/-- One hole, one down and two up spins on a 2×2 block next to a reversed block: with one neighbour the dressings differ, with
neighbours on the four sides all determinants get the same (on a 2×2 block all sites are equivalent). -/
example : dressingOf (rectConf 1 1 2 1 1) true [1, 0, 0, 0, 0, 0, 0, 0, 0, 0, 0, 0] =
    .ok [-1, -1, 0, 18, 18, 19, -1, -1, 0, 23, 23, 23] := by decide +kernel
example : dressingOf (rectConf 1 1 2 1 1) false [1, 0, 0, 0, 0, 0, 0, 0, 0, 0, 0, 0] =
    .ok [40, 40, 40, 40, 40, 40, 40, 40, 40, 40, 40, 40] := by decide +kernel
example : SquareConf (rectConf 1 1 2 1 0) 2 := ⟨rfl, rfl, rfl⟩

end TJ
