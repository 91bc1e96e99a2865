/-
Python run-time notions used by the model: exceptions, sets, ranges, lists,
`scipy.special.comb`, and the part of numpy needed for bond matrices.
Nothing here comes from /repo itself; these are the library calls made by it.
-/
import Mathlib.Data.Nat.Choose.Basic
import Mathlib.Data.List.Basic
import Mathlib.Data.List.Dedup
import Mathlib.Data.List.Sort

namespace TJ

/-- Python exceptions that the modelled functions can raise.
`nonTermination` is not a Python exception: it is the value returned by a loop of the
model that runs out of fuel (theorems show it never happens). -/
inductive PyErr where
  | valueError | indexError | typeError | attributeError | keyError
  | zeroDivisionError | nameError | nonTermination
  deriving DecidableEq, Repr

/-- A Python computation: a value or an exception. -/
abbrev Py (α : Type _) := Except PyErr α

instance {ε α : Type _} [DecidableEq ε] [DecidableEq α] : DecidableEq (Except ε α) := fun a b =>
  match a, b with
  | .ok x, .ok y => if h : x = y then isTrue (h ▸ rfl) else isFalse (fun e => h (by cases e; rfl))
  | .error x, .error y => if h : x = y then isTrue (h ▸ rfl) else isFalse (fun e => h (by cases e; rfl))
  | .ok _, .error _ => isFalse (fun e => by cases e)
  | .error _, .ok _ => isFalse (fun e => by cases e)

/-- The iteration order of Python sets is not specified. `SetSem` is one arbitrary
choice of the list obtained from each set expression used in /repo; only membership and
absence of repetition are known. (The result is allowed to depend on the operands as
lists, i.e. on the insertion history.) -/
structure SetSem where
  /-- `list(set(a))` -/
  ofList : List Nat → List Nat
  /-- `list(set(a) & set(b))`, `list(set(a).intersection(set(b)))` -/
  inter : List Nat → List Nat → List Nat
  /-- `list(set(a).difference(set(b)))` -/
  diff : List Nat → List Nat → List Nat
  nodup_ofList : ∀ a, (ofList a).Nodup
  mem_ofList : ∀ a x, x ∈ ofList a ↔ x ∈ a
  nodup_inter : ∀ a b, (inter a b).Nodup
  mem_inter : ∀ a b x, x ∈ inter a b ↔ x ∈ a ∧ x ∈ b
  nodup_diff : ∀ a b, (diff a b).Nodup
  mem_diff : ∀ a b x, x ∈ diff a b ↔ x ∈ a ∧ x ∉ b

/-- Sets iterated in increasing order (what CPython does when all elements are smaller
than the size of the hash table). -/
def SetSem.sorted : SetSem where
  ofList a := a.dedup.insertionSort (· ≤ ·)
  inter a b := (a.dedup.filter (· ∈ b)).insertionSort (· ≤ ·)
  diff a b := (a.dedup.filter (· ∉ b)).insertionSort (· ≤ ·)
  nodup_ofList a := (List.perm_insertionSort _ _).nodup_iff.2 a.nodup_dedup
  mem_ofList a x := by simp
  nodup_inter a b := (List.perm_insertionSort _ _).nodup_iff.2 (a.nodup_dedup.filter _)
  mem_inter a b x := by simp
  nodup_diff a b := (List.perm_insertionSort _ _).nodup_iff.2 (a.nodup_dedup.filter _)
  mem_diff a b x := by simp

/-- Sets iterated in the order in which the first operand lists the elements (an order
that is easy to evaluate; used in examples). -/
def SetSem.listed : SetSem where
  ofList a := a.dedup
  inter a b := a.dedup.filter (· ∈ b)
  diff a b := a.dedup.filter (· ∉ b)
  nodup_ofList a := a.nodup_dedup
  mem_ofList a x := by simp
  nodup_inter a b := a.nodup_dedup.filter _
  mem_inter a b x := by simp
  nodup_diff a b := a.nodup_dedup.filter _
  mem_diff a b x := by simp

/-- Sets iterated in the opposite order (used to exhibit order dependence). -/
def SetSem.reversed : SetSem where
  ofList a := a.dedup.reverse
  inter a b := (a.dedup.filter (· ∈ b)).reverse
  diff a b := (a.dedup.filter (· ∉ b)).reverse
  nodup_ofList a := List.nodup_reverse.2 a.nodup_dedup
  mem_ofList a x := by simp
  nodup_inter a b := List.nodup_reverse.2 (a.nodup_dedup.filter _)
  mem_inter a b x := by simp
  nodup_diff a b := List.nodup_reverse.2 (a.nodup_dedup.filter _)
  mem_diff a b x := by simp

/-- Sets iterated by the remainder modulo 8: what CPython does for a small set of small
integers without collisions, which are stored in a table of 8 slots (for instance
`list({1, 8}) == [8, 1]`). Used to exhibit order dependence. -/
def SetSem.slots8 : SetSem where
  ofList a := a.dedup.insertionSort (fun x y => x % 8 ≤ y % 8)
  inter a b := (a.dedup.filter (· ∈ b)).insertionSort (fun x y => x % 8 ≤ y % 8)
  diff a b := (a.dedup.filter (· ∉ b)).insertionSort (fun x y => x % 8 ≤ y % 8)
  nodup_ofList a := (List.perm_insertionSort _ _).nodup_iff.2 a.nodup_dedup
  mem_ofList a x := by simp
  nodup_inter a b := (List.perm_insertionSort _ _).nodup_iff.2 (a.nodup_dedup.filter _)
  mem_inter a b x := by simp
  nodup_diff a b := (List.perm_insertionSort _ _).nodup_iff.2 (a.nodup_dedup.filter _)
  mem_diff a b x := by simp

/-- `scipy.special.comb(n, k, exact=True)`: zero when `k > n`, `n < 0` or `k < 0`. -/
def pyComb (n k : Int) : Nat :=
  if n < 0 ∨ k < 0 ∨ n < k then 0 else Nat.choose n.toNat k.toNat

/-- `range(a, b)` on Python ints. -/
def rangeInt (a b : Int) : List Int := (List.range (b - a).toNat).map (fun (k : Nat) => a + (k : Int))

/-- `list.index(x)`: position of the first occurrence, `ValueError` if absent. -/
def pyIndex {α : Type _} [DecidableEq α] (l : List α) (x : α) : Py Nat :=
  if x ∈ l then .ok (l.idxOf x) else .error .valueError

/-- `list.remove(x)`: removes the first occurrence, `ValueError` if absent. -/
def pyRemove {α : Type _} [DecidableEq α] (l : List α) (x : α) : Py (List α) :=
  if x ∈ l then .ok (l.erase x) else .error .valueError

/-- `l[i]` for a non-negative index. -/
def pyGet {α : Type _} (l : List α) (i : Nat) : Py α :=
  match l[i]? with
  | some x => .ok x
  | none => .error .indexError

/-- A Python slice `l[a:b]` with non-negative bounds. -/
def pySlice {α : Type _} (l : List α) (a b : Nat) : List α := (l.drop a).take (b - a)

/-- `itertools.combinations(l, k)` as a list of lists: all sublists of length `k`, in
lexicographic order of positions. -/
def combinations {α : Type _} : List α → Nat → List (List α)
  | _, 0 => [[]]
  | [], _ + 1 => []
  | x :: xs, k + 1 => (combinations xs k).map (fun l => x :: l) ++ combinations xs (k + 1)

/-! ### numpy matrices -/

/-- A two-dimensional numpy array of integers: shape and entries. Entries outside the
shape are irrelevant. -/
structure NdMat where
  rows : Nat
  cols : Nat
  e : Nat → Nat → Int

namespace NdMat

/-- `np.zeros((r, c))` -/
def zeros (r c : Nat) : NdMat := ⟨r, c, fun _ _ => 0⟩

/-- `np.eye(n)` -/
def eye (n : Nat) : NdMat := ⟨n, n, fun i j => if i = j then 1 else 0⟩

/-- `np.diag(v, 1)` for a list `v`. -/
def diagUp (v : List Int) : NdMat :=
  ⟨v.length + 1, v.length + 1, fun i j => if j = i + 1 then v.getD i 0 else 0⟩

/-- `np.diag(v, -1)` for a list `v`. -/
def diagDown (v : List Int) : NdMat :=
  ⟨v.length + 1, v.length + 1, fun i j => if i = j + 1 then v.getD j 0 else 0⟩

/-- `A + B` (equal shapes or `ValueError`; other broadcasts do not occur in /repo). -/
def add (A B : NdMat) : Py NdMat :=
  if A.rows = B.rows ∧ A.cols = B.cols then .ok ⟨A.rows, A.cols, fun i j => A.e i j + B.e i j⟩
  else .error .valueError

/-- `A.T` -/
def transpose (A : NdMat) : NdMat := ⟨A.cols, A.rows, fun i j => A.e j i⟩

/-- `np.concatenate((A, B), axis=0)` -/
def concat0 (A B : NdMat) : Py NdMat :=
  if A.cols = B.cols then
    .ok ⟨A.rows + B.rows, A.cols, fun i j => if i < A.rows then A.e i j else B.e (i - A.rows) j⟩
  else .error .valueError

/-- `np.concatenate((A, B), axis=1)` -/
def concat1 (A B : NdMat) : Py NdMat :=
  if A.rows = B.rows then
    .ok ⟨A.rows, A.cols + B.cols, fun i j => if j < A.cols then A.e i j else B.e i (j - A.cols)⟩
  else .error .valueError

/-- `A[r, c] = v`, `IndexError` outside the shape. -/
def setEntry (A : NdMat) (r c : Nat) (v : Int) : Py NdMat :=
  if r < A.rows ∧ c < A.cols then
    .ok ⟨A.rows, A.cols, fun i j => if i = r ∧ j = c then v else A.e i j⟩
  else .error .indexError

/-- `A[r0:r1, c0:c1] = B`; slices are clipped to the shape as in numpy, `B` must have the
shape of the slice or be `1 x 1` (broadcast), otherwise `ValueError`. -/
def setBlock (A : NdMat) (r0 r1 c0 c1 : Nat) (B : NdMat) : Py NdMat :=
  let r1' := min r1 A.rows
  let c1' := min c1 A.cols
  if B.rows = r1' - r0 ∧ B.cols = c1' - c0 then
    .ok ⟨A.rows, A.cols, fun i j =>
      if r0 ≤ i ∧ i < r1' ∧ c0 ≤ j ∧ j < c1' then B.e (i - r0) (j - c0) else A.e i j⟩
  else if B.rows = 1 ∧ B.cols = 1 then
    .ok ⟨A.rows, A.cols, fun i j =>
      if r0 ≤ i ∧ i < r1' ∧ c0 ≤ j ∧ j < c1' then B.e 0 0 else A.e i j⟩
  else .error .valueError

end NdMat

end TJ
