/-
Sets of small natural numbers as CPython (3.7 to 3.13) stores them: `Objects/setobject.c`, open addressing with
9 linear probes, growth by a factor four. /repo iterates over sets at many places (for instance
baseConstruction.py 193-197); which order it gets is decided here. The interpreter is not part of /repo: this is the
documented algorithm written down from its source, and only theorems that name `SetSem.cpython` depend on it.
-/
import Verif.Model.Py

namespace TJ

/-- The table of a set: `slots` has `mask + 1` entries, `used` is the number of elements. (Deleted entries do not
occur in the sets that are built here.) -/
structure PyTable where
  mask : Nat
  slots : List (Option Nat)
  used : Nat

/-- An empty table with `n` slots. -/
def PyTable.empty (n : Nat) : PyTable := ⟨n - 1, List.replicate n none, 0⟩

/-- `set_add_entry`, inner loop: the first of `n` consecutive slots from `i` on that is free or holds `x`. -/
def scanSlots (slots : List (Option Nat)) (x : Nat) : Nat → Nat → Option Nat
  | 0, _ => none
  | n + 1, i =>
    match slots[i]? with
    | some none => some i
    | some (some y) => if y = x then some i else scanSlots slots x n (i + 1)
    | none => none

/-- `set_add_entry`, outer loop: `perturb >>= 5; i = (i * 5 + 1 + perturb) & mask`. The hash of a natural number
smaller than 2^61 - 1 is the number. The loop ends because the table is never full; here it has a bound, which is large enough
(`find_total` in Lemmas/PyTable.lean). -/
def findSlot (slots : List (Option Nat)) (mask x : Nat) : Nat → Nat → Nat → Option Nat
  | 0, _, _ => none
  | fuel + 1, i, perturb =>
    match scanSlots slots x (if i + 9 ≤ mask then 10 else 1) i with
    | some j => some j
    | none => findSlot slots mask x fuel ((i * 5 + 1 + perturb / 32) % (mask + 1)) (perturb / 32)

/-- `set_add_entry` up to the growth of the table, and `set_insert_clean`. -/
def PyTable.put (t : PyTable) (x : Nat) : PyTable :=
  match findSlot t.slots t.mask x (t.mask + 1 + x) (x % (t.mask + 1)) x with
  | none => t
  | some j => if t.slots[j]? = some none then ⟨t.mask, t.slots.set j (some x), t.used + 1⟩ else t

/-- Iteration over the set. -/
def PyTable.toList (t : PyTable) : List Nat := t.slots.filterMap id

/-- `set_table_resize`: `while (newsize <= minused) newsize <<= 1`. -/
def newSize (minUsed : Nat) : Nat → Nat → Nat
  | 0, s => s
  | fuel + 1, s => if s ≤ minUsed then newSize minUsed fuel (2 * s) else s

/-- `set_table_resize`. -/
def PyTable.resize (t : PyTable) (minUsed : Nat) : PyTable :=
  t.toList.foldl PyTable.put (PyTable.empty (newSize minUsed (minUsed + 1) 8))

/-- `set_add_entry`: after an insertion the table grows if `fill * 5 >= mask * 3`, to more than four (two, above 50000) times
the number of elements. -/
def PyTable.add (t : PyTable) (x : Nat) : PyTable :=
  let t' := t.put x
  if t'.used = t.used ∨ t'.used * 5 < t'.mask * 3 then t'
  else t'.resize (if 50000 < t'.used then t'.used * 2 else t'.used * 4)

/-- `set(l)`. -/
def PyTable.ofList (l : List Nat) : PyTable := l.foldl PyTable.add (PyTable.empty 8)

/-- `set_intersection`: the smaller operand (the second one if they have the same size) is iterated. -/
def PyTable.inter (a b : PyTable) : PyTable :=
  if a.used < b.used then PyTable.ofList (a.toList.filter (· ∈ b.toList)) else PyTable.ofList (b.toList.filter (· ∈ a.toList))

/-- `set_copy`: a table for twice the number of elements if eight slots are not enough. -/
def PyTable.copy (t : PyTable) : PyTable :=
  let m := if 7 * 3 ≤ t.used * 5 then newSize (2 * t.used) (2 * t.used + 1) 8 else 8
  if m = t.mask + 1 then t else t.toList.foldl PyTable.put (PyTable.empty m)

/-- `set_difference`, as the list of its elements: a copy with deletions if the second operand is much smaller. -/
def PyTable.diff (a b : PyTable) : List Nat :=
  if b.used < a.used / 4 then a.copy.toList.filter (· ∉ b.toList)
  else (PyTable.ofList (a.toList.filter (· ∉ b.toList))).toList

end TJ
