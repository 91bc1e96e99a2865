/-
Specification: the number of slots of a CPython set, as a function of the number of its elements only.
-/
import Mathlib.Data.Nat.Log

namespace TJ

/-- The number of slots of a CPython set after `k` different elements were added one by one: 8 at first; when an insertion fills three
fifths of the slots (all but one counted), the smallest power of two above four times (above 50000 elements: twice) the number of
elements. So 8 slots for up to 4 elements, 32 for 5 to 18, 128 for 19 to 76, 512 for 77 to 306 and so on. -/
def tableSize : Nat → Nat
  | 0 => 8
  | k + 1 => if (k + 1) * 5 < (tableSize k - 1) * 3 then tableSize k
    else 2 ^ (Nat.log 2 (if 50000 < k + 1 then 2 * (k + 1) else 4 * (k + 1)) + 1)

example : tableSize 4 = 8 ∧ tableSize 5 = 32 ∧ tableSize 18 = 32 ∧ tableSize 19 = 128 ∧ tableSize 76 = 128 ∧ tableSize 77 = 512 := by
  decide +kernel

end TJ
