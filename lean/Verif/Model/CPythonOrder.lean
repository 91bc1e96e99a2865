/-
The iteration order of CPython, as a meaning of the set operations of Model/Py.lean. It needs the proof (Lemmas/PyTable.lean) that
the tables of Model/CPythonSet.lean hold every element once.
-/
import Verif.Lemmas.PyTable

namespace TJ

/-- The iteration order of CPython for `set(a)`, `set(a) & set(b)` and `set(a) - set(b)` (/repo: baseConstruction.py 193-197). -/
def SetSem.cpython : SetSem where
  ofList a := (PyTable.ofList a).toList
  inter a b := ((PyTable.ofList a).inter (PyTable.ofList b)).toList
  diff a b := (PyTable.ofList a).diff (PyTable.ofList b)
  nodup_ofList a := (good_ofList a).1.nodup
  mem_ofList a x := (good_ofList a).2 x
  nodup_inter a b := (good_inter a b).1.nodup
  mem_inter a b x := (good_inter a b).2 x
  nodup_diff a b := (good_diff a b).1
  mem_diff a b x := (good_diff a b).2 x

end TJ
