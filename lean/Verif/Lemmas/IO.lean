/-
Lemmas about saved values and file names.
-/
import Verif.Model.IO
import Verif.Lemmas.Lattice

namespace TJ

variable {K : Type}

theorem jsonRTs_eq (l : List (PyVal K)) : jsonRTs l = l.map jsonRT := by
  induction l with
  | nil => rfl
  | cons a l ih => rw [jsonRTs, ih]; rfl

theorem jsonRT_list_map {α : Type} (f : α → PyVal K) (h : ∀ x, jsonRT (f x) = f x) (l : List α) :
    jsonRT (.list (l.map f)) = .list (l.map f) := by
  rw [jsonRT, jsonRTs_eq, List.map_map]
  congr 1
  exact List.map_congr_left fun x _ => h x

theorem jsonRT_natList (l : List Nat) : jsonRT (natList l : PyVal K) = natList l :=
  jsonRT_list_map _ (fun _ => by rw [jsonRT]) l

theorem jsonRT_floats (l : List K) : jsonRT (.list (l.map .float)) = .list (l.map .float) :=
  jsonRT_list_map _ (fun _ => by rw [jsonRT]) l

theorem jsonRT_spin (x : Option K) : jsonRT (spinVal x) = spinVal x := by cases x <;> rw [spinVal, jsonRT]

theorem jsonRT_spins (l : List (Option K)) : jsonRT (.list (l.map spinVal)) = .list (l.map spinVal) :=
  jsonRT_list_map _ jsonRT_spin l

theorem jsonRT_tolist (m : NdMat) : jsonRT (m.tolist : PyVal K) = m.tolist :=
  jsonRT_list_map _ (fun _ => jsonRT_list_map _ (fun _ => by rw [jsonRT]) _) _

theorem mapM_map_ok {α β γ : Type} (f : α → β) (g : β → Py γ) (h : α → γ) (hh : ∀ x, g (f x) = .ok (h x)) (l : List α) :
    (l.map f).mapM g = .ok (l.map h) := by
  induction l with
  | nil => rfl
  | cons a l ih =>
    rw [List.map_cons, List.mapM_cons, hh, ih]
    rfl

theorem asList_map {α β : Type} (f : α → PyVal K) (g : PyVal K → Py β) (h : α → β) (hh : ∀ x, g (f x) = .ok (h x)) (l : List α) :
    PyVal.asList g (.list (l.map f)) = .ok (l.map h) := mapM_map_ok f g h hh l

theorem asNat_natList (l : List Nat) : PyVal.asList PyVal.asNat (natList l : PyVal K) = .ok l := by
  have := asList_map (fun (n : Nat) => (.int n : PyVal K)) PyVal.asNat id (fun x => by simp [PyVal.asNat]) l
  rwa [List.map_id] at this

theorem asFloat_list (l : List K) : PyVal.asList PyVal.asFloat (.list (l.map .float)) = .ok l := by
  have := asList_map (fun (x : K) => (.float x : PyVal K)) PyVal.asFloat id (fun x => rfl) l
  rwa [List.map_id] at this

theorem asSpin_list (l : List (Option K)) : PyVal.asList PyVal.asSpin (.list (l.map spinVal)) = .ok l := by
  have := asList_map (spinVal : Option K → PyVal K) PyVal.asSpin id (fun x => by cases x <;> simp [spinVal, PyVal.asSpin]) l
  rwa [List.map_id] at this

theorem asInt_tolist (m : NdMat) : PyVal.asList (PyVal.asList PyVal.asInt) (m.tolist : PyVal K) =
    .ok ((List.range m.rows).map (fun i => (List.range m.cols).map (fun j => m.e i j))) :=
  asList_map _ _ (fun i => (List.range m.cols).map (fun j => m.e i j)) (fun i => asList_map (fun j => .int (m.e i j)) PyVal.asInt (fun j => m.e i j) (fun j => rfl) _) _

/-- Reading back an array. -/
theorem npArray_tolist (m : NdMat) (h : m.rows ≠ 0) :
    ∃ m', npArray ((List.range m.rows).map (fun i => (List.range m.cols).map (fun j => m.e i j))) = .ok m' ∧
      m'.rows = m.rows ∧ m'.cols = m.cols ∧ ∀ i < m.rows, ∀ j < m.cols, m'.e i j = m.e i j := by
  set l := (List.range m.rows).map (fun i => (List.range m.cols).map (fun j => m.e i j)) with hl
  have hlen : l.length = m.rows := by simp [hl]
  have hall : ∀ r ∈ l, r.length = m.cols := by
    intro r hr
    obtain ⟨i, _, rfl⟩ := List.mem_map.1 hr
    simp
  have hget : ∀ i < m.rows, ∀ j < m.cols, (l.getD i []).getD j 0 = m.e i j := by
    intro i hi j hj
    rw [List.getD_eq_getElem?_getD, List.getD_eq_getElem?_getD, hl, List.getElem?_map, List.getElem?_range hi]
    simp [hj]
  clear_value l
  match l, hlen with
  | [], hlen => exact absurd hlen.symm h
  | r :: l', hlen =>
    have hr : r.length = m.cols := hall r (by simp)
    refine ⟨⟨(r :: l').length, r.length, fun i j => ((r :: l').getD i []).getD j 0⟩, ?_, hlen, hr, hget⟩
    unfold npArray
    dsimp only
    rw [if_pos]
    rw [List.all_eq_true]
    intro r' hr'
    rw [hall r' hr', hr]
    simp

/-! ### Digits -/

theorem pyFormat_nat (n : Nat) : pyFormat n = Nat.toDigits 10 n := by
  unfold pyFormat
  rw [if_pos (Int.natCast_nonneg n), Int.toNat_natCast]

theorem toDigits_inj {a b : Nat} (h : Nat.toDigits 10 a = Nat.toDigits 10 b) : a = b := by
  have := congrArg (fun l => Nat.ofDigitChars 10 l 0) h
  simpa [Nat.ofDigitChars_ten_toDigits] using this

theorem toDigits_isDigit {n : Nat} {c : Char} (h : c ∈ Nat.toDigits 10 n) : c.isDigit = true :=
  Nat.isDigit_of_mem_toDigits (by omega) (by omega) h

theorem toDigits_length_one {n : Nat} (h : n < 10) : (Nat.toDigits 10 n).length = 1 := by
  rw [Nat.toDigits_of_lt_base h]; rfl

theorem toDigits_length_two {n : Nat} (h : 10 ≤ n) (h2 : n < 100) : (Nat.toDigits 10 n).length = 2 := by
  have h1 := (Nat.length_toDigits_le_iff (b := 10) (n := n) (k := 2) (by omega) (by omega)).2 (by omega)
  have h3 : ¬ (Nat.toDigits 10 n).length ≤ 1 := by
    rw [Nat.length_toDigits_le_iff (by omega) (by omega)]; omega
  omega

/-- A string of digits followed by a string that begins with another character. -/
theorem digits_split : ∀ {u v x y : List Char}, (∀ c ∈ u, c.isDigit = true) → (∀ c ∈ v, c.isDigit = true) →
    (∀ c, x.head? = some c → c.isDigit = false) → (∀ c, y.head? = some c → c.isDigit = false) → u ++ x = v ++ y → u = v ∧ x = y
  | [], [], x, y, _, _, _, _, h => ⟨rfl, by simpa using h⟩
  | [], b :: v, x, y, _, hv, hx, _, h => by
    have h : x = b :: (v ++ y) := by simpa using h
    have := hx b (by rw [h]; rfl)
    rw [hv b (by simp)] at this
    cases this
  | a :: u, [], x, y, hu, _, _, hy, h => by
    have h : a :: (u ++ x) = y := by simpa using h
    have := hy a (by rw [← h]; rfl)
    rw [hu a (by simp)] at this
    cases this
  | a :: u, b :: v, x, y, hu, hv, hx, hy, h => by
    simp only [List.cons_append, List.cons.injEq] at h
    obtain ⟨h1, h2⟩ := digits_split (fun c hc => hu c (by simp [hc])) (fun c hc => hv c (by simp [hc])) hx hy h.2
    exact ⟨by rw [h.1, h1], h2⟩

end TJ
