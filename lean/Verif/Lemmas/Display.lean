/-
Lemmas about the displays.
-/
import Verif.Model.Observables
import Verif.Spec.Observables
import Verif.Lemmas.Det
import Verif.Lemmas.Lattice

namespace TJ

theorem pySet_ok {α : Type} {l : List α} {i : Nat} (h : i < l.length) (x : α) : pySet l i x = .ok (l.set i x) := if_pos h

theorem pyGet_ok {α : Type} {l : List α} {i : Nat} (h : i < l.length) : pyGet l i = .ok l[i] := by
  unfold pyGet
  rw [List.getElem?_eq_getElem h]

/-- One of the two loops of `get_displayable_determinant`. -/
theorem displayLoop_spec {n : Nat} {vect : List Nat} (hv : ValidDet n vect) (sym : Char) (start : Nat) (p : List Char)
    (hp : p.length = n) : ∀ number, start + number ≤ n →
    ∃ q, displayLoop vect sym start number p = .ok q ∧ q.length = n ∧
      ∀ s < n, q.getD s ' ' = if s ∈ (vect.drop start).take number then sym else p.getD s ' '
  | 0, _ => ⟨p, rfl, hp, by simp⟩
  | number + 1, h => by
    obtain ⟨q, q1, q2, q3⟩ := displayLoop_spec hv sym start p hp number (by omega)
    have hl : start + number < vect.length := by rw [hv.length]; omega
    have hs : vect[start + number] < n := hv.mem.1 (List.getElem_mem hl)
    refine ⟨q.set vect[start + number] sym, ?_, by simp [q2], ?_⟩
    · unfold displayLoop at q1 ⊢
      rw [List.range'_concat, List.foldlM_append, q1]
      rw [Nat.one_mul]
      exact bind_ok rfl (bind_ok (bind_ok (pyGet_ok hl) (pySet_ok (by omega) sym)) rfl)
    · intro s hsn
      have ht : (vect.drop start).take (number + 1) = (vect.drop start).take number ++ [vect[start + number]] := by
        rw [List.take_add_one, List.getElem?_drop, List.getElem?_eq_getElem hl]
        rfl
      rw [ht, List.getD_eq_getElem?_getD, List.getElem?_set]
      by_cases e : vect[start + number] = s
      · subst e
        rw [if_pos rfl, if_pos (by omega), if_pos (by simp)]
        rfl
      · rw [if_neg e, ← List.getD_eq_getElem?_getD, q3 s hsn]
        congr 1
        simp only [List.mem_append, List.mem_singleton, eq_iff_iff]
        constructor
        · exact Or.inl
        · rintro (h | h)
          · exact h
          · exact absurd h.symm e

theorem displayDeterminant_spec {c : Config} (hn : c.nholes + c.nbeta ≤ c.nsites) {det : List Nat} (hv : ValidDet c.nsites det) :
    ∃ P, displayDeterminant (.config c) det = .ok P ∧ P.length = c.nsites ∧
      ∀ s < c.nsites, P.getD s ' ' = (occC c det s).sign := by
  obtain ⟨p, p1, p2, p3⟩ := displayLoop_spec hv '0' 0 (det.map (fun _ => '+')) (by rw [List.length_map, hv.length]) c.nholes (by omega)
  obtain ⟨q, q1, q2, q3⟩ := displayLoop_spec hv '-' c.nholes p p2 c.nbeta hn
  refine ⟨q, bind_ok (a := c) rfl (bind_ok p1 q1), q2, ?_⟩
  intro s hs
  rw [q3 s hs, p3 s hs, List.drop_zero]
  have hsd : s < det.length := by rw [hv.length]; exact hs
  have h0 : (det.map (fun _ => '+')).getD s ' ' = '+' := by simp [List.getD_eq_getElem?_getD, hsd]
  rw [h0]
  unfold occC occ
  have hdis := (parts_disjoint hv.nodup c.nholes c.nbeta)
  by_cases a : s ∈ det.take c.nholes
  · have b : s ∉ (det.drop c.nholes).take c.nbeta := by
      intro b
      have := List.disjoint_of_nodup_append (by rw [List.take_append_drop]; exact hv.nodup) a (List.mem_of_mem_take b)
      exact this
    rw [if_neg b, if_pos a, if_pos a]
    rfl
  · rw [if_neg a, if_neg a]
    split_ifs <;> rfl

/-! ### Texts -/

theorem intercalate_concat (L : List (List Char)) (l : List Char) :
    ['\n'].intercalate (L ++ [l]) = (L.map (fun x => x ++ ['\n'])).flatten ++ l := by
  induction L with
  | nil => simp [List.intercalate]
  | cons a L ih =>
    cases L with
    | nil => simp [List.intercalate]
    | cons b L =>
      have e : ['\n'].intercalate (a :: b :: L ++ [l]) = a ++ ['\n'] ++ ['\n'].intercalate (b :: L ++ [l]) := by
        simp [List.intercalate, List.intersperse]
      rw [e, ih]
      simp

theorem splitLines_state (l : List Char) (h : '\n' ∉ l) (A : List (List Char)) (cur : List Char) :
    l.foldl (fun (st : List (List Char) × List Char) ch =>
      if ch ≠ '\n' then (st.1, st.2 ++ [ch]) else (st.1 ++ [st.2], [])) (A, cur) = (A, cur ++ l) := by
  induction l generalizing cur with
  | nil => simp
  | cons a l ih =>
    have ha : a ≠ '\n' := fun e => h (by simp [e])
    rw [List.foldl_cons, if_pos ha, ih (fun g => h (List.mem_cons_of_mem _ g))]
    simp

theorem splitLines_flatten (L : List (List Char)) (h : ∀ l ∈ L, '\n' ∉ l) (A : List (List Char)) :
    (L.map (fun x => x ++ ['\n'])).flatten.foldl (fun (st : List (List Char) × List Char) ch =>
      if ch ≠ '\n' then (st.1, st.2 ++ [ch]) else (st.1 ++ [st.2], [])) (A, []) = (A ++ L, []) := by
  induction L generalizing A with
  | nil => simp
  | cons a L ih =>
    rw [List.map_cons, List.flatten_cons, List.foldl_append, List.foldl_append,
      splitLines_state a (h a (by simp)), List.foldl_cons, if_neg (by simp), List.foldl_nil, List.nil_append,
      ih (fun l hl => h l (List.mem_cons_of_mem _ hl))]
    simp

/-- The lines of a text are determined by it. -/
theorem splitLines_eq {text : List Char} {L : List (List Char)} (h : IsText text L) (hne : L ≠ []) : splitLines text = L := by
  obtain ⟨L', l, rfl⟩ : ∃ L' l, L = L' ++ [l] := ⟨L.dropLast, L.getLast hne, (List.dropLast_append_getLast hne).symm⟩
  obtain ⟨rfl, h2⟩ := h
  unfold splitLines
  rw [intercalate_concat, List.foldl_append, splitLines_flatten L' (fun x hx => h2 x (by simp [hx])),
    splitLines_state l (h2 l (by simp))]
  simp

/-! ### Rows -/

theorem symbol_eq {c : Config} {det : List Nat} (hv : ValidDet c.nsites det) {s : Nat} (hs : s < c.nsites) :
    symbol c det s = .ok (occC c det s).arrow := by
  unfold symbol
  refine bind_ok (getSpinSite_eq (hv.mem.2 hs)) ?_
  cases occC c det s <;> rfl

/-- The text of a row of `w` sites starting at `first`. -/
def rowText (σ : Nat → Occ) (first w : Nat) : List Char :=
  ((List.range (w - 1)).map (fun x => [(σ (first + x)).arrow, '-', '-'])).flatten ++ [(σ (first + w - 1)).arrow]

theorem displayRow_eq {c : Config} {det : List Nat} (hv : ValidDet c.nsites det) {first w : Nat} (hw : 0 < w)
    (h : first + w ≤ c.nsites) (last : List Char) :
    displayRow c det first w last = .ok (rowText (occC c det) first w ++ last) := by
  unfold displayRow
  refine bind_ok (mapM_ok (g := fun x => [(occC c det (first + x)).arrow, '-', '-']) ?_) ?_
  · intro x hx
    have := List.mem_range.1 hx
    exact bind_ok (symbol_eq hv (by omega)) rfl
  · refine bind_ok (symbol_eq hv (by omega)) ?_
    show Except.ok _ = Except.ok _
    unfold rowText
    simp

theorem rowText_getElem? (σ : Nat → Occ) (first w x : Nat) (hx : x < w) :
    (rowText σ first w)[3 * x]? = some (σ (first + x)).arrow := by
  have hl : ((List.range (w - 1)).map (fun x => [(σ (first + x)).arrow, '-', '-'])).flatten.length = 3 * (w - 1) := by
    rw [← List.flatMap_def, length_flatMap_const (m := 3) (by simp), List.length_range, Nat.mul_comm]
  unfold rowText
  rcases Nat.lt_or_ge x (w - 1) with h | h
  · rw [List.getElem?_append_left (by omega), ← List.flatMap_def]
    have := getElem?_flatMap_const (l := List.range (w - 1)) (f := fun x => [(σ (first + x)).arrow, '-', '-']) (m := 3) (by simp)
      (i := x) (j := 0) (a := x) (by simp [h]) (by omega)
    simpa [Nat.mul_comm] using this
  · obtain rfl : x = w - 1 := by omega
    rw [List.getElem?_append_right (by omega), hl]
    have : first + w - 1 = first + (w - 1) := by omega
    simp [this]

theorem rowText_length (σ : Nat → Occ) (first w : Nat) : (rowText σ first w).length = 3 * (w - 1) + 1 := by
  unfold rowText
  rw [List.length_append, ← List.flatMap_def, length_flatMap_const (m := 3) (by simp), List.length_range, Nat.mul_comm]
  rfl

theorem arrow_ne_newline (o : Occ) : '\n' ≠ o.arrow := by cases o <;> decide

theorem rowText_no_newline (σ : Nat → Occ) (first w : Nat) : '\n' ∉ rowText σ first w := by
  unfold rowText
  simp only [List.mem_append, List.mem_flatten, List.mem_map, List.mem_range, List.mem_singleton, not_or]
  refine ⟨?_, arrow_ne_newline _⟩
  rintro ⟨l, ⟨x, _, rfl⟩, h⟩
  have := arrow_ne_newline (σ (first + x))
  simp at h
  exact this h

/-- The text of the bonds between two rows. -/
def bondText (w : Nat) : List Char := (List.replicate (w - 1) ['|', ' ', ' ']).flatten ++ ['|']

theorem bondRow_eq (w : Nat) : bondRow w = bondText w ++ ['\n'] := by simp [bondRow, bondText]

theorem bondText_no_newline (w : Nat) : '\n' ∉ bondText w := by
  unfold bondText
  simp

/-- The lines of the display of a rectangular lattice. -/
def rectLines (σ : Nat → Occ) (w h : Nat) : List (List Char) :=
  ((List.range' 1 (h - 1)).reverse).flatMap (fun y => [rowText σ (y * w) w, bondText w]) ++ [rowText σ 0 w]

theorem displayRectangular_eq {c : Config} {det : List Nat} (hv : ValidDet c.nsites det) {w h : Nat} (hw : c.nblocs * c.nbh = w)
    (hh : c.nblocs * c.nbv = h) (w0 : 0 < w) (h0 : 0 < h) (hn : c.nsites = w * h) :
    ∃ text, displayRectangular (.config c) det = .ok text ∧ IsText text (rectLines (occC c det) w h) := by
  have hrow : ∀ y < h, ∀ last, displayRow c det (y * w) w last = .ok (rowText (occC c det) (y * w) w ++ last) := by
    intro y hy last
    refine displayRow_eq hv w0 ?_ last
    rw [hn]
    calc y * w + w = (y + 1) * w := by ring
      _ ≤ h * w := Nat.mul_le_mul_right _ hy
      _ = w * h := Nat.mul_comm _ _
  refine ⟨_, bind_ok (a := c) rfl (bind_ok (mapM_ok (g := fun y => rowText (occC c det) (y * w) w ++ ['\n'] ++ bondRow w) ?_)
    (bind_ok (a := rowText (occC c det) 0 w) ?_ rfl)), ?_, ?_⟩
  · intro y hy
    have : y < h := by
      simp only [List.mem_reverse, List.mem_range'] at hy
      rw [hh] at hy
      obtain ⟨i, hi, rfl⟩ := hy
      omega
    rw [hw]
    exact bind_ok (hrow y this _) rfl
  · have := hrow 0 h0 []
    rw [hw]
    simpa using this
  · unfold rectLines
    rw [intercalate_concat, hh, bondRow_eq]
    congr 1
    generalize (List.range' 1 (h - 1)).reverse = l
    induction l with
    | nil => rfl
    | cons a l ih =>
      rw [List.map_cons, List.flatten_cons, ih, List.flatMap_cons, List.map_append, List.flatten_append]
      simp
  · intro l hl
    unfold rectLines at hl
    simp only [List.mem_append, List.mem_flatMap, List.mem_singleton, List.mem_cons, List.not_mem_nil, or_false] at hl
    rcases hl with ⟨y, _, rfl | rfl⟩ | rfl
    · exact rowText_no_newline _ _ _
    · exact bondText_no_newline _
    · exact rowText_no_newline _ _ _

theorem rectLines_length (σ : Nat → Occ) (w h : Nat) (h0 : 0 < h) : (rectLines σ w h).length = 2 * h - 1 := by
  unfold rectLines
  rw [List.length_append, length_flatMap_const (m := 2) (by simp)]
  simp
  omega

theorem rectLines_row (σ : Nat → Occ) (w h : Nat) (y : Nat) (hy : y < h) :
    (rectLines σ w h)[2 * (h - 1 - y)]? = some (rowText σ (y * w) w) := by
  have hl : (((List.range' 1 (h - 1)).reverse).flatMap (fun y => [rowText σ (y * w) w, bondText w])).length = (h - 1) * 2 := by
    rw [length_flatMap_const (m := 2) (by simp)]; simp
  unfold rectLines
  rcases Nat.eq_zero_or_pos y with rfl | hpos
  · rw [List.getElem?_append_right (by omega), hl, Nat.zero_mul]
    have : 2 * (h - 1 - 0) - (h - 1) * 2 = 0 := by omega
    rw [this]; rfl
  · rw [List.getElem?_append_left (by omega)]
    have e : (List.range' 1 (h - 1)).reverse[h - 1 - y]? = some y := by
      rw [List.getElem?_reverse (by simp; omega), List.getElem?_range' (by simp; omega)]
      simp
      omega
    have := getElem?_flatMap_const (l := (List.range' 1 (h - 1)).reverse) (f := fun y => [rowText σ (y * w) w, bondText w]) (m := 2)
      (by simp) (i := h - 1 - y) (j := 0) (a := y) e (by omega)
    rw [Nat.add_zero, Nat.mul_comm] at this
    rw [this]
    rfl

theorem rectLines_charAt (σ : Nat → Occ) (w h x y : Nat) (hx : x < w) (hy : y < h) :
    charAt (rectLines σ w h) (2 * (h - 1 - y)) (3 * x) = some (σ (y * w + x)).arrow := by
  unfold charAt
  rw [rectLines_row σ w h y hy]
  exact rowText_getElem? σ (y * w) w x hx

theorem Occ.arrow_inj {a b : Occ} (h : a.arrow = b.arrow) : a = b := by
  cases a <;> cases b <;> first | rfl | (revert h; decide)

theorem Occ.sign_inj {a b : Occ} (h : a.sign = b.sign) : a = b := by
  cases a <;> cases b <;> first | rfl | (revert h; decide)

end TJ
