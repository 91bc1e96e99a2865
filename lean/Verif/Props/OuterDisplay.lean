/-
Property C84: the display of the peripheral embedding.
-/
import Verif.Props.Observables
import Verif.Props.Linear

namespace TJ

/-- The text of a list of sites joined by `--`. -/
def joined (σ : Nat → Occ) (l : List Nat) : List Char := l.flatMap (fun s => [(σ s).arrow, '-', '-'])

theorem displaySites_eq {c : Config} {det : List Nat} (hv : ValidDet c.nsites det) {l : List Nat} (h : ∀ s ∈ l, s < c.nsites) :
    displaySites c det l = .ok (joined (occC c det) l) := by
  refine bind_ok (mapM_ok (g := fun s => [(occC c det s).arrow, '-', '-']) ?_) ?_
  · intro s hs
    exact bind_ok (symbol_eq hv (h s hs)) rfl
  · show Except.ok _ = Except.ok _
    rw [joined, List.flatMap_def]

theorem joined_length (σ : Nat → Occ) (l : List Nat) : (joined σ l).length = 3 * l.length := by
  rw [joined, length_flatMap_const (m := 3) (by simp), Nat.mul_comm]

theorem joined_no_newline (σ : Nat → Occ) (l : List Nat) : '\n' ∉ joined σ l := by
  unfold joined
  simp only [List.mem_flatMap, not_exists, not_and]
  intro x _ h
  have := arrow_ne_newline (σ x)
  simp at h
  exact this h

theorem joined_getElem? (σ : Nat → Occ) (l : List Nat) (x : Nat) {a : Nat} (h : l[x]? = some a) : (joined σ l)[3 * x]? = some (σ a).arrow := by
  have := getElem?_flatMap_const (l := l) (f := fun s => [(σ s).arrow, '-', '-']) (m := 3) (by simp) (i := x) (j := 0) (a := a) h (by omega)
  simpa [joined, Nat.mul_comm] using this

/-- Text of sites joined by `--`, with a last one, after a prefix of three characters. -/
theorem prefixed_getElem? (σ : Nat → Occ) (p : List Char) (hp : p.length = 3) (l : List Nat) (e : Nat) (rest : List Char) (x : Nat) {a : Nat}
    (h : (l ++ [e])[x]? = some a) : (p ++ joined σ l ++ (σ e).arrow :: rest)[3 * (x + 1)]? = some (σ a).arrow := by
  have hl := joined_length σ l
  rcases Nat.lt_or_ge x l.length with k | k
  · rw [List.getElem?_append_left (by simp; omega), List.getElem?_append_right (by omega), hp, show 3 * (x + 1) - 3 = 3 * x by omega]
    rw [List.getElem?_append_left k] at h
    exact joined_getElem? σ l x h
  · rw [List.getElem?_append_right k] at h
    have hx : x = l.length := by
      have := (List.getElem?_eq_some_iff.1 h).1
      simp at this
      omega
    subst hx
    simp at h
    subst h
    rw [List.getElem?_append_right (by simp; omega)]
    rw [List.length_append, hp, hl, show 3 * (l.length + 1) - (3 + 3 * l.length) = 0 by omega]
    rfl

section
variable (σ : Nat → Occ) (W H : Nat)

/-- The upper line. -/
def upperSites : List Nat := ((List.range' (W + H + 1) (W - 1)).reverse.map (fun i => W * H + i))

def upperLine : List Char := [' ', ' ', ' '] ++ joined σ (upperSites W H) ++ [(σ (W * H + (W + H))).arrow]

/-- A line of the block with the two sites beside it. -/
def middleLine (y : Nat) : List Char :=
  [(σ (W * H + (2 * (W + H) - 1 - y))).arrow, ' ', ' '] ++ joined σ ((List.range (W - 1)).map (fun x => y * W + x)) ++
    (σ (y * W + (W - 1))).arrow :: [' ', ' ', (σ (W * H + (W + y))).arrow]

def outerBonds : List Char := ['|', ' ', ' '] ++ (List.replicate W ['|', ' ', ' ']).flatten ++ ['|']

def lowerLine : List Char := [' ', ' ', ' '] ++ joined σ ((List.range (W - 1)).map (fun i => W * H + i)) ++ [(σ (W * H + (W - 1))).arrow]

/-- The lines of the display. -/
def outerLines : List (List Char) :=
  [upperLine σ W H, []] ++ ((List.range' 1 (H - 1)).reverse).flatMap (fun y => [middleLine σ W H y, outerBonds W]) ++
    [middleLine σ W H 0, []] ++ [lowerLine σ W H]

theorem outerLines_length (hH : 1 ≤ H) : (outerLines σ W H).length = 2 * H + 3 := by
  unfold outerLines
  simp only [List.length_append]
  rw [length_flatMap_const (m := 2) (by simp)]
  simp
  omega

theorem outerLines_middle {y : Nat} (hy : y < H) : (outerLines σ W H)[2 * (H - y)]? = some (middleLine σ W H y) := by
  have hl : (((List.range' 1 (H - 1)).reverse).flatMap (fun y => [middleLine σ W H y, outerBonds W])).length = (H - 1) * 2 := by
    rw [length_flatMap_const (m := 2) (by simp)]; simp
  unfold outerLines
  rcases Nat.eq_zero_or_pos y with rfl | hpos
  · rw [List.getElem?_append_left (by simp [hl]; omega), List.getElem?_append_right (by simp [hl]; omega)]
    have : 2 * (H - 0) - ([upperLine σ W H, []] ++ ((List.range' 1 (H - 1)).reverse).flatMap (fun y => [middleLine σ W H y, outerBonds W])).length = 0 := by
      rw [List.length_append, hl]
      simp
      omega
    rw [this]; rfl
  · rw [List.getElem?_append_left (by simp [hl]; omega), List.getElem?_append_left (by simp [hl]; omega),
      List.getElem?_append_right (by simp; omega)]
    have e : (List.range' 1 (H - 1)).reverse[H - 1 - y]? = some y := by
      rw [List.getElem?_reverse (by simp; omega), List.getElem?_range' (by simp; omega)]
      simp
      omega
    have := getElem?_flatMap_const (l := (List.range' 1 (H - 1)).reverse) (f := fun y => [middleLine σ W H y, outerBonds W]) (m := 2)
      (by simp) (i := H - 1 - y) (j := 0) (a := y) e (by omega)
    rw [Nat.add_zero, Nat.mul_comm] at this
    rw [show 2 * (H - y) - [upperLine σ W H, []].length = 2 * (H - 1 - y) by simp; omega, this]
    rfl

theorem outerLines_upper : (outerLines σ W H)[0]? = some (upperLine σ W H) := rfl

theorem outerLines_lower (hH : 1 ≤ H) : (outerLines σ W H)[2 * H + 2]? = some (lowerLine σ W H) := by
  have := outerLines_length σ W H hH
  unfold outerLines at this ⊢
  rw [List.length_append, List.length_singleton] at this
  rw [List.getElem?_append_right (by omega)]
  rw [show 2 * H + 2 - _ = 0 by omega]
  rfl

theorem outerLines_no_newline : ∀ l ∈ outerLines σ W H, '\n' ∉ l := by
  intro l hl
  unfold outerLines at hl
  have hm : ∀ y, '\n' ∉ middleLine σ W H y := by
    intro y
    unfold middleLine
    simp [joined_no_newline, arrow_ne_newline]
  simp only [List.mem_append, List.mem_flatMap, List.mem_cons, List.not_mem_nil, or_false] at hl
  rcases hl with (((rfl | rfl) | ⟨y, _, rfl | rfl⟩) | (rfl | rfl)) | rfl
  · simp [upperLine, joined_no_newline, arrow_ne_newline]
  · simp
  · exact hm y
  · simp [outerBonds]
  · exact hm 0
  · simp
  · simp [lowerLine, joined_no_newline, arrow_ne_newline]

/-- The symbol of every site is at the place of its position. -/
theorem outerLines_charAt (hW : 1 ≤ W) (hH : 1 ≤ H) {s : Nat} (hs : s < W * H + 2 * (W + H)) :
    charAt (outerLines σ W H) (2 * (H - (periPos W H s).2)).toNat (3 * ((periPos W H s).1 + 1)).toNat = some (σ s).arrow := by
  unfold charAt
  by_cases h0 : s < W * H
  · rw [periPos_block h0]
    have h1 : s / W < H := Nat.div_lt_of_lt_mul h0
    have h2 : s % W < W := Nat.mod_lt _ hW
    have e : s / W * W + s % W = s := by rw [Nat.mul_comm]; exact Nat.div_add_mod _ _
    simp only [gridPos]
    rw [show (2 * ((H : Int) - ((s / W : Nat) : Int))).toNat = 2 * (H - s / W) by omega,
      show (3 * (((s % W : Nat) : Int) + 1)).toNat = 3 * (s % W + 1) by omega, outerLines_middle σ W H h1]
    refine prefixed_getElem? σ _ rfl _ _ _ _ ?_
    rw [List.getElem?_append]
    simp only [List.length_map, List.length_range]
    split_ifs with k
    · simp [k, e]
    · have : s % W = W - 1 := by omega
      rw [this] at e ⊢
      simp [e]
  · obtain ⟨t, rfl⟩ : ∃ t, s = W * H + t := ⟨s - W * H, by omega⟩
    have ht : t < 2 * (W + H) := by omega
    have hp : periPos W H (W * H + t) = if t < W then ((t : Int), -1)
      else if t < W + H then ((W : Int), ((t - W : Nat) : Int))
      else if t < 2 * W + H then ((W : Int) - 1 - (t - (W + H) : Nat), (H : Int))
      else (-1, (H : Int) - 1 - (t - (2 * W + H) : Nat)) := by
      unfold periPos
      rw [if_neg h0]
      simp only [Nat.add_sub_cancel_left]
    rw [hp]
    split_ifs with k1 k2 k3
    · simp only
      rw [show (2 * ((H : Int) - -1)).toNat = 2 * H + 2 by omega, show (3 * ((t : Int) + 1)).toNat = 3 * (t + 1) by omega,
        outerLines_lower σ W H hH]
      refine prefixed_getElem? σ _ rfl _ _ _ _ ?_
      rw [List.getElem?_append]
      simp only [List.length_map, List.length_range]
      split_ifs with k
      · simp [k]
      · have : t = W - 1 := by omega
        simp [this]
    · simp only
      rw [show (2 * ((H : Int) - ((t - W : Nat) : Int))).toNat = 2 * (H - (t - W)) by omega,
        show (3 * ((W : Int) + 1)).toNat = 3 * (W + 1) by omega, outerLines_middle σ W H (by omega)]
      show (middleLine σ W H (t - W))[3 * (W + 1)]? = _
      unfold middleLine
      have hl := joined_length σ ((List.range (W - 1)).map (fun x => (t - W) * W + x))
      simp only [List.length_map, List.length_range] at hl
      rw [List.getElem?_append_right (by simp; omega)]
      have : 3 * (W + 1) - ([(σ (W * H + (2 * (W + H) - 1 - (t - W)))).arrow, ' ', ' '] ++ joined σ ((List.range (W - 1)).map (fun x => (t - W) * W + x))).length = 3 := by
        rw [List.length_append, hl]
        simp
        omega
      rw [this]
      simp [show W + (t - W) = t by omega]
    · simp only
      rw [show (2 * ((H : Int) - (H : Int))).toNat = 0 by omega,
        show (3 * ((W : Int) - 1 - ((t - (W + H) : Nat) : Int) + 1)).toNat = 3 * ((2 * W + H - 1 - t) + 1) by omega, outerLines_upper]
      refine prefixed_getElem? σ _ rfl _ _ _ _ ?_
      rw [List.getElem?_append]
      simp only [upperSites, List.length_map, List.length_reverse, List.length_range']
      split_ifs with k
      · rw [List.getElem?_map, List.getElem?_reverse (by simpa using k), List.getElem?_range' (by simp; omega)]
        simp
        omega
      · simp [show 2 * W + H - 1 - t - (W - 1) = 0 by omega]
        omega
    · simp only
      rw [show (2 * ((H : Int) - ((H : Int) - 1 - ((t - (2 * W + H) : Nat) : Int)))).toNat = 2 * (H - (2 * (W + H) - 1 - t)) by omega,
        show (3 * ((-1 : Int) + 1)).toNat = 0 by omega, outerLines_middle σ W H (by omega)]
      simp [middleLine, show 2 * (W + H) - 1 - (2 * (W + H) - 1 - t) = t by omega]

end

theorem displayOuter_eq {c : Config} {det : List Nat} (hv : ValidDet c.nsites det) {W H : Nat} (hW : c.nbh * c.nblocs = W) (hH : c.nbv * c.nblocs = H)
    (w0 : 1 ≤ W) (h0 : 1 ≤ H) (hn : c.nsites = W * H + 2 * (W + H)) :
    ∃ text, displayOuter (.config c) det = .ok text ∧ IsText text (outerLines (occC c det) W H) := by
  have e1 : c.nbh * c.nbv * c.nblocs ^ 2 = W * H := by rw [← hW, ← hH]; ring
  have e2 : (c.nbh + c.nbv) * c.nblocs = W + H := by rw [← hW, ← hH]; ring
  have e3 : (2 * c.nbh + c.nbv) * c.nblocs = 2 * W + H := by rw [← hW, ← hH]; ring
  have e4 : 2 * (c.nbh + c.nbv) * c.nblocs = 2 * (W + H) := by rw [← hW, ← hH]; ring
  have e5 : c.nblocs * c.nbh = W := by rw [← hW]; ring
  have e6 : c.nblocs * c.nbv = H := by rw [← hH]; ring
  have hlt : ∀ y < H, ∀ x < W, y * W + x < c.nsites := by
    intro y hy x hx
    have : y * W + x < W * H := by
      calc y * W + x < y * W + W := by omega
        _ = (y + 1) * W := by ring
        _ ≤ H * W := Nat.mul_le_mul_right _ hy
        _ = W * H := Nat.mul_comm _ _
    omega
  have hrow : ∀ y < H, displayOuterRow c det (W * H) W y = .ok (middleLine (occC c det) W H y ++ ['\n'] ++ outerBonds W ++ ['\n']) := by
    intro y hy
    have e7 : y * c.nblocs * c.nbh = y * W := by rw [← e5]; ring
    unfold displayOuterRow
    rw [e4, e5, e7, hW, Nat.add_comm _ (W * H), Nat.add_comm y W, Nat.add_comm _ (W * H), Nat.add_sub_assoc w0]
    refine bind_ok (symbol_eq hv (by omega)) (bind_ok (displaySites_eq hv ?_) (bind_ok (symbol_eq hv (hlt y hy _ (by omega)))
      (bind_ok (symbol_eq hv (by omega)) ?_)))
    · intro s hs
      obtain ⟨x, hx, rfl⟩ := List.mem_map.1 hs
      exact hlt y hy x (by have := List.mem_range.1 hx; omega)
    · show Except.ok _ = Except.ok _
      simp [middleLine, outerBonds]
  have hz := fun x hx => hlt 0 (by omega) x hx
  simp only [Nat.zero_mul, Nat.zero_add] at hz
  refine ⟨_, ?_, rfl, outerLines_no_newline _ _ _⟩
  unfold displayOuter
  refine bind_ok (a := c) rfl ?_
  simp only [e1, e2, e3, e4, e5, e6, hW]
  rw [show 2 * W + H - 1 - (W + H) = W - 1 by omega]
  refine bind_ok (displaySites_eq hv (l := upperSites W H) ?_) (bind_ok (symbol_eq hv (by omega)) (bind_ok (mapM_ok
      (g := fun y => middleLine (occC c det) W H y ++ ['\n'] ++ outerBonds W ++ ['\n']) ?_) (bind_ok (symbol_eq hv (by omega))
    (bind_ok (displaySites_eq hv ?_) (bind_ok (symbol_eq hv (hz _ (by omega))) (bind_ok (symbol_eq hv (by omega))
    (bind_ok (displaySites_eq hv ?_) (bind_ok (symbol_eq hv (by omega)) ?_))))))))
  · intro s hs
    obtain ⟨i, hi, rfl⟩ := List.mem_map.1 hs
    rw [List.mem_reverse, List.mem_range'] at hi
    obtain ⟨j, hj, rfl⟩ := hi
    omega
  · intro y hy
    rw [List.mem_reverse, List.mem_range'] at hy
    obtain ⟨j, hj, rfl⟩ := hy
    exact hrow _ (by omega)
  · intro s hs
    have := List.mem_range.1 hs
    exact hz s (by omega)
  · intro s hs
    obtain ⟨i, hi, rfl⟩ := List.mem_map.1 hs
    have := List.mem_range.1 hi
    omega
  · show Except.ok _ = Except.ok _
    congr 1
    unfold outerLines
    rw [intercalate_concat]
    have hf : ∀ l : List Nat, ((l.flatMap (fun y => [middleLine (occC c det) W H y, outerBonds W])).map (fun x => x ++ ['\n'])).flatten =
        (l.map (fun y => middleLine (occC c det) W H y ++ ['\n'] ++ outerBonds W ++ ['\n'])).flatten := by
      intro l
      induction l with
      | nil => rfl
      | cons a l ih =>
        rw [List.map_cons, List.flatten_cons, ← ih, List.flatMap_cons, List.map_append, List.flatten_append]
        simp
    simp only [List.map_append, List.flatten_append, hf]
    simp [upperLine, middleLine, lowerLine, Nat.add_comm]

/-- C84. The display of a determinant of the peripheral embedding has 2H + 3 lines, and the symbol of
the site at position (x, y), where the block is [0, W) x [0, H), is in line 2(H - y) and column 3(x + 1). -/
theorem C84_outer_display (c : Config) (hc : PeriConf c) (det : List Nat) (hv : ValidDet c.nsites det) :
    ∃ text L, displayOuter (.config c) det = .ok text ∧ IsText text L ∧ L.length = 2 * (c.nbv * c.nblocs) + 3 ∧
      ∀ s < c.nsites, ∀ x y, periPos (c.nbh * c.nblocs) (c.nbv * c.nblocs) s = (x, y) →
        charAt L (2 * ((c.nbv * c.nblocs : Nat) - y)).toNat (3 * (x + 1)).toNat = some (occ c.nholes c.nbeta det s).arrow := by
  have w0 := Nat.mul_pos hc.hh hc.hb
  have h0 := Nat.mul_pos hc.hv hc.hb
  have hn := hc.spec.1
  obtain ⟨text, t1, t2⟩ := displayOuter_eq hv rfl rfl w0 h0 hn
  refine ⟨text, _, t1, t2, outerLines_length _ _ _ h0, ?_⟩
  intro s hs x y e
  have := outerLines_charAt (occC c det) _ _ w0 h0 (s := s) (by omega)
  rw [e] at this
  exact this

/-- C84. Determinants with the same display have the same occupation of every site. -/
theorem C84_text_determines_occupation (c : Config) (hc : PeriConf c) (det det' : List Nat) (hv : ValidDet c.nsites det)
    (hv' : ValidDet c.nsites det') (h : displayOuter (.config c) det = displayOuter (.config c) det') :
    ∀ s < c.nsites, occ c.nholes c.nbeta det s = occ c.nholes c.nbeta det' s := by
  obtain ⟨text, L, t1, t2, t3, t4⟩ := C84_outer_display c hc det hv
  obtain ⟨text', L', u1, u2, u3, u4⟩ := C84_outer_display c hc det' hv'
  rw [t1, u1] at h
  obtain rfl := Except.ok.inj h
  have hL : L = L' := by
    rw [← splitLines_eq t2 (by intro e; rw [e] at t3; simp at t3), ← splitLines_eq u2 (by intro e; rw [e] at u3; simp at u3)]
  subst hL
  intro s hs
  have a := t4 s hs _ _ rfl
  rw [u4 s hs _ _ rfl] at a
  exact (Occ.arrow_inj (Option.some.inj a)).symm

example : ∃ text L, displayOuter (.config (periConf 2 2 1 1 2)) [1, 0, 3, 2, 4, 5, 6, 7, 8, 9, 10, 11] = .ok text ∧ IsText text L ∧ L.length = 7 := by
  obtain ⟨t, L, h1, h2, h3, _⟩ := C84_outer_display _ (periConf_ok 2 2 1 1 2 (by decide) (by decide) (by decide))
    [1, 0, 3, 2, 4, 5, 6, 7, 8, 9, 10, 11] (by decide)
  exact ⟨t, L, h1, h2, h3⟩

example : displayOuter (.config (periConf 2 1 1 1 2)) [1, 0, 3, 2, 4, 5, 6, 7] =
    .ok [' ', ' ', ' ', '↑', '-', '-', '↑', '\n', '\n', '↑', ' ', ' ', '↓', '-', '-', '0', ' ', ' ', '↑', '\n', '\n',
      ' ', ' ', ' ', '↑', '-', '-', '↓'] := by decide

end TJ
