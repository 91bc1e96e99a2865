/-
Lemmas about moving one particle (`exchange`, `countsA`, `countsB`) in embedding_blocks.
-/
import Verif.Model.Embedding
import Verif.Lemmas.Det

namespace TJ

/-- The sites of each content after the site `s` got the content `new`. -/
theorem sitesOf_update {n : Nat} {σ : Nat → Occ} {s : Nat} {old new : Occ} (hs : s < n) (ho : σ s = old) (hne : new ≠ old)
    {l : Occ → List Nat} (hl : ∀ o, (l o).Perm (sitesOf n σ o)) (o : Occ) :
    (if o = old then (l old).erase s else if o = new then l o ++ [s] else l o).Perm (sitesOf n (Function.update σ s new) o) := by
  have hnd : ∀ o, (l o).Nodup := fun o => (hl o).nodup_iff.2 (sitesOf_nodup _ _ _)
  have hm : ∀ o x, x ∈ l o ↔ x < n ∧ σ x = o := fun o x => ((hl o).mem_iff).trans mem_sitesOf
  split_ifs with h1 h2
  · subst h1
    refine (List.perm_ext_iff_of_nodup ((hnd _).erase _) (sitesOf_nodup _ _ _)).2 fun x => ?_
    rw [(hnd _).mem_erase_iff, hm, mem_sitesOf]
    by_cases hx : x = s
    · subst hx; simp [hne]
    · simp [hx]
  · subst h2
    refine (List.perm_ext_iff_of_nodup ?_ (sitesOf_nodup _ _ _)).2 fun x => ?_
    · rw [List.nodup_append]
      refine ⟨hnd _, List.nodup_singleton _, fun a ha b hb => ?_⟩
      rintro rfl
      rw [List.mem_singleton] at hb
      subst hb
      exact hne ((((hm _ _).1 ha).2).symm.trans ho)
    · rw [List.mem_append, hm, mem_sitesOf, List.mem_singleton]
      by_cases hx : x = s
      · subst hx; simp [hs]
      · simp [hx]
  · refine (hl o).trans ((List.perm_ext_iff_of_nodup (sitesOf_nodup _ _ _) (sitesOf_nodup _ _ _)).2 fun x => ?_)
    rw [mem_sitesOf, mem_sitesOf]
    by_cases hx : x = s
    · subst hx
      simp only [ho, Function.update_self]
      exact ⟨fun h => absurd h.2.symm h1, fun h => absurd h.2.symm h2⟩
    · simp [hx]

/-- Counting after the change of one site. -/
theorem cnt_update {n : Nat} {σ : Nat → Occ} {s : Nat} {old new : Occ} (hs : s < n) (ho : σ s = old) (hne : new ≠ old) (o : Occ) :
    (cnt n (Function.update σ s new) o : Int) = cnt n σ o + (if o = new then 1 else 0) - (if o = old then 1 else 0) := by
  have h := (sitesOf_update hs ho hne (fun o => List.Perm.refl (sitesOf n σ o)) o).length_eq
  rw [length_sitesOf] at h
  rw [← h, ← length_sitesOf]
  have hmem : s ∈ sitesOf n σ old := mem_sitesOf.2 ⟨hs, ho⟩
  have hpos : 0 < (sitesOf n σ old).length := List.length_pos_of_mem hmem
  by_cases h1 : o = old
  · subst h1
    rw [if_pos rfl, if_pos rfl, if_neg (fun h => hne h.symm), List.length_erase_of_mem hmem]
    omega
  · rw [if_neg h1, if_neg h1]
    by_cases h2 : o = new
    · rw [if_pos h2, if_pos h2, List.length_append, List.length_singleton]; omega
    · rw [if_neg h2, if_neg h2]; omega

/-- What `exchange` gives when the new configuration has the right numbers of particles. -/
theorem exchange_eq (S : SetSem) {c cNew : Config} (hf : c.Full) {det : List Nat} (hv : ValidDet c.nsites det) {s : Nat} (hs : s < c.nsites)
    {old new : Occ} (ho : occC c det s = old) (hne : new ≠ old)
    (hh : cnt c.nsites (Function.update (occC c det) s new) .hole = cNew.nholes)
    (hb : cnt c.nsites (Function.update (occC c det) s new) .down = cNew.nbeta) :
    exchange S c cNew det s old new = .ok (detOf c.nsites (Function.update (occC c det) s new)) := by
  have hex : ∀ o : Occ, ∃ l, getIndexesOf S c det o.twice = .ok l ∧ l.Perm (sitesOf c.nsites (occC c det) o) :=
    fun o => getIndexesOf_full S hf hv o false
  choose l e p using hex
  have e1 := e .hole
  have e2 := e .down
  have e3 := e .up
  simp only [Occ.twice] at e1 e2 e3
  unfold exchange
  simp only [e1, e2, e3, bind, Except.bind]
  have hmem : s ∈ l old := (p old).mem_iff.2 (mem_sitesOf.2 ⟨hs, ho⟩)
  have hr : pyRemove (l old) s = .ok ((l old).erase s) := by rw [pyRemove, if_pos hmem]
  have hrm : ∀ m : List Nat, m = l old → pyRemove m s = .ok ((l old).erase s) := by rintro m rfl; exact hr
  rw [hrm _ (by cases old <;> rfl)]
  simp only [pure, Except.pure, Except.ok.injEq]
  have key := fun o => sitesOf_update hs ho hne p o
  have hA : (if Occ.hole = old then (l old).erase s else if Occ.hole = new then l .hole ++ [s] else l .hole).length = cNew.nholes := by
    rw [(key .hole).length_eq, length_sitesOf, hh]
  have hB : (if Occ.down = old then (l old).erase s else if Occ.down = new then l .down ++ [s] else l .down).length = cNew.nbeta := by
    rw [(key .down).length_eq, length_sitesOf, hb]
  generalize hX : (if Occ.hole = old then (l old).erase s else if Occ.hole = new then l .hole ++ [s] else l .hole) = X at *
  generalize hY : (if Occ.down = old then (l old).erase s else if Occ.down = new then l .down ++ [s] else l .down) = Y at *
  generalize hZ : (if Occ.up = old then (l old).erase s else if Occ.up = new then l .up ++ [s] else l .up) = Z at *
  unfold reorder holesOf betaOf alphaOf detOf
  have k1 := key .hole
  have k2 := key .down
  have k3 := key .up
  rw [hX] at k1
  rw [hY] at k2
  rw [hZ] at k3
  have t1 : (X ++ Y ++ Z).take cNew.nholes = X := by rw [List.append_assoc, ← hA, List.take_left]
  have t2 : ((X ++ Y ++ Z).drop cNew.nholes).take cNew.nbeta = Y := by
    rw [List.append_assoc, ← hA, List.drop_left, ← hB, List.take_left]
  have t3 : (X ++ Y ++ Z).drop (cNew.nholes + cNew.nbeta) = Z := by
    rw [← hA, ← hB, ← List.length_append, List.drop_left]
  rw [t1, t2, t3, pySort_eq k1.symm (sitesOf_sorted _ _ _), pySort_eq k2.symm (sitesOf_sorted _ _ _),
    pySort_eq k3.symm (sitesOf_sorted _ _ _)]

end TJ
