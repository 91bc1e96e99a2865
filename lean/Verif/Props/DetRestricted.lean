import Verif.Props.Det
import Verif.Props.Linear

/-! # C09 on restricted configurations -/

namespace TJ

/-- C09 on every configuration: `get_indexes_of` lists, without repetition and for every set iteration order, exactly the sites of
the chosen component of `sites_restriction` on which `get_spin_site` reports the species. -/
theorem C09_restricted (S : SetSem) (c : Config) (det : List Nat) (hv : ValidDet c.nsites det) (t : Bool) (o : Occ) :
    ∃ l, getIndexesOf S c det o.twice t = .ok l ∧ l.Nodup ∧
      ∀ s, s ∈ l ↔ getSpinSite c det s = .ok o ∧ s ∈ (if t then c.restr.2 else c.restr.1) := by
  obtain ⟨l, e, _, hm⟩ := (C09_site_queries S { c with restr := (det, det) }
    (fun s hs => ⟨hv.mem.2 hs, hv.mem.2 hs⟩) det hv t).1 o
  have key : ∀ part : List Nat, (∀ x ∈ part, x ∈ det) → l = S.inter part (if t then det else det) →
      ∀ s, s ∈ part ↔ getSpinSite c det s = .ok o := by
    intro part hp hl s
    have hs : s ∈ l ↔ getSpinSite c det s = .ok o := hm s
    rw [← hs, hl, S.mem_inter]
    refine ⟨fun h => ⟨h, ?_⟩, fun h => h.1⟩
    cases t <;> exact hp s h
  have fin : ∀ part : List Nat, (∀ s, s ∈ part ↔ getSpinSite c det s = .ok o) →
      (S.inter part (if t then c.restr.2 else c.restr.1)).Nodup ∧ ∀ s, s ∈ S.inter part (if t then c.restr.2 else c.restr.1) ↔
        getSpinSite c det s = .ok o ∧ s ∈ (if t then c.restr.2 else c.restr.1) := by
    intro part hp
    refine ⟨S.nodup_inter _ _, fun s => ?_⟩
    rw [S.mem_inter, hp]
  cases o with
  | hole => exact ⟨_, rfl, fin _ (key (holesOf c det) (fun x hx => List.mem_of_mem_take hx) (Except.ok.inj e).symm)⟩
  | down =>
    exact ⟨_, rfl, fin _ (key (betaOf c det) (fun x hx => List.mem_of_mem_drop (List.mem_of_mem_take hx)) (Except.ok.inj e).symm)⟩
  | up => exact ⟨_, rfl, fin _ (key (alphaOf c det) (fun x hx => List.mem_of_mem_drop hx) (Except.ok.inj e).symm)⟩

/-- A restriction that leaves out the hole on site 3 of a determinant with two holes. -/
example : getIndexesOf SetSem.sorted { rectConf 2 2 1 2 1 with restr := ([0, 1, 2], [2]) } [1, 3, 2, 0] 0 = .ok [1] ∧
    ValidDet 4 [1, 3, 2, 0] := by
  refine ⟨by decide +kernel, ?_⟩
  unfold ValidDet
  decide +kernel

end TJ
