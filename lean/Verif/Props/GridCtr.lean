import Verif.Model.GridCtr
import Verif.Props.BTM10

/-! # C88, C89: groups of processes -/

namespace NgsAMG.GCtr
open NgsAMG.EQC NgsAMG.BTM

/-- the groups partition the processes `0, …, np - 1`; none is empty, all are sorted -/
structure GroupsOK (np : ℕ) (groups : List (List ℕ)) : Prop where
  perm : groups.flatten.Perm (List.range np)
  ne : ∀ g ∈ groups, g ≠ []
  sorted : ∀ g ∈ groups, g.Pairwise (· < ·)

/-- the number of the group of a process -/
def gOf (groups : List (List ℕ)) (p : ℕ) : ℕ := groups.findIdx fun g => g.contains p

variable {np : ℕ} {groups : List (List ℕ)}

theorem GroupsOK.mem (h : GroupsOK np groups) {p : ℕ} : p < np ↔ ∃ (gi : ℕ) (g : List ℕ), groups[gi]? = some g ∧ p ∈ g := by
  rw [← List.mem_range, ← h.perm.mem_iff, List.mem_flatten]
  constructor
  · rintro ⟨g, hg, hp⟩
    obtain ⟨i, hi, e⟩ := List.mem_iff_getElem.mp hg
    exact ⟨i, g, List.getElem?_eq_some_iff.mpr ⟨hi, e⟩, hp⟩
  · rintro ⟨i, g, hg, hp⟩
    exact ⟨g, List.mem_of_getElem? hg, hp⟩

theorem GroupsOK.uniq (h : GroupsOK np groups) {gi gj p : ℕ} {g g' : List ℕ} (hi : groups[gi]? = some g) (hj : groups[gj]? = some g') (hp : p ∈ g) (hp' : p ∈ g') : gi = gj := by
  have hn : groups.flatten.Nodup := h.perm.nodup_iff.2 List.nodup_range
  have hd := (List.nodup_flatten.1 hn).2
  obtain ⟨h1, e1⟩ := List.getElem?_eq_some_iff.mp hi
  obtain ⟨h2, e2⟩ := List.getElem?_eq_some_iff.mp hj
  by_contra hne
  rcases Nat.lt_or_gt_of_ne hne with hlt | hlt
  · have := List.pairwise_iff_getElem.1 hd gi gj h1 h2 hlt
    rw [e1, e2] at this
    exact this hp hp'
  · have := List.pairwise_iff_getElem.1 hd gj gi h2 h1 hlt
    rw [e1, e2] at this
    exact this hp' hp

theorem GroupsOK.gOf_eq (h : GroupsOK np groups) {gi p : ℕ} {g : List ℕ} (hi : groups[gi]? = some g) (hp : p ∈ g) : gOf groups p = gi := by
  have hex : ∃ x ∈ groups, (fun g : List ℕ => g.contains p) x = true := ⟨g, List.mem_of_getElem? hi, by simpa using hp⟩
  have hlt : gOf groups p < groups.length := List.findIdx_lt_length_of_exists hex
  have hc : (groups[gOf groups p]'hlt).contains p = true := List.findIdx_getElem (w := hlt)
  exact h.uniq (List.getElem?_eq_getElem hlt) hi (by simpa using hc) hp

theorem GroupsOK.gOf_lt (h : GroupsOK np groups) {p : ℕ} (hp : p < np) : gOf groups p < groups.length ∧ ∃ g, groups[gOf groups p]? = some g ∧ p ∈ g := by
  obtain ⟨gi, g, hg, hpg⟩ := h.mem.mp hp
  rw [h.gOf_eq hg hpg]
  exact ⟨(List.getElem?_eq_some_iff.mp hg).1, g, hg, hpg⟩

theorem foldl_update (g : List ℕ) (i : ℕ) (f : ℕ → Option ℕ) (p : ℕ) :
    g.foldl (fun f p => Function.update f p (some i)) f p = if p ∈ g then some i else f p := by
  induction g generalizing f with
  | nil => simp
  | cons a g ih =>
    rw [List.foldl_cons, ih]
    by_cases hp : p ∈ g
    · simp [hp]
    · by_cases ha : p = a
      · subst ha; simp
      · simp [hp, ha]

theorem procMap_aux (p gi : ℕ) (l : List (List ℕ × ℕ)) (hl : ∀ e ∈ l, p ∈ e.1 → e.2 = gi) (f : ℕ → Option ℕ) :
    l.foldl (fun f g => g.1.foldl (fun f p => Function.update f p (some g.2)) f) f p = if ∃ e ∈ l, p ∈ e.1 then some gi else f p := by
  induction l generalizing f with
  | nil => simp
  | cons a l ih =>
    rw [List.foldl_cons, ih (fun e he => hl e (List.mem_cons_of_mem _ he)), foldl_update]
    by_cases h1 : ∃ e ∈ l, p ∈ e.1
    · rw [if_pos h1, if_pos]
      obtain ⟨e, he, hp⟩ := h1
      exact ⟨e, List.mem_cons_of_mem _ he, hp⟩
    · rw [if_neg h1]
      by_cases ha : p ∈ a.1
      · rw [if_pos ha, if_pos ⟨a, List.mem_cons_self, ha⟩, hl a List.mem_cons_self ha]
      · rw [if_neg ha, if_neg]
        rintro ⟨e, he, hp⟩
        rcases List.mem_cons.mp he with rfl | he
        · exact ha hp
        · exact h1 ⟨e, he, hp⟩

theorem procMap_spec (h : GroupsOK np groups) {p : ℕ} (hp : p < np) : procMap groups p = some (gOf groups p) := by
  obtain ⟨-, g, hg, hpg⟩ := h.gOf_lt hp
  unfold procMap
  rw [procMap_aux p (gOf groups p)]
  · rw [if_pos]
    exact ⟨(g, gOf groups p), List.mem_zipIdx_iff_getElem?.mpr hg, hpg⟩
  · rintro ⟨g', i⟩ he hp'
    have := List.mem_zipIdx_iff_getElem?.mp he
    exact (h.gOf_eq this hp').symm

end NgsAMG.GCtr
