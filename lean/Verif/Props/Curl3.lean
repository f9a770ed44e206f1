import Verif.Props.Curl2

/-!
# C100 (helpers): entries of the divergence of the nonconforming discretization
-/

namespace NgsAMG.Curl
open NgsAMG.SparseMM NgsAMG.Spec
variable {K : Type} [Field K] {b : ℕ}

/-- the edge has the vertex -/
def touches (edges : ℕ → ℕ × ℕ) (v e : ℕ) : Bool := decide ((edges e).1 = v) || decide ((edges e).2 = v)

theorem scatter_fold (edges : ℕ → ℕ × ℕ) (l : List (ℕ × ℕ)) (hd : ∀ x ∈ l, (edges x.1).1 ≠ (edges x.1).2) (rows : ℕ → List ℕ) (v : ℕ) :
    l.foldl (fun rows x =>
      let r0 := Function.update rows (edges x.1).1 (rows (edges x.1).1 ++ [x.2])
      Function.update r0 (edges x.1).2 (r0 (edges x.1).2 ++ [x.2])) rows v
      = rows v ++ (l.filter fun x => touches edges v x.1).map Prod.snd := by
  induction l generalizing rows with
  | nil => simp
  | cons x t ih =>
    rw [List.foldl_cons, ih (fun y hy => hd y (List.mem_cons_of_mem _ hy))]
    have hx := hd x (List.mem_cons_self ..)
    rw [List.filter_cons]
    by_cases h1 : v = (edges x.1).1
    · have h2 : v ≠ (edges x.1).2 := fun e => hx (h1 ▸ e)
      have ht : touches edges v x.1 = true := by simp [touches, h1]
      rw [if_pos ht, Function.update_of_ne h2, h1, Function.update_self]
      simp
    · by_cases h2 : v = (edges x.1).2
      · have ht : touches edges v x.1 = true := by simp [touches, h2]
        rw [if_pos ht, h2, Function.update_self, Function.update_of_ne (fun e => hx e.symm)]
        simp
      · have ht : ¬ touches edges v x.1 = true := by simp [touches, Ne.symm h1, Ne.symm h2]
        rw [if_neg ht, Function.update_of_ne h2, Function.update_of_ne h1]

theorem scatter_eq (edges : ℕ → ℕ × ℕ) (d2e : List ℕ) (hd : ∀ e ∈ d2e, (edges e).1 ≠ (edges e).2) (v : ℕ) :
    scatter edges d2e v = (d2e.zipIdx.filter fun x => touches edges v x.1).map Prod.snd := by
  rw [scatter, scatter_fold]
  · rfl
  · rintro ⟨e, d⟩ hx
    have := List.mem_zipIdx hx
    simp only [Nat.zero_add] at this
    exact hd _ (by rw [this.2.2]; exact List.getElem_mem _)

theorem mem_scatter (edges : ℕ → ℕ × ℕ) (d2e : List ℕ) (hd : ∀ e ∈ d2e, (edges e).1 ≠ (edges e).2) (v d : ℕ) :
    d ∈ scatter edges d2e v ↔ d < d2e.length ∧ touches edges v (d2e.getD d 0) = true := by
  rw [scatter_eq edges d2e hd, List.mem_map]
  constructor
  · rintro ⟨⟨e, d'⟩, hx, rfl⟩
    rw [List.mem_filter] at hx
    have := List.mem_zipIdx' hx.1
    refine ⟨this.1, ?_⟩
    rw [List.getD_eq_getElem?_getD, List.getElem?_eq_getElem this.1, Option.getD_some, ← this.2]
    exact hx.2
  · rintro ⟨h1, h2⟩
    rw [List.getD_eq_getElem?_getD, List.getElem?_eq_getElem h1, Option.getD_some] at h2
    refine ⟨(d2e[d], d), List.mem_filter.2 ⟨?_, h2⟩, rfl⟩
    rw [List.mem_zipIdx_iff_getElem?]
    simp [h1]

theorem scatter_sorted (edges : ℕ → ℕ × ℕ) (d2e : List ℕ) (hd : ∀ e ∈ d2e, (edges e).1 ≠ (edges e).2) (v : ℕ) : (scatter edges d2e v).Pairwise (· < ·) := by
  rw [scatter_eq edges d2e hd]
  refine List.Pairwise.sublist (List.Sublist.map _ List.filter_sublist) ?_
  rw [List.zipIdx_map_snd]
  exact List.pairwise_lt_range'

/-- `1` in the first vertex of the edge, `-1` in the second -/
def inc (edges : ℕ → ℕ × ℕ) (v e : ℕ) : K := (if (edges e).1 = v then 1 else 0) - (if (edges e).2 = v then 1 else 0)

/-- `fac · flow` with its sign, for a degree of freedom that is mine -/
def divEntry (edges : ℕ → ℕ × ℕ) (fac : ℕ → K) (flow : ℕ → Fin b → K) (v e : ℕ) (m : Bool) : Mt 1 b K := fun _ l => if m then inc edges v e * fac v * flow e l else 0

/-- **C100** (divergence): the stored matrix is proper and has the entries one expects: for the degree of freedom `d` of edge `e` that is mine,
`fac · flow` in the first vertex of the edge, minus that in the second, and zero elsewhere -/
theorem ncDiv_correct (nv : ℕ) (edges : ℕ → ℕ × ℕ) (d2e : List ℕ) (master : ℕ → Bool) (fac : ℕ → K) (flow : ℕ → Fin b → K)
    (hd : ∀ e ∈ d2e, (edges e).1 ≠ (edges e).2) :
    (ncDiv nv edges d2e master fac flow).WF ∧
      ∀ v < nv, ∀ d e : ℕ, d2e[d]? = some e →
        (ncDiv nv edges d2e master fac flow).entry v d = divEntry edges fac flow v e (master d) := by
  refine ⟨⟨fun v => ?_, fun v x hx => ?_, fun v hv => ?_⟩, fun v hv d e hde => ?_⟩
  · simp only [ncDiv]
    split
    · rw [divRow, List.map_map]
      refine (?_ : List.Pairwise (· < ·) ((scatter edges d2e v).map id))
      rw [List.map_id]
      exact scatter_sorted edges d2e hd v
    · exact List.Pairwise.nil
  · simp only [ncDiv] at hx ⊢
    split at hx
    · rw [divRow] at hx
      obtain ⟨d, hd', rfl⟩ := List.mem_map.1 hx
      exact ((mem_scatter edges d2e hd v d).1 hd').1
    · cases hx
  · simp only [ncDiv] at hv ⊢
    rw [if_neg (by omega)]
  · let F : ℕ → Mt 1 b K := fun d => if d < d2e.length then divEntry edges fac flow v (d2e.getD d 0) (master d) else 0
    have hF : (ncDiv nv edges d2e master fac flow).entry v d = F d := by
      refine entry_tabulated _ v (scatter edges d2e v) F ?_ (scatter_sorted edges d2e hd v) ?_ d
      · simp only [ncDiv, if_pos hv]
        rw [divRow]
        apply List.map_congr_left
        intro d hd'
        obtain ⟨h1, h2⟩ := (mem_scatter edges d2e hd v d).1 hd'
        have he : d2e.getD d 0 ∈ d2e := by
          rw [List.getD_eq_getElem?_getD, List.getElem?_eq_getElem h1, Option.getD_some]
          exact List.getElem_mem _
        have hne := hd _ he
        have hFd : F d = divEntry edges fac flow v (d2e.getD d 0) (master d) := if_pos h1
        rw [hFd]
        refine Prod.ext rfl (funext fun i => funext fun l => ?_)
        simp only [orient, divEntry, inc]
        by_cases hm : master d = true
        swap
        · rw [if_neg hm]
          rw [Bool.not_eq_true] at hm
          simp [hm]
        · rw [if_pos hm]
          simp only [hm, Bool.not_true, Bool.false_eq_true, if_false]
          rw [touches, Bool.or_eq_true, decide_eq_true_iff, decide_eq_true_iff] at h2
          by_cases hv1 : (edges (d2e.getD d 0)).1 = v
          · rw [if_pos hv1, if_pos hv1, if_neg fun h => hne (hv1.trans h.symm)]
            ring
          · rw [if_neg hv1, if_neg hv1, if_pos (h2.resolve_left hv1)]
            ring
      · intro j hj
        simp only [F]
        by_cases hjl : j < d2e.length
        · rw [if_pos hjl]
          have ht : ¬ touches edges v (d2e.getD j 0) = true := fun h => hj ((mem_scatter edges d2e hd v j).2 ⟨hjl, h⟩)
          rw [touches, Bool.or_eq_true, decide_eq_true_iff, decide_eq_true_iff, not_or] at ht
          funext i l
          rw [divEntry, inc, if_neg ht.1, if_neg ht.2]
          simp
        · rw [if_neg hjl]
    rw [hF]
    have hdl : d < d2e.length := (List.getElem?_eq_some_iff.1 hde).1
    have : d2e.getD d 0 = e := by rw [List.getD_eq_getElem?_getD, hde]; rfl
    simp only [F, if_pos hdl, this]

end NgsAMG.Curl
