import Verif.Props.NCProl2
import Mathlib.Algebra.Order.BigOperators.Group.List

/-!
# Property C101, main part: the prolongation spreads the divergence of a coarse element evenly
-/

namespace NgsAMG.NCProl
open NgsAMG.SparseMM NgsAMG.Spec
variable {K : Type} [Field K] [LinearOrder K] {b : ℕ}

/-! ### rows times vectors -/

theorem foldl_set {n : ℕ} {E : Type} (pos : Fin n → ℕ) (X : Fin n → E) (hinj : ∀ i j, pos i = pos j → i = j) :
    ∀ (l : List (Fin n)) (r : List E), l.Nodup → (l.foldl (fun r j => r.set (pos j) (X j)) r).length = r.length ∧
      (∀ p, (∀ j ∈ l, pos j ≠ p) → (l.foldl (fun r j => r.set (pos j) (X j)) r)[p]? = r[p]?) ∧
      ∀ j ∈ l, pos j < r.length → (l.foldl (fun r j => r.set (pos j) (X j)) r)[pos j]? = some (X j) := by
  intro l
  induction l with
  | nil => exact fun r _ => ⟨rfl, fun _ _ => rfl, fun j hj => by simp at hj⟩
  | cons k l ih =>
    intro r hn
    rw [List.nodup_cons] at hn
    obtain ⟨i1, i2, i3⟩ := ih (r.set (pos k) (X k)) hn.2
    refine ⟨by rw [List.foldl_cons, i1, List.length_set], fun p hp => ?_, fun j hj hlt => ?_⟩
    · rw [List.foldl_cons, i2 p fun j hj => hp j (List.mem_cons_of_mem _ hj), List.getElem?_set_ne (hp k List.mem_cons_self)]
    · rw [List.foldl_cons]
      rcases List.mem_cons.1 hj with rfl | hj
      · rw [i2 _ fun q hq hqj => hn.1 ((hinj q j hqj) ▸ hq), List.getElem?_set_self hlt]
      · exact i3 j hj (by rw [List.length_set]; exact hlt)

theorem cols_length (I : Inp b K) (cv : ℕ) : (cols I cv).length = (I.ccon cv).length := by unfold cols; rw [List.length_map]

theorem cols_get (I : Inp b K) (cv : ℕ) (j : Fin (I.ccon cv).length) : (cols I cv).getD j.1 0 = (I.ce2d ((I.ccon cv)[j]).2).getD 0 := by
  unfold cols
  rw [List.getD_eq_getElem?_getD, List.getElem?_map, List.getElem?_eq_getElem j.2]
  rfl

theorem cols_nodup {I : Inp b K} (hI : MeshOK I) {cv : ℕ} (hs : ∀ x ∈ I.ccon cv, (I.ce2d x.2).isSome) : (cols I cv).Nodup := by
  unfold cols
  have h1 : (I.ccon cv).Nodup := List.Nodup.of_map _ (hI.conce cv)
  refine h1.map_on fun x hx y hy hxy => ?_
  obtain ⟨dx, ex⟩ := Option.isSome_iff_exists.1 (hs x hx)
  obtain ⟨dy, ey⟩ := Option.isSome_iff_exists.1 (hs y hy)
  rw [ex, ey, Option.getD_some, Option.getD_some] at hxy
  exact List.inj_on_of_nodup_map (hI.conce cv) hx hy (hI.cinj cv x y dx hx hy ex (hxy ▸ ey))

theorem extRow_eq {I : Inp b K} {cv : ℕ} (hc : (cols I cv).Nodup) (X : Fin (I.ccon cv).length → Mt b b K) :
    extRow I cv X = ((cols I cv).insertionSort (· ≤ ·)).map fun c =>
      (c, if h : (cols I cv).idxOf c < (I.ccon cv).length then X ⟨(cols I cv).idxOf c, h⟩ else 0) := by
  obtain ⟨ris, hris⟩ : ∃ r, r = (cols I cv).insertionSort (· ≤ ·) := ⟨_, rfl⟩
  have hp : ris.Perm (cols I cv) := hris ▸ List.perm_insertionSort _ _
  have hn : ris.Nodup := hp.symm.nodup hc
  have hmem : ∀ j : Fin (I.ccon cv).length, (cols I cv).getD j.1 0 ∈ cols I cv := by
    intro j
    have hj : j.1 < (cols I cv).length := by rw [cols_length]; exact j.2
    rw [List.getD_eq_getElem?_getD, List.getElem?_eq_getElem hj, Option.getD_some]
    exact List.getElem_mem hj
  have hidx : ∀ j : Fin (I.ccon cv).length, (cols I cv).idxOf ((cols I cv).getD j.1 0) = j.1 := by
    intro j
    have hj : j.1 < (cols I cv).length := by rw [cols_length]; exact j.2
    rw [List.getD_eq_getElem?_getD, List.getElem?_eq_getElem hj, Option.getD_some]
    exact hc.idxOf_getElem j.1 hj
  unfold extRow
  rw [← hris]
  dsimp only
  obtain ⟨f1, _, f3⟩ := foldl_set (fun j : Fin (I.ccon cv).length => ris.idxOf ((cols I cv).getD j.1 0)) X (fun i j hij => by
    have h1 := (List.idxOf_inj (hp.symm.mem_iff.1 (hmem i))).1 hij
    have h2 := congrArg (fun c => (cols I cv).idxOf c) h1
    rw [hidx, hidx] at h2
    exact Fin.ext h2) (List.finRange _) (ris.map fun _ => I.junk.2) (List.nodup_finRange _)
  rw [List.length_map] at f1
  refine List.ext_getElem (by rw [List.length_zip, f1, List.length_map, Nat.min_self]) fun i h1 h2 => ?_
  rw [List.length_map] at h2
  rw [List.getElem_zip, List.getElem_map]
  refine Prod.ext rfl ?_
  dsimp only
  have hm : ris[i] ∈ cols I cv := hp.mem_iff.1 (List.getElem_mem h2)
  have hlt : (cols I cv).idxOf ris[i] < (I.ccon cv).length := by
    rw [← cols_length]
    exact List.idxOf_lt_length_of_mem hm
  rw [dif_pos hlt]
  have h3 := f3 ⟨_, hlt⟩ (List.mem_finRange _)
  dsimp only at h3
  rw [getD_idxOf hm, hn.idxOf_getElem i h2, List.length_map] at h3
  have h4 := h3 h2
  rw [List.getElem?_eq_some_iff] at h4
  exact h4.2

theorem mulRow_ext {I : Inp b K} {cv : ℕ} (hc : (cols I cv).Nodup) (X : Fin (I.ccon cv).length → Mt b b K) (cvec : ℕ → Fin b → K) (l : Fin b) :
    mulRow (extRow I cv X) cvec l = ∑ j, ∑ m, X j l m * cvec ((I.ce2d ((I.ccon cv)[j]).2).getD 0) m := by
  rw [extRow_eq hc]
  unfold mulRow
  rw [List.map_map, ((List.perm_insertionSort _ _).map _).sum_eq]
  rw [← Fin.sum_univ_fun_getElem]
  refine Fintype.sum_equiv (finCongr (cols_length I cv)) _ _ fun i => ?_
  have hi : (cols I cv).idxOf (cols I cv)[i.1] < (I.ccon cv).length := by
    rw [← cols_length]
    exact List.idxOf_lt_length_of_mem (List.getElem_mem i.2)
  dsimp only [Function.comp_apply]
  rw [dif_pos hi]
  have e1 : (⟨_, hi⟩ : Fin (I.ccon cv).length) = finCongr (cols_length I cv) i := Fin.ext (hc.idxOf_getElem i.1 i.2)
  have e2 : (cols I cv)[i.1] = (I.ce2d ((I.ccon cv)[finCongr (cols_length I cv) i]).2).getD 0 := by
    rw [← cols_get, List.getD_eq_getElem?_getD]
    rw [show (finCongr (cols_length I cv) i).1 = i.1 from rfl, List.getElem?_eq_getElem i.2, Option.getD_some]
  rw [e1, e2]

theorem sum_crs {I : Inp b K} {cv : ℕ} (f : Crs I cv → K) : ∑ c, f c = ∑ j, ∑ m, f (j, m) := Fintype.sum_prod_type f

/-- the row of an edge that leaves the agglomerate -/
theorem exterior_row {I : Inp b K} (hI : MeshOK I) {cv v w e : ℕ} (hv : I.vmap v = some cv) (hc : (w, e) ∈ I.con v) (hw : I.vmap w ≠ some cv)
    {r : Row b K} (hr : RowOf I e r) : r = [] ∨ ∃ D E c, (D, E) ∈ I.ccon cv ∧ I.emap e = some E ∧ I.ce2d E = some c ∧ r = [(c, 1)] := by
  cases hw' : I.vmap w with
  | none =>
    left
    have hN : I.emap e = none := hI.emapN w v e (hI.symm _ _ _ hc) (Or.inl hw')
    obtain ⟨n, hn, rfl⟩ := hr.2 hN
    unfold perow at hn
    rw [hN] at hn
    split at hn
    · obtain rfl := Option.some.inj hn
      rfl
    · dsimp only at hn
      rw [if_neg] at hn
      · obtain rfl := Option.some.inj hn
        rfl
      · rcases hI.ends _ _ _ hc with h | h <;> rw [h.1, hv, hw'] <;> simp
  | some D =>
    right
    obtain ⟨E, h1, h2⟩ := hI.emap v w e cv D hc hv hw' (fun h => hw (by rw [hw', h]))
    obtain ⟨c, h3, h4⟩ := hr.1 E h1
    exact ⟨D, E, c, h2, h1, h3, h4⟩

theorem entryOf_one (c c' : ℕ) : entryOf (b := b) (K := K) [(c, 1)] c' = if c = c' then 1 else 0 := by
  unfold entryOf
  by_cases h : c = c'
  · subst h
    simp
  · simp [h]

/-- `Pf` times a coarse vector is the row times the vector -/
theorem ext_mul {I : Inp b K} {cv : ℕ} (hc : (cols I cv).Nodup) {r : Row b K}
    (hr : r = [] ∨ ∃ D E c, (D, E) ∈ I.ccon cv ∧ I.ce2d E = some c ∧ r = [(c, 1)]) (cvec : ℕ → Fin b → K) (m : Fin b) :
    ∑ c : Crs I cv, entryOf r ((I.ce2d ((I.ccon cv)[c.1]).2).getD 0) m c.2 * cvec ((I.ce2d ((I.ccon cv)[c.1]).2).getD 0) c.2 = mulRow r cvec m := by
  rcases hr with rfl | ⟨D, E, c, h1, h2, rfl⟩
  · unfold mulRow
    refine Finset.sum_eq_zero fun c _ => ?_
    rw [show entryOf (b := b) (K := K) [] _ = 0 from rfl]
    simp
  · obtain ⟨j, hj, he⟩ := List.getElem_of_mem h1
    have hcj : (I.ce2d ((I.ccon cv)[(⟨j, hj⟩ : Fin (I.ccon cv).length)]).2).getD 0 = c := by
      rw [show (I.ccon cv)[(⟨j, hj⟩ : Fin (I.ccon cv).length)] = (I.ccon cv)[j] from rfl, he, h2]
      rfl
    rw [sum_crs, Finset.sum_eq_single_of_mem (⟨j, hj⟩ : Fin (I.ccon cv).length) (Finset.mem_univ _)]
    · unfold mulRow
      have key : ∀ c', c' = c → ∑ l, entryOf (b := b) (K := K) [(c, 1)] c' m l * cvec c' l = ∑ l, (1 : Mt b b K) m l * cvec c l := by
        rintro c' rfl
        rw [entryOf_one, if_pos rfl]
      refine (key _ hcj).trans ?_
      simp
    · intro k _ hk
      have hne : c ≠ (I.ce2d ((I.ccon cv)[k]).2).getD 0 := by
        intro h
        rw [← hcj, ← cols_get, ← cols_get] at h
        have hj' : j < (cols I cv).length := by rw [cols_length]; exact hj
        have hk' : k.1 < (cols I cv).length := by rw [cols_length]; exact k.2
        rw [List.getD_eq_getElem?_getD, List.getD_eq_getElem?_getD, List.getElem?_eq_getElem hj', List.getElem?_eq_getElem hk'] at h
        simp only [Option.getD_some] at h
        exact hk (Fin.ext ((List.Nodup.getElem_inj_iff hc).1 h).symm)
      have key : ∀ c', c ≠ c' → ∑ l, entryOf (b := b) (K := K) [(c, 1)] c' m l * cvec c' l = 0 := by
        intro c' hc'
        rw [entryOf_one, if_neg hc']
        simp
      exact key _ hne

/-! ### summing over an agglomerate -/

/-- the flow of a coarse edge is the sum of the flows of the fine edges it consists of, seen from the agglomerate -/
def FlowOK (I : Inp b K) (a : List ℕ) (cv : ℕ) : Prop :=
  ∀ x ∈ I.ccon cv, ∀ l, sgn cv x.1 * I.cflow x.2 l =
    (a.map fun v => ((I.con v).map fun y => if I.emap y.2 = some x.2 then sgn v y.1 * I.flow y.2 l else 0).sum).sum

theorem sum_list_fin {α : Type} [DecidableEq α] {l : List α} (h : l.Nodup) (f : α → K) : (l.map f).sum = ∑ x ∈ l.toFinset, f x :=
  (List.sum_toFinset f h).symm

/-- flows over interior edges cancel -/
theorem interior_cancel {I : Inp b K} (hI : MeshOK I) {a : List ℕ} (hn : a.Nodup) (g : ℕ → K) :
    (a.map fun v => ((I.con v).map fun y => if y.1 ∈ a then sgn v y.1 * g y.2 else 0).sum).sum = 0 := by
  have hcn : ∀ v, (I.con v).Nodup := fun v => List.Nodup.of_map _ (hI.once v)
  rw [sum_list_fin hn]
  rw [Finset.sum_congr rfl fun v _ => sum_list_fin (hcn v) _, Finset.sum_sigma']
  refine Finset.sum_involution (fun x _ => if x.2.1 ∈ a then ⟨x.2.1, (x.1, x.2.2)⟩ else x) ?_ ?_ ?_ ?_
  · rintro ⟨v, w, e⟩ hx
    simp only [Finset.mem_sigma, List.mem_toFinset] at hx
    by_cases hw : w ∈ a
    · simp only [if_pos hw, if_pos hx.1]
      rcases hI.ends _ _ _ hx.2 with h | h
      · have : ¬ w < v := by omega
        simp [sgn, h.2, this]
      · have : ¬ v < w := by omega
        simp [sgn, h.2, this]
    · simp only [if_neg hw, add_zero]
  · rintro ⟨v, w, e⟩ hx hne
    simp only [Finset.mem_sigma, List.mem_toFinset] at hx
    by_cases hw : w ∈ a
    · simp only [if_pos hw]
      intro h
      have := congrArg Sigma.fst h
      dsimp only at this
      rcases hI.ends _ _ _ hx.2 with h | h <;> omega
    · simp only [if_neg hw] at hne
      exact absurd rfl hne
  · rintro ⟨v, w, e⟩ hx
    simp only [Finset.mem_sigma, List.mem_toFinset] at hx
    by_cases hw : w ∈ a
    · simp only [if_pos hw, Finset.mem_sigma, List.mem_toFinset]
      exact ⟨hw, hI.symm _ _ _ hx.2⟩
    · simp only [if_neg hw, Finset.mem_sigma, List.mem_toFinset]
      exact hx
  · rintro ⟨v, w, e⟩ hx
    simp only [Finset.mem_sigma, List.mem_toFinset] at hx
    by_cases hw : w ∈ a
    · simp only [if_pos hw, if_pos hx.1]
    · simp only [if_neg hw]

theorem sum_ite_key {C : List (ℕ × ℕ)} (hC : (C.map Prod.snd).Nodup) {E : ℕ} (hE : E ∈ C.map Prod.snd) (f : ℕ → K) :
    (C.map fun x => if E = x.2 then f x.2 else 0).sum = f E := by
  rw [show (fun x : ℕ × ℕ => if E = x.2 then f x.2 else 0) = (fun e => if E = e then f e else 0) ∘ Prod.snd from rfl, ← List.map_map,
    sum_list_fin hC, Finset.sum_ite_eq, if_pos (List.mem_toFinset.2 hE)]

theorem list_sum_comm {α β : Type} (l : List α) (m : List β) (f : α → β → K) :
    (l.map fun x => (m.map fun y => f x y).sum).sum = (m.map fun y => (l.map fun x => f x y).sum).sum := by
  induction l with
  | nil => simp
  | cons x l ih => simp [ih, List.sum_map_add]

/-- the net flow out of the vertices of an agglomerate sums up to the net flow out of the coarse vertex -/
theorem sum_netFlow {I : Inp b K} (hI : MeshOK I) {a : List ℕ} {cv : ℕ} (hn : a.Nodup) (ha : ∀ v, v ∈ a ↔ I.vmap v = some cv)
    (hflow : FlowOK I a cv) (Y C : ℕ → Fin b → K)
    (hY : ∀ v w e, v ∈ a → (w, e) ∈ I.con v → w ∉ a → Y e = match I.emap e with | some E => C E | none => fun _ => 0) :
    (a.map fun v => netFlow I.con I.flow Y v).sum = netFlow I.ccon I.cflow C cv := by
  -- split every sum
  have h1 : ∀ v ∈ a, netFlow I.con I.flow Y v =
      ((I.con v).map fun y => if y.1 ∈ a then sgn v y.1 * ∑ l, I.flow y.2 l * Y y.2 l else 0).sum +
      ((I.ccon cv).map fun x => ∑ l, ((I.con v).map fun y => if I.emap y.2 = some x.2 then sgn v y.1 * I.flow y.2 l else 0).sum * C x.2 l).sum := by
    intro v hv
    have e1 : ((I.ccon cv).map fun x => ∑ l, ((I.con v).map fun y => if I.emap y.2 = some x.2 then sgn v y.1 * I.flow y.2 l else 0).sum * C x.2 l).sum =
        ((I.con v).map fun y => ((I.ccon cv).map fun x => if I.emap y.2 = some x.2 then sgn v y.1 * ∑ l, I.flow y.2 l * C x.2 l else 0).sum).sum := by
      rw [list_sum_comm]
      congr 1
      refine List.map_congr_left fun x _ => ?_
      induction I.con v with
      | nil => simp
      | cons y t ih =>
        simp only [List.map_cons, List.sum_cons, add_mul, Finset.sum_add_distrib, ih]
        congr 1
        by_cases h : I.emap y.2 = some x.2
        · simp only [if_pos h, Finset.mul_sum]
          exact Finset.sum_congr rfl fun l _ => mul_assoc _ _ _
        · simp only [if_neg h, zero_mul, Finset.sum_const_zero]
    rw [e1, ← List.sum_map_add]
    unfold netFlow
    congr 1
    refine List.map_congr_left fun y hy => ?_
    by_cases hw : y.1 ∈ a
    · have hN : I.emap y.2 = none := hI.emapN v y.1 y.2 hy (Or.inr (by rw [(ha v).1 hv, (ha y.1).1 hw]))
      rw [if_pos hw, hN]
      simp [sgn]
    · rw [if_neg hw, zero_add, hY v y.1 y.2 hv hy hw]
      cases hE : I.emap y.2 with
      | none => simp
      | some E =>
        have hEm : E ∈ (I.ccon cv).map Prod.snd := by
          cases hw' : I.vmap y.1 with
          | none =>
            have := hI.emapN y.1 v y.2 (hI.symm _ _ _ hy) (Or.inl hw')
            rw [hE] at this
            cases this
          | some D =>
            obtain ⟨E', q1, q2⟩ := hI.emap v y.1 y.2 cv D hy ((ha v).1 hv) hw' fun h => hw ((ha _).2 (by rw [hw', h]))
            rw [hE] at q1
            cases q1
            exact List.mem_map_of_mem q2
        have := sum_ite_key (hI.conce cv) hEm fun e => sgn v y.1 * ∑ l, I.flow y.2 l * C e l
        simp only [Option.some.injEq]
        rw [this]
        rfl
  rw [show (a.map fun v => netFlow I.con I.flow Y v) = a.map _ from List.map_congr_left h1, List.sum_map_add, interior_cancel hI hn
    fun e => ∑ l, I.flow e l * Y e l, zero_add, list_sum_comm]
  unfold netFlow
  congr 1
  refine List.map_congr_left fun x hx => ?_
  have e2 : ∀ l, (a.map fun v => ((I.con v).map fun y => if I.emap y.2 = some x.2 then sgn v y.1 * I.flow y.2 l else 0).sum * C x.2 l).sum =
      sgn cv x.1 * I.cflow x.2 l * C x.2 l := by
    intro l
    rw [hflow x hx l, ← List.sum_map_mul_right]
  have e3 : ∀ (t : List ℕ) (f : ℕ → Fin b → K), (t.map fun v => ∑ l, f v l).sum = ∑ l, (t.map fun v => f v l).sum := by
    intro t f
    induction t with
    | nil => simp
    | cons v t ih => simp [ih, Finset.sum_add_distrib]
  rw [e3, Finset.mul_sum]
  refine Finset.sum_congr rfl fun l _ => ?_
  rw [e2 l]
  unfold sgn
  ring

end NgsAMG.NCProl
