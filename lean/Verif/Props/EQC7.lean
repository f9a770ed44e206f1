import Verif.Props.EQC6

/-!
# Properties of the equivalence-class hierarchy, part 7: end-to-end statement for parallel DOFs, examples, counterexamples
-/

namespace NgsAMG.EQC

open NgsAMG.Exch NgsAMG.DCC

/-- the selection of the DOFs is the same on all processes -/
structure SelOK (P : PD) (maxNd : ℕ → ℕ) (sel : ℕ → ℕ → Bool) : Prop where
  le : ∀ p < P.np, maxNd p ≤ P.ndof p
  same : ∀ p < P.np, ∀ q < P.np, ∀ d < P.ndof p, ∀ e < P.ndof q, P.glob p d = P.glob q e →
    (d < maxNd p ∧ sel p d = true ↔ e < maxNd q ∧ sel q e = true)

section
variable {P : PD} {maxNd : ℕ → ℕ} {sel : ℕ → ℕ → Bool}

theorem classes_eq (hs : SelOK P maxNd sel) {p : ℕ} (hp : p < P.np) :
    FamOK P.np p (classesOfDofs P maxNd sel p) ∧
    (∀ c, c ∈ classesOfDofs P maxNd sel p ↔
      (c = [] ∧ 0 < P.ndof p) ∨ (c ≠ [] ∧ ∃ d < maxNd p, sel p d = true ∧ P.dps p d = c)) := by
  by_cases h0 : 0 < P.ndof p
  · obtain ⟨V', h1, h2, h3⟩ := classes_fold P sel p (maxNd p) (hs.le p hp)
    have : classesOfDofs P maxNd sel p = [] :: V' := by
      unfold classesOfDofs
      rw [if_pos h0]
      exact h1
    rw [this]
    refine ⟨h2, fun c => ?_⟩
    rw [List.mem_cons, h3]
    simp [h0]
  · have hm : maxNd p = 0 := by have := hs.le p hp; omega
    have : classesOfDofs P maxNd sel p = [] := by
      unfold classesOfDofs
      rw [if_neg h0, hm]
      rfl
    rw [this, hm]
    exact ⟨⟨List.nodup_nil, by simp⟩, by simp [h0]⟩

theorem shares_iff {q g : ℕ} : P.shares q g = true ↔ ∃ e < P.ndof q, P.glob q e = g := by
  unfold PD.shares
  simp

theorem members_dps {p d : ℕ} (hp : p < P.np) (hd : d < P.ndof p) (x : ℕ) :
    x ∈ members p (P.dps p d) ↔ x < P.np ∧ P.shares x (P.glob p d) = true := by
  rw [mem_members]
  unfold PD.dps
  simp only [List.mem_filter, List.mem_range, Bool.and_eq_true, bne_iff_ne]
  constructor
  · rintro (rfl | h)
    · exact ⟨hp, shares_iff.mpr ⟨d, hd, rfl⟩⟩
    · exact ⟨h.1, h.2.2⟩
  · rintro ⟨h1, h2⟩
    by_cases h : x = p
    · exact Or.inl h
    · exact Or.inr ⟨h1, h, h2⟩

theorem members_dps_eq {p q d e : ℕ} (hp : p < P.np) (hq : q < P.np) (hd : d < P.ndof p) (he : e < P.ndof q)
    (h : P.glob p d = P.glob q e) : members p (P.dps p d) = members q (P.dps q e) := by
  ext x
  rw [members_dps hp hd, members_dps hq he, h]

theorem classes_consistent (hs : SelOK P maxNd sel) : Consistent P.np fun p => classesOfDofs P maxNd sel p := by
  intro p hp c hc q hq
  rcases ((classes_eq hs hp).2 c).mp hc with ⟨rfl, -⟩ | ⟨hne, d, hd, hsel, rfl⟩
  · cases hq
  · have hdn : d < P.ndof p := lt_of_lt_of_le hd (hs.le p hp)
    obtain ⟨hqn, hsh⟩ := (members_dps hp hdn q).mp (mem_members.mpr (Or.inr hq))
    obtain ⟨e, he, hg⟩ := shares_iff.mp hsh
    have hes := (hs.same p hp q hqn d hdn e he hg.symm).mp ⟨hd, hsel⟩
    have hqp : q ≠ p := by
      rintro rfl
      exact ((classes_eq hs hp).1.2 _ hc).notSelf hq
    have hpe : p ∈ P.dps q e := by
      have : p ∈ members q (P.dps q e) := by
        rw [← members_dps_eq hp hqn hdn he hg.symm]; exact mem_members.mpr (Or.inl rfl)
      rcases mem_members.mp this with h | h
      · exact absurd h.symm hqp
      · exact h
    exact ⟨P.dps q e, ((classes_eq hs hqn).2 _).mpr (Or.inr ⟨List.ne_nil_of_mem hpe, e, hes.1, hes.2, rfl⟩),
      (members_dps_eq hp hqn hdn he hg.symm).symm⟩

/-- the class of the own DOFs is number 0 -/
theorem local_first {T : List (List ℕ)} (hs : T.Pairwise fun a b => eqLt a b = true) (h0 : [] ∈ T) : T[0]? = some [] := by
  cases T with
  | nil => cases h0
  | cons a l =>
    rcases List.mem_cons.mp h0 with h | h
    · rw [← h]; rfl
    · have := (List.pairwise_cons.mp hs).1 [] h
      unfold eqLt at this
      cases a with
      | nil => rfl
      | cons x a => simp at this

/-- **The hierarchy of parallel DOFs.** Whatever the interleaving of the processes: at the end of the set-up from parallel DOFs (with
closing the family), `FindEQCWithDPs` finds the class of every selected DOF, copies of a DOF on different processes are in classes
with the same identifier, DOFs with different sets of processes in classes with different identifiers, DOFs of one process only in
class 0, and `IsLEQ` is an order. -/
theorem setup_from_dofs (hs : SelOK P maxNd sel) {fuel : ℕ} (hf : 2 ^ P.np + 1 ≤ fuel) {n : ℕ} {s : St LSt (List ℕ)}
    (hr : Reach P.np (setupProg P.np fuel fun p => classesOfDofs P maxNd sel p)
      (initState fuel fun p => classesOfDofs P maxNd sel p) n s)
    (hfin : Final P.np (setupProg P.np fuel fun p => classesOfDofs P maxNd sel p) s) :
    ∃ (T : ℕ → List (List ℕ)) (ids : ℕ → List ℕ), (∀ p < P.np, (s.vec p).fam = some (T p) ∧ (s.vec p).ids = some (ids p)) ∧
      (∀ p < P.np, ∀ d < maxNd p, sel p d = true → ∃ i, findEQC (T p) (P.dps p d) = some i ∧ i < (ids p).length ∧
        (P.dps p d = [] → i = 0)) ∧
      (∀ p < P.np, 0 < P.ndof p → SPW.LeqOK (leqExt (T p))) ∧
      ∀ p < P.np, ∀ q < P.np, ∀ d < maxNd p, ∀ e < maxNd q, sel p d = true → sel q e = true → ∀ i j,
        findEQC (T p) (P.dps p d) = some i → findEQC (T q) (P.dps q e) = some j →
        ((ids p)[i]? = (ids q)[j]? ↔ ∀ x < P.np, (P.shares x (P.glob p d) = true ↔ P.shares x (P.glob q e) = true)) := by
  obtain ⟨-, -, h⟩ := setup_closed (fun p hp => (classes_eq hs hp).1) (classes_consistent hs) hf hr
  obtain ⟨T, hcl, hcons, hg⟩ := h hfin
  obtain ⟨ids, hids, hiff, -⟩ := hg.ids
  have hmem : ∀ p < P.np, ∀ d < maxNd p, sel p d = true → P.dps p d ∈ T p := by
    intro p hp d hd hsd
    apply (hcl p hp).given
    rw [(classes_eq hs hp).2]
    by_cases he : P.dps p d = []
    · left; exact ⟨he, by have := hs.le p hp; omega⟩
    · right; exact ⟨he, d, hd, hsd, rfl⟩
  have hsorted := hg.sorted
  refine ⟨T, ids, fun p hp => ⟨hg.fam p hp, (hids p hp).1⟩, ?_, ?_, ?_⟩
  · intro p hp d hd hsd
    obtain ⟨i, hi, hid⟩ := List.mem_iff_getElem.mp (hmem p hp d hd hsd)
    have hi' : (T p)[i]? = some (P.dps p d) := by rw [List.getElem?_eq_getElem hi, hid]
    refine ⟨i, (findEQC_iff (hcl p hp).ok _ _).mpr hi', by rw [(hids p hp).2]; exact hi, ?_⟩
    intro he
    have h0 := local_first (hsorted p hp) (he ▸ hmem p hp d hd hsd)
    rw [he] at hi'
    obtain ⟨a1, a2⟩ := List.getElem?_eq_some_iff.mp h0
    obtain ⟨b1, b2⟩ := List.getElem?_eq_some_iff.mp hi'
    exact ((hcl p hp).ok.1.getElem_inj_iff (hi := b1) (hj := a1)).mp (b2.trans a2.symm)
  · intro p hp hn
    refine leqOK_of_table (hcl p hp).ok (local_first (hsorted p hp) ?_)
    exact (hcl p hp).given _ (((classes_eq hs hp).2 _).mpr (Or.inl ⟨rfl, hn⟩))
  · intro p hp q hq d hd e he hsd hse i j hi hj
    have hi' := (findEQC_iff (hcl p hp).ok _ _).mp hi
    have hj' := (findEQC_iff (hcl q hq).ok _ _).mp hj
    have hil : i < (ids p).length := by rw [(hids p hp).2]; exact (List.getElem?_eq_some_iff.mp hi').1
    have hjl : j < (ids q).length := by rw [(hids q hq).2]; exact (List.getElem?_eq_some_iff.mp hj').1
    rw [List.getElem?_eq_getElem hil, List.getElem?_eq_getElem hjl, Option.some.injEq,
      hiff p hp q hq i j _ _ _ _ (List.getElem?_eq_getElem hil) (List.getElem?_eq_getElem hjl) hi' hj', Finset.ext_iff]
    have hdn : d < P.ndof p := lt_of_lt_of_le hd (hs.le p hp)
    have hen : e < P.ndof q := lt_of_lt_of_le he (hs.le q hq)
    constructor
    · intro h x hx
      have := h x
      rw [members_dps hp hdn, members_dps hq hen] at this
      simpa [hx] using this
    · intro h x
      rw [members_dps hp hdn, members_dps hq hen]
      constructor
      · rintro ⟨a, b⟩; exact ⟨a, (h x a).mp b⟩
      · rintro ⟨a, b⟩; exact ⟨a, (h x a).mpr b⟩

end

end NgsAMG.EQC
