import Verif.Props.MapEdges4

/-!
# C76: `MapEdges`: the merged table
-/

namespace NgsAMG.CMap

open NgsAMG.EQC NgsAMG.RedTab NgsAMG.Exch NgsAMG.BTM

/-- the order of `less_tup` -/
def lkey (c : CNode) : ℕ ×ₗ ℕ ×ₗ ℕ ×ₗ ℕ ×ₗ ℕ :=
  toLex (if c.e0 = c.e1 then 0 else 1, toLex (c.e0, toLex (c.e1, toLex (c.v0, c.v1))))

theorem lessTup_iff (a b : CNode) : lessTup a b = true ↔ lkey a < lkey b := by
  obtain ⟨a0, a1, av, aw⟩ := a
  obtain ⟨b0, b1, bv, bw⟩ := b
  unfold lessTup lkey
  by_cases ha : a0 = a1 <;> by_cases hb : b0 = b1 <;>
    simp only [ha, hb, Prod.Lex.toLex_lt_toLex, beq_self_eq_true, Bool.not_true, Bool.and_false, Bool.and_true, if_true, if_false,
      Bool.false_eq_true, Bool.or_eq_true, decide_eq_true_eq, Bool.and_eq_true, beq_iff_eq, Bool.not_eq_true', beq_eq_false_iff_ne,
      ne_eq, not_false_eq_true, Bool.true_and, lt_self_iff_false, true_and, false_or, and_true, not_true_eq_false, false_and, and_false] <;>
    (try omega)
  all_goals first | omega | (simp; done) | (split_ifs <;> simp <;> omega)

theorem lkey_inj {a b : CNode} (h : lkey a = lkey b) : a = b := by
  obtain ⟨a0, a1, av, aw⟩ := a
  obtain ⟨b0, b1, bv, bw⟩ := b
  unfold lkey at h
  simp only [toLex_inj, Prod.mk.injEq] at h
  obtain ⟨-, rfl, rfl, rfl, rfl⟩ := h
  rfl

theorem tup_strict (l : List CNode) (hn : l.Nodup) : (l.insertionSort fun a b => lessTup b a = false).Pairwise fun a b => lessTup a b = true := by
  have : Std.Total fun a b : CNode => lessTup b a = false := ⟨by
    intro a b
    by_contra h
    push Not at h
    have h1 := (lessTup_iff b a).mp (by simpa using h.1)
    have h2 := (lessTup_iff a b).mp (by simpa using h.2)
    exact absurd h1 h2.asymm⟩
  have : IsTrans CNode fun a b : CNode => lessTup b a = false := ⟨by
    intro a b c h1 h2
    have e1 : ¬ lkey b < lkey a := fun h => by rw [(lessTup_iff b a).mpr h] at h1; cases h1
    have e2 : ¬ lkey c < lkey b := fun h => by rw [(lessTup_iff c b).mpr h] at h2; cases h2
    rw [← Bool.not_eq_true, lessTup_iff, not_lt]
    exact (not_lt.mp e1).trans (not_lt.mp e2)⟩
  have hp := List.perm_insertionSort (fun a b : CNode => lessTup b a = false) l
  have h1 := List.pairwise_insertionSort (fun a b : CNode => lessTup b a = false) l
  have h2 := (hp.nodup_iff.mpr hn)
  refine (h1.and h2).imp_of_mem ?_
  intro a b ha hb hab
  rw [lessTup_iff]
  have e1 : ¬ lkey b < lkey a := fun h => by rw [(lessTup_iff b a).mpr h] at hab; simp at hab
  refine lt_of_le_of_ne (not_lt.mp e1) ?_
  intro h
  exact hab.2 (lkey_inj h)

theorem tup_ext {a b : List CNode} (ha : a.Pairwise fun x y => lessTup x y = true) (hb : b.Pairwise fun x y => lessTup x y = true)
    (h : ∀ c, c ∈ a ↔ c ∈ b) : a = b := by
  have hirr : ∀ {x y : CNode}, lessTup x y = true → x ≠ y := by
    rintro x y h rfl
    exact absurd ((lessTup_iff x x).mp h) (lt_irrefl _)
  have hp : a.Perm b := (List.perm_ext_iff_of_nodup (ha.imp hirr) (hb.imp hirr)).mpr h
  refine hp.eq_of_pairwise (fun x y _ _ h1 h2 => ?_) ha hb
  exact absurd ((lessTup_iff x y).mp h1) ((lessTup_iff y x).mp h2).asymm

theorem tup_nodup {a : List CNode} (ha : a.Pairwise fun x y => lessTup x y = true) : a.Nodup := ha.imp fun {x y} h => by
  rintro rfl
  exact absurd ((lessTup_iff x x).mp h) (lt_irrefl _)

/-- the entries within the class are first -/
theorem tup_first {a : List CNode} (ha : a.Pairwise fun x y => lessTup x y = true) : a.Pairwise fun s t => t.isIn = true → s.isIn = true := by
  refine ha.imp ?_
  intro s t h ht
  unfold CNode.isIn at *
  by_contra hs
  unfold lessTup at h
  rw [Bool.not_eq_true] at hs
  rw [hs, ht] at h
  simp at h

/-- the merged rows: the union of the rows of all processes of the class -/
theorem merged_rows {np : ℕ} {C : ℕ → Ctx} (hM : Mesh np C) {tab : ℕ → List (List CNode)} (hlen : ∀ p < np, (tab p).length = (C p).T.length)
    (hs : ∀ p < np, ∀ row ∈ tab p, row.Pairwise fun a b => lessTup a b = true) {p : ℕ} (hp : p < np) {out : List (Option (List CNode))}
    (hout : Reduced np (fun p => (C p).T) (fun p k => members p ((C p).T.getD k [])) tab (fun _ _ ins => (mergeBy lessTup ins).getD []) p out) :
    ∃ rows, out.mapM id = some rows ∧ rows.length = (C p).T.length ∧ ∀ (k : ℕ) (d : List ℕ), (C p).T[k]? = some d →
      ∃ row, rows[k]? = some row ∧ (row.Pairwise fun a b => lessTup a b = true) ∧ ∀ c, c ∈ row ↔
        ∃ q < np, ∃ (l : ℕ) (e : List ℕ) (row' : List CNode), (C q).T[l]? = some e ∧ members q e = members p d ∧ (tab q)[l]? = some row' ∧ c ∈ row' := by
  obtain ⟨hl, hrows⟩ := hout
  have hrow : ∀ (k : ℕ) (d : List ℕ), (C p).T[k]? = some d → ∃ row, out[k]? = some (some row) ∧ (row.Pairwise fun a b => lessTup a b = true) ∧
      ∀ c, c ∈ row ↔ ∃ q < np, ∃ (l : ℕ) (e : List ℕ) (row' : List CNode), (C q).T[l]? = some e ∧ members q e = members p d ∧ (tab q)[l]? = some row' ∧ c ∈ row' := by
    intro k d hk
    obtain ⟨m, l, ins, h1, h2, h3, h4, h5, h6⟩ := hrows k d hk
    refine ⟨_, h6, ?_⟩
    have hmem : ∀ r ∈ (p :: d).insertionSort (· ≤ ·), r = p ∨ r ∈ d := fun r hr => by
      rw [List.mem_insertionSort, List.mem_cons] at hr; exact hr
    have hkey : (fun p k => members p ((C p).T.getD k [])) p k = members p d := by
      show members p ((C p).T.getD k []) = _
      rw [List.getD_eq_getElem?_getD, hk]; rfl
    rw [hkey] at h5
    have hval := (hM.tabs.ok p hp).2 d (List.mem_of_getElem? hk)
    have hrn : ∀ r ∈ (p :: d).insertionSort (· ≤ ·), r < np := by
      intro r hr
      rcases hmem r hr with h | h
      · rw [h]; exact hp
      · exact hval.range r h
    have hcls : ∀ r, r < np → ∀ (j : ℕ) (row : List CNode), members r ((C r).T.getD j []) = members p d → (tab r)[j]? = some row →
        ∃ e, (C r).T[j]? = some e ∧ members r e = members p d := by
      intro r hr j row hj1 hj2
      have hjl : j < (C r).T.length := by rw [← hlen r hr]; exact (List.getElem?_eq_some_iff.mp hj2).1
      refine ⟨_, List.getElem?_eq_getElem hjl, ?_⟩
      rw [← hj1, List.getD_eq_getElem?_getD, List.getElem?_eq_getElem hjl]; rfl
    have hin : ∀ row ∈ ins, ∃ r ∈ (p :: d).insertionSort (· ≤ ·), ∃ j : ℕ, members r ((C r).T.getD j []) = members p d ∧ (tab r)[j]? = some row := by
      intro row hrow
      obtain ⟨i, hi, rfl⟩ := List.mem_iff_getElem.mp hrow
      have hi' : i < ((p :: d).insertionSort (· ≤ ·)).length := by rw [h5.length_eq]; exact hi
      obtain ⟨j, hj⟩ := List.Forall₂.get h5 hi' hi
      exact ⟨_, List.getElem_mem hi', j, hj⟩
    obtain ⟨o, o1, o2, o3⟩ := mergeBy_correct lessTup lkey (fun _ => True) (fun a b _ _ => lessTup_iff a b) (fun a b _ _ => lkey_inj) ins (fun _ _ _ _ => trivial)
      (fun row hr => by
        obtain ⟨r, hr, j, -, hj⟩ := hin row hr
        exact hs r (hrn r hr) row (List.mem_of_getElem? hj))
    show List.Pairwise (fun a b => lessTup a b = true) ((mergeBy lessTup ins).getD []) ∧ ∀ c, c ∈ (mergeBy lessTup ins).getD [] ↔ _
    rw [o1, Option.getD_some]
    refine ⟨o2, fun c => ?_⟩
    rw [o3]
    constructor
    · rintro ⟨row, hr, hc⟩
      obtain ⟨r, hr, j, hj1, hj2⟩ := hin row hr
      obtain ⟨e, e1, e2⟩ := hcls r (hrn r hr) j row hj1 hj2
      exact ⟨r, hrn r hr, j, e, row, e1, e2, hj2, hc⟩
    · rintro ⟨q, hq, l, e, row', e1, e2, e3, hc⟩
      have hqm : q ∈ members p d := by rw [← e2]; exact mem_members.mpr (Or.inl rfl)
      have hqi : q ∈ (p :: d).insertionSort (· ≤ ·) := by
        rw [List.mem_insertionSort, List.mem_cons]; exact mem_members.mp hqm
      obtain ⟨i, hi, hiq⟩ := List.mem_iff_getElem.mp hqi
      have hi' : i < ins.length := by rw [← h5.length_eq]; exact hi
      obtain ⟨j, hj1, hj2⟩ := List.Forall₂.get h5 hi hi'
      rw [List.get_eq_getElem, hiq] at hj1 hj2
      obtain ⟨e', f1, f2⟩ := hcls q hq j _ hj1 hj2
      have := cls_eq (hM.tabs.ok q hq) f1 e1 (f2.trans e2.symm)
      subst this
      refine ⟨ins[i], List.getElem_mem hi', ?_⟩
      have hj2 : (tab q)[j]? = some ins[i] := hj2
      rw [e3] at hj2
      cases hj2
      exact hc
  choose f hf using hrow
  have hex : ∃ ex : List (List CNode), out = ex.map some := by
    refine ⟨out.map fun o => o.getD [], ?_⟩
    rw [List.map_map]
    symm
    conv_rhs => rw [← List.map_id out]
    apply List.map_congr_left
    intro o ho
    obtain ⟨k, hk⟩ := List.mem_iff_getElem?.mp ho
    have hkl : k < (C p).T.length := by
      have := (List.getElem?_eq_some_iff.mp hk).1
      rwa [hl] at this
    have := (hf k _ (List.getElem?_eq_getElem hkl)).1
    rw [hk] at this
    cases this
    rfl
  obtain ⟨ex, rfl⟩ := hex
  have hmap : ∀ l : List (List CNode), (l.map some).mapM id = some l := by
    intro l
    induction l with
    | nil => rfl
    | cons a l ih => rw [List.map_cons, List.mapM_cons, ih]; rfl
  refine ⟨ex, hmap ex, by simpa using hl, fun k d hk => ?_⟩
  obtain ⟨a, b⟩ := hf k d hk
  refine ⟨f k d hk, ?_, b⟩
  rw [List.getElem?_map] at a
  rcases h : ex[k]? with _ | x
  · rw [h] at a; simp at a
  · rw [h] at a
    simp only [Option.map_some, Option.some.injEq] at a
    rw [a]

end NgsAMG.CMap
