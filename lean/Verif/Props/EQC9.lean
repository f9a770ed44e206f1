import Verif.Props.EQC8

/-!
# Properties of the equivalence-class hierarchy, part 9: concrete cases, counterexamples, number of classes
-/

namespace NgsAMG.EQC

open NgsAMG.Exch NgsAMG.DCC

/-! ### a concrete case: three processes in a ring with a common corner (`exPD`) -/

/-- all DOFs are selected -/
theorem exSel : SelOK exPD exPD.ndof fun _ _ => true where
  le := fun _ _ => le_refl _
  same := fun p _ q _ d hd e he _ => by simp [hd, he]

/-- `setup_from_dofs`: the hypotheses hold and there is a final state -/
example : ∃ n s, Reach exPD.np (setupProg exPD.np 9 fun p => classesOfDofs exPD exPD.ndof (fun _ _ => true) p)
      (initState 9 fun p => classesOfDofs exPD exPD.ndof (fun _ _ => true) p) n s ∧
    Final exPD.np (setupProg exPD.np 9 fun p => classesOfDofs exPD exPD.ndof (fun _ _ => true) p) s :=
  exists_final (setup_matched (fun _ hp => (classes_eq exSel hp).1) (classes_consistent exSel) (by decide)) _

/-- the classes found -/
example : closedTable 9 (classesOfDofs exPD exPD.ndof fun _ _ => true) 1 = some [[], [0], [2], [0, 2]] := by decide +kernel

/-! ### a concrete case with new classes: six processes, the classes `{0,1,2,3}`, `{0,1,4}`, `{0,2,5}` and the own ones -/

def exV : ℕ → List (List ℕ)
  | 0 => [[], [1, 2, 3], [1, 4], [2, 5]]
  | 1 => [[], [0, 2, 3], [0, 4]]
  | 2 => [[], [0, 1, 3], [0, 5]]
  | 3 => [[], [0, 1, 2]]
  | 4 => [[], [0, 1]]
  | 5 => [[], [0, 2]]
  | _ => []

theorem exV_ok : ∀ p < 6, FamOK 6 p (exV p) := by
  have h : ∀ p < 6, (exV p).Nodup ∧ ∀ d ∈ exV p, d.Pairwise (· < ·) ∧ (∀ q ∈ d, q < 6) ∧ p ∉ d := by decide
  intro p hp
  obtain ⟨h1, h2⟩ := h p hp
  exact ⟨h1, fun d hd => ⟨(h2 d hd).1, (h2 d hd).2.1, (h2 d hd).2.2⟩⟩

theorem exV_cons : Consistent 6 exV := by
  unfold Consistent
  decide

/-- the table of process 0: the intersections `{0,1}` and `{0,2}` are added -/
theorem exV_table : closedTable 65 exV 0 = some [[], [1], [2], [1, 4], [2, 5], [1, 2, 3]] := by decide +kernel

/-- `setup_closed`, `setup_plain`: the hypotheses hold and there is a final state -/
example : ∃ n s, Reach 6 (setupProg 6 65 exV) (initState 65 exV) n s ∧ Final 6 (setupProg 6 65 exV) s :=
  exists_final (setup_matched exV_ok exV_cons (by decide)) _

example : ∃ n s, Reach 6 (plainProg 6 exV) (fun p => ⟨some (sortEqcs (exV p)), fun _ => 0, none⟩) n s ∧ Final 6 (plainProg 6 exV) s :=
  exists_final (id_matched (tables_plain exV_ok exV_cons)) _

/-- the identifiers that processes 0, 1 and 4 find for the class `{0,1,4}` -/
example : ∀ s n, Reach 6 (setupProg 6 65 exV) (initState 65 exV) n s → Final 6 (setupProg 6 65 exV) s →
    ∃ ids : ℕ → List ℕ, (∀ p < 6, (s.vec p).ids = some (ids p)) := by
  intro s n hr hf
  obtain ⟨T, -, -, hg⟩ := (setup_closed exV_ok exV_cons (by decide) hr).2.2 hf
  obtain ⟨ids, h, -⟩ := hg.ids
  exact ⟨ids, fun p hp => (h p hp).1⟩

/-- **Not all unions.** "If `do_cutunion`, also constructs all possible cuts/unions" (eqchierarchy.hpp:29) does not hold for unions: the
unions are formed before the intersections. In the example, process 0 ends up with the classes `{0,1}`, `{0,2}` and `{0,1,2,3}`,
but their union `{0,1,2}` is not a class: `IsMergeValid` is false. -/
theorem unions_not_closed : ∃ (V : ℕ → List (List ℕ)) (T : List (List ℕ)), (∀ p < 6, FamOK 6 p (V p)) ∧ Consistent 6 V ∧
    closedTable 65 V 0 = some T ∧ ∃ (i j k : ℕ) (d e f : List ℕ), T[i]? = some d ∧ T[j]? = some e ∧ T[k]? = some f ∧
      members 0 d ∪ members 0 e ⊆ members 0 f ∧ mergedEQC T i j = none :=
  ⟨exV, _, exV_ok, exV_cons, exV_table, 1, 2, 5, [1], [2], [1, 2, 3], by decide, by decide, by decide, by decide, by decide +kernel⟩

/-- queries on this table: `{0,1,4}` and `{0,1,2,3}` have `{0,1}` in common; `{0,1}` is below `{0,1,4}` -/
example : commonEQC [[], [1], [2], [1, 4], [2, 5], [1, 2, 3]] 3 5 = some 1 ∧
    isLEQ [[], [1], [2], [1, 4], [2, 5], [1, 2, 3]] 1 3 = true ∧ isLEQ [[], [1], [2], [1, 4], [2, 5], [1, 2, 3]] 3 1 = false ∧
    mergedEQC [[], [1], [2], [1, 4], [2, 5], [1, 2, 3]] 0 4 = some 4 ∧
    findEQC [[], [1], [2], [1, 4], [2, 5], [1, 2, 3]] [2, 5] = some 4 := by decide +kernel

/-- **Without `do_cutunion`, `GetCommonEQC` can be `-1`** (the hierarchy of a contracted mesh is set up this way, and the number is used
as an index there, grid_contract.cpp:555, 1052). -/
theorem plain_common_missing : ∃ (V : ℕ → List (List ℕ)), (∀ p < 6, FamOK 6 p (V p)) ∧ Consistent 6 V ∧
    ∃ i < (sortEqcs (V 0)).length, ∃ j < (sortEqcs (V 0)).length, commonEQC (sortEqcs (V 0)) i j = none :=
  ⟨exV, exV_ok, exV_cons, 1, by decide +kernel, 3, by decide +kernel, by decide +kernel⟩

/-! ### the global number of classes -/

/-- `neqcs_glob` counts the shared classes of which this process is the master twice -/
theorem neqcsGlob_eq {np p : ℕ} {T : ℕ → List (List ℕ)} (nb : ℕ → ℕ) (hnb : ∀ q < np, nb q = nblocksLoc q (T q)) (hp : p < np) :
    neqcsGlob np p nb (T p) = np + ((List.range np).map fun q => nblocksLoc q (T q)).sum + nblocksLoc p (T p) := by
  unfold neqcsGlob
  rw [idTableSize_eq _ _ hp]
  have : ((List.range np).map nb) = (List.range np).map fun q => nblocksLoc q (T q) :=
    List.map_congr_left fun q hq => hnb q (List.mem_range.mp hq)
  rw [this]
  omega

/-- the number of shared classes (of at least two processes) is the sum of the numbers of the masters -/
theorem shared_count {np : ℕ} {T : ℕ → List (List ℕ)} (hT : Tables np T) (U : Finset (Finset ℕ))
    (hU : ∀ S, S ∈ U ↔ 1 < S.card ∧ ∃ p < np, Has p (T p) S) :
    U.card = ((List.range np).map fun q => nblocksLoc q (T q)).sum := by
  have hdis : ∀ a ∈ Finset.range np, ∀ b ∈ Finset.range np, a ≠ b →
      Disjoint (masterSets T a).toFinset (masterSets T b).toFinset := by
    intro a ha b hb hab
    rw [Finset.disjoint_left]
    intro S h1 h2
    rw [List.mem_toFinset] at h1 h2
    have e1 := ((mem_masterSets hT (Finset.mem_range.mp ha) S).mp h1).2.2
    have e2 := ((mem_masterSets hT (Finset.mem_range.mp hb) S).mp h2).2.2
    exact hab (e1.symm.trans e2)
  have hUeq : U = (Finset.range np).biUnion fun p => (masterSets T p).toFinset := by
    ext S
    rw [hU, Finset.mem_biUnion]
    constructor
    · rintro ⟨hc, p, hp, hS⟩
      obtain ⟨h1, -, h3⟩ := gid_range hT hp hS
      exact ⟨least S, Finset.mem_range.mpr h1, List.mem_toFinset.mpr (h3 (by omega)).1⟩
    · rintro ⟨p, hp, hS⟩
      rw [List.mem_toFinset, mem_masterSets hT (Finset.mem_range.mp hp)] at hS
      exact ⟨hS.2.1, p, Finset.mem_range.mp hp, hS.1⟩
  rw [hUeq, Finset.card_biUnion hdis]
  have : ∀ n, n ≤ np → ∑ u ∈ Finset.range n, (masterSets T u).toFinset.card = ((List.range n).map fun q => nblocksLoc q (T q)).sum := by
    intro n hn
    induction n with
    | zero => rfl
    | succ n ih =>
      rw [Finset.sum_range_succ, ih (by omega), List.range_succ, List.map_append, List.sum_append,
        List.toFinset_card_of_nodup (masterSets_nodup hT (by omega)), ← nblocksLoc_eq]
      simp
  exact this np le_rfl

/-- **The global number of classes is wrong**: three processes, one class of their own each and one shared class; process 0 counts 5. -/
theorem neqcsGlob_wrong : ∃ T : ℕ → List (List ℕ), Tables 3 T ∧
    neqcsGlob 3 0 (fun q => nblocksLoc q (T q)) (T 0) = 5 ∧ neqcsGlob 3 1 (fun q => nblocksLoc q (T q)) (T 1) = 4 := by
  refine ⟨fun p => [[], (List.range 3).filter (· ≠ p)], ⟨?_, by decide, ?_⟩, by decide +kernel, by decide +kernel⟩
  · have h : ∀ p < 3, ([[], (List.range 3).filter (· ≠ p)] : List (List ℕ)).Nodup ∧
        ∀ d ∈ ([[], (List.range 3).filter (· ≠ p)] : List (List ℕ)), d.Pairwise (· < ·) ∧ (∀ q ∈ d, q < 3) ∧ p ∉ d := by decide
    intro p hp
    obtain ⟨h1, h2⟩ := h p hp
    exact ⟨h1, fun d hd => ⟨(h2 d hd).1, (h2 d hd).2.1, (h2 d hd).2.2⟩⟩
  · unfold Consistent; decide

/-! ### the constructor from members -/

/-- only process 0 knows the class `{0,1,2}` at the beginning -/
def exA : ℕ → List (List ℕ)
  | 0 => [[1, 2], [1]]
  | _ => [[]]

theorem exA_ok : MemOK 3 (fun p => (List.range 3).filter (· ≠ p)) exA := by
  refine ⟨?_, by decide, by decide, by decide⟩
  have h : ∀ p < 3, ∀ d ∈ exA p, d.Pairwise (· < ·) ∧ (∀ q ∈ d, q < 3) ∧ p ∉ d := by decide
  intro p hp d hd
  exact ⟨(h p hp d hd).1, (h p hp d hd).2.1, (h p hp d hd).2.2⟩

example : memTable (fun p => (List.range 3).filter (· ≠ p)) exA 2 = some [[], [0, 1]] ∧
    memTable (fun p => (List.range 3).filter (· ≠ p)) exA 1 = some [[], [0], [0, 2]] := by decide +kernel

/-! ### the constructor from the nodes of a mesh -/

theorem nodes_search (nn : ℕ) (dp : ℕ → List ℕ) (c : List ℕ) (l : List ℕ) (hl : ∀ x ∈ l, x < nn) (b : Bool) :
    l.foldlM (fun (found : Bool) x => if found then some true else if x < nn then some (decide (dp x = c)) else none) b =
      some (b || l.any fun x => decide (dp x = c)) := by
  induction l generalizing b with
  | nil => cases b <;> rfl
  | cons x l ih =>
    rw [List.foldlM_cons]
    cases b with
    | true =>
      have := ih (fun y hy => hl y (by simp [hy])) true
      simpa using this
    | false =>
      have := ih (fun y hy => hl y (by simp [hy])) (decide (dp x = c))
      rw [if_neg (by simp), if_pos (hl x (by simp))]
      simpa using this

/-- with one node type, the classes of all nodes are found, each once -/
theorem classesOfNodes_one (nn : ℕ → ℕ) (dp : ℕ → ℕ → List ℕ) (nt : ℕ) :
    ∃ F, classesOfNodes nn dp [nt] = some F ∧ F.Nodup ∧ ∀ c, c ∈ F ↔ (c = [] ∧ 0 < nn nt) ∨ (c ≠ [] ∧ ∃ k < nn nt, dp nt k = c) := by
  by_cases h0 : 0 < nn nt
  · have key : ∀ n ≤ nn nt, ∃ I : List ℕ, (∀ x ∈ I, x < nn nt) ∧
        (List.range n).foldlM (fun (s : List (List ℕ) × List ℕ) k =>
          if dp nt k = [] then some s
          else
            ((s.2.drop 1).foldlM (fun (found : Bool) l =>
              if found then some true else if l < nn nt then some (decide (dp nt l = dp nt k)) else none) false).map
                fun (found : Bool) => if found then s else (s.1 ++ [dp nt k], s.2 ++ [k])) ([[]], [0]) =
          some ([] :: I.map (dp nt), 0 :: I) ∧ ([] :: I.map (dp nt)).Nodup ∧
        ∀ c, c ∈ I.map (dp nt) ↔ c ≠ [] ∧ ∃ k < n, dp nt k = c := by
      intro n hn
      induction n with
      | zero => exact ⟨[], by simp, rfl, by simp, by simp⟩
      | succ n ih =>
        obtain ⟨I, h1, h2, h3, h4⟩ := ih (by omega)
        rw [List.range_succ, List.foldlM_append, h2]
        simp only [List.foldlM_cons, List.foldlM_nil, Option.bind_eq_bind, Option.bind_some, List.drop_succ_cons, List.drop_zero]
        rw [nodes_search (nn nt) (dp nt) (dp nt n) I h1]
        have hold : ∀ c, c ≠ [] → ((∃ k < n + 1, dp nt k = c) ↔ (∃ k < n, dp nt k = c) ∨ dp nt n = c) := by
          intro c _
          constructor
          · rintro ⟨k, hk, h⟩
            by_cases hkn : k = n
            · right; rw [← hkn]; exact h
            · left; exact ⟨k, by omega, h⟩
          · rintro (⟨k, hk, h⟩ | h)
            · exact ⟨k, by omega, h⟩
            · exact ⟨n, by omega, h⟩
        by_cases he : dp nt n = []
        · refine ⟨I, h1, by rw [if_pos he]; rfl, h3, fun c => ?_⟩
          rw [h4]
          refine and_congr_right fun hc => ?_
          rw [hold c hc]
          exact ⟨Or.inl, fun h => h.resolve_right fun h' => hc (h'.symm.trans he)⟩
        · rw [if_neg he]
          by_cases hf : (I.any fun x => decide (dp nt x = dp nt n)) = true
          · refine ⟨I, h1, by simp [hf], h3, fun c => ?_⟩
            rw [h4]
            refine and_congr_right fun hc => ?_
            rw [hold c hc]
            refine ⟨Or.inl, fun h => h.elim id fun h' => ?_⟩
            simp only [List.any_eq_true, decide_eq_true_eq] at hf
            obtain ⟨x, hx, hxe⟩ := hf
            exact ((h4 c).mp (List.mem_map.mpr ⟨x, hx, hxe.trans h'⟩)).2
          · refine ⟨I ++ [n], ?_, by simp [hf], ?_, fun c => ?_⟩
            · intro x hx
              rcases List.mem_append.mp hx with hx | hx
              · exact h1 x hx
              · rw [List.mem_singleton] at hx; omega
            · rw [List.map_append, ← List.cons_append, List.nodup_append]
              refine ⟨h3, by simp, ?_⟩
              intro a ha b hb
              simp only [List.map_cons, List.map_nil, List.mem_singleton] at hb
              subst hb
              rcases List.mem_cons.mp ha with rfl | ha
              · exact fun h => he h.symm
              · rintro rfl
                obtain ⟨x, hx, hxe⟩ := List.mem_map.mp ha
                exact hf (by rw [List.any_eq_true]; exact ⟨x, hx, by simpa using hxe⟩)
            · rw [List.map_append, List.mem_append, h4]
              simp only [List.map_cons, List.map_nil, List.mem_singleton]
              constructor
              · rintro (⟨hc, h⟩ | rfl)
                · exact ⟨hc, (hold c hc).mpr (Or.inl h)⟩
                · exact ⟨he, (hold _ he).mpr (Or.inr rfl)⟩
              · rintro ⟨hc, h⟩
                rcases (hold c hc).mp h with h | h
                · exact Or.inl ⟨hc, h⟩
                · exact Or.inr h.symm
    obtain ⟨I, h1, h2, h3, h4⟩ := key (nn nt) le_rfl
    refine ⟨[] :: I.map (dp nt), ?_, h3, fun c => ?_⟩
    · unfold classesOfNodes
      simp only [List.any_cons, List.any_nil, Bool.or_false, decide_eq_true_eq]
      rw [if_pos h0, List.foldlM_cons, h2]
      rfl
    · rw [List.mem_cons, h4]
      simp [h0]
  · have h0' : nn nt = 0 := by omega
    refine ⟨[], ?_, List.nodup_nil, by simp [h0']⟩
    unfold classesOfNodes
    simp [h0']

/-- **With several node types classes are missed**: vertex 0 is shared with process 1, edge 0 with process 2; for edge 0, the
class of block 1 is computed as the class of *edge* 0 — so the class of edge 0 is thought to be there already. -/
theorem classesOfNodes_missed : ∃ (nn : ℕ → ℕ) (dp : ℕ → ℕ → List ℕ) (F : List (List ℕ)),
    classesOfNodes nn dp [0, 1] = some F ∧ ∃ nt ∈ [0, 1], ∃ k < nn nt, dp nt k ≠ [] ∧ dp nt k ∉ F :=
  ⟨fun _ => 1, fun nt _ => [nt + 1], [[], [1]], by decide +kernel, 1, by decide, 0, by decide, by decide, by decide⟩

/-- ... classes occur twice ... -/
theorem classesOfNodes_twice : ∃ (nn : ℕ → ℕ) (dp : ℕ → ℕ → List ℕ) (F : List (List ℕ)),
    classesOfNodes nn dp [0, 1] = some F ∧ ¬ F.Nodup :=
  ⟨fun _ => 2, fun nt k => if nt = 0 then (if k = 0 then [1] else []) else (if k = 0 then [] else [1]), [[], [1], [1]],
    by decide +kernel, by decide⟩

/-- ... and nodes are accessed that do not exist -/
theorem classesOfNodes_out_of_range : ∃ (nn : ℕ → ℕ) (dp : ℕ → ℕ → List ℕ), classesOfNodes nn dp [0, 1] = none :=
  ⟨fun nt => if nt = 0 then 2 else 1, fun nt k => if nt = 1 then [2] else if k = 0 then [] else [1], by decide +kernel⟩

end NgsAMG.EQC
