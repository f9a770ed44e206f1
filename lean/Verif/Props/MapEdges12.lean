import Verif.Props.MapEdges11

/-!
# C72, C76: the edges that `SetNodes<NT_EDGE>` makes are a distributed set of edges: the hypothesis of C76
-/

namespace NgsAMG.CMap

open NgsAMG.EQC NgsAMG.RedTab NgsAMG.Exch NgsAMG.BTM

/-- the edges without the vertices' numbers in the given order -/
def toF (E : Edges) : FEdges := ⟨E.dE, E.dC, E.nodes.filterMap id⟩

theorem emesh_of_built {np : ℕ} {C : ℕ → Ctx} (hM : Mesh np C) {edges : ℕ → List (ℕ × ℕ)} (hG : ∀ p < np, Given (C p) (edges p))
    {items : ℕ → List Item} (hI : ∀ p < np, (edges p).mapM (classify (C p)) = some (items p)) (hne : ∀ p < np, (C p).T ≠ [])
    {ex : ℕ → List (List CNode)} {E : ℕ → Edges} (hB : ∀ p < np, Built np C edges items p (ex p) (E p)) :
    EMesh np C (fun p => toF (E p)) fun p t => blk (items p) (ex p) (C p) t := by
  have hlen : ∀ p < np, ∀ t, (blk (items p) (ex p) (C p) t).length = (C p).T.length := fun p hp t => blk_length hM hG hI hp (hne p hp) (hB p hp).rows t
  have hblk : ∀ p < np, ∀ (t : Bool) (k : ℕ) (b : List (ℕ × ℕ)) (d : List ℕ), (blk (items p) (ex p) (C p) t)[k]? = some b → (C p).T[k]? = some d →
      IsBlock np C edges p (members p d) t b := by
    intro p hp t k b d hb hd
    obtain ⟨b', b1, b2⟩ := blocks hM hG hI hp (hB p hp).rows hd t
    rw [hb] at b1; cases b1
    exact b2
  have hcls : ∀ p < np, ∀ (t : Bool) (k : ℕ) (b : List (ℕ × ℕ)), (blk (items p) (ex p) (C p) t)[k]? = some b → ∃ d, (C p).T[k]? = some d := by
    intro p hp t k b hb
    have := (List.getElem?_eq_some_iff.mp hb).1
    rw [hlen p hp] at this
    exact ⟨_, List.getElem?_eq_getElem this⟩
  refine ⟨hlen, fun p hp => (hB p hp).dE, fun p hp => (hB p hp).dC, fun p hp => ?_, ?_, ?_, ?_⟩
  · unfold toF
    dsimp only
    rw [(hB p hp).nodes, List.filterMap_map]
    exact List.filterMap_some
  · intro p hp t k b hb
    obtain ⟨d, hd⟩ := hcls p hp t k b hb
    exact (hblk p hp t k b d hb hd).1
  · intro p hp t k b d hb hd e he
    obtain ⟨g, S, r, S', s, h1, h2, h3⟩ := ((hblk p hp t k b d hb hd).2 e).mp he
    exact ⟨(given_lt hM hG hp g).1, S, r, S', s, h1, h2, h3⟩
  · intro p hp q hq t k l b b' d d' hb hb' hd hd' hm
    by_cases h0 : k = 0
    · subst h0
      rw [hM.loc p hp (hne p hp)] at hd; cases hd
      have hqp : q ∈ members p [] := by rw [hm, mem_members]; exact Or.inl rfl
      have hqp : q = p := by rw [mem_members] at hqp; simpa using hqp
      subst hqp
      have : l = 0 := cls_eq (hM.tabs.ok q hq) hd' (hM.loc q hq (hne q hq)) hm.symm
      subst this
      rw [hb] at hb'; cases hb'
      rw [List.forall₂_same]
      intro e he
      obtain ⟨-, S, r, S', s, h1, -⟩ := ((hblk q hq t 0 b _ hb hd').2 e).mp he
      exact ⟨S, r, S', s, h1, h1⟩
    · obtain ⟨h1, h2⟩ := blk_agree hM hG hp hq (hB p hp).rows (hB q hq).rows hd hd' hm t hb hb' h0
      rw [List.forall₂_iff_get]
      exact ⟨h1, fun n hn hn' => h2 n _ _ (List.getElem?_eq_getElem hn) (List.getElem?_eq_getElem hn')⟩

/-- **C72, C76.** The edges of the mesh after `SetNodes<NT_EDGE>`, for every schedule, meet the hypothesis of C76. -/
theorem setEdges_emesh {np : ℕ} {C : ℕ → Ctx} (hM : Mesh np C) {edges : ℕ → List (ℕ × ℕ)} (hG : ∀ p < np, Given (C p) (edges p))
    {items : ℕ → List Item} (hI : ∀ p < np, (edges p).mapM (classify (C p)) = some (items p)) (hne : ∀ p < np, (C p).T ≠ [])
    {n : ℕ} {s : St (Loc CNode CNode) (Msg CNode CNode)} (hr : DReach np (edgeProg np C items) (fun _ => {}) n s) (hf : DFinal np (edgeProg np C items) s) :
    ∃ (E : ℕ → Edges) (B : ℕ → Bool → List (List (ℕ × ℕ))), (∀ p < np, afterReduce (C p) (items p) (s.vec p).out = some (E p)) ∧ EMesh np C (fun p => toF (E p)) B := by
  have hR := rows_of_tables hM.tabs
  have htab : ∀ p < np, ((fun p => tent (C p).T.length (items p)) p).length = ((fun p => (C p).T) p).length := by
    intro p _; simp [tent]
  unfold edgeProg at hr hf
  obtain ⟨h1, -⟩ := reduceTable_correct hR _ _ htab hr hf
  have key : ∀ p, ∃ (ex : List (List CNode)) (E : Edges), p < np →
      afterReduce (C p) (items p) (s.vec p).out = some E ∧ Built np C edges items p ex E := by
    intro p
    by_cases hp : p < np
    · obtain ⟨ex, E, e1, e2⟩ := built hM hG hI hp (hne p hp) (h1 p hp).2
      exact ⟨ex, E, fun _ => ⟨e1, e2⟩⟩
    · exact ⟨[], ⟨[], [], [], []⟩, fun h => absurd h hp⟩
  choose ex E hE using key
  exact ⟨E, _, fun p hp => (hE p hp).1, emesh_of_built hM hG hI hne fun p hp => (hE p hp).2⟩

/-- the coarse edges of C76 are those of a mesh again: the map can be iterated -/
theorem coarse_again {np : ℕ} {C : ℕ → Ctx} {disps : ℕ → List ℕ} {E : ℕ → FEdges} {vmap : ℕ → List (Option ℕ)} {R : ℕ → CEdges} {F : ℕ → FEdges}
    {B : ℕ → Bool → List (List (ℕ × ℕ))} (h : CoarseEdges np C disps E vmap R F B) : EMesh np (fun p => coarseCtx (C p) (disps p)) F B := h.mesh

end NgsAMG.CMap
