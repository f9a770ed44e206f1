import Verif.Props.BTM8

/-! C72: the edges on all processes. -/

namespace NgsAMG.BTM

open NgsAMG.EQC NgsAMG.RedTab NgsAMG.Exch

section
variable {np : ℕ} {C : ℕ → Ctx} (hM : Mesh np C) {edges : ℕ → List (ℕ × ℕ)} (hG : ∀ p < np, Given (C p) (edges p))
  {items : ℕ → List Item} (hI : ∀ p < np, (edges p).mapM (classify (C p)) = some (items p))

include hM hG in
/-- the rows of a class are the same on all its processes -/
theorem rows_agree {p q k l : ℕ} {d d' : List ℕ} (hp : p < np) (hq : q < np) {ex ex' : List (List CNode)} (hx : ExRows np C edges p ex)
    (hx' : ExRows np C edges q ex') (hk : (C p).T[k]? = some d) (hl : (C q).T[l]? = some d') (hm : members p d = members q d') (h0 : k ≠ 0) :
    ∃ row, ex[k]? = some row ∧ ex'[l]? = some row ∧ ∀ c ∈ row, SharedName np C edges (members p d) c := by
  obtain ⟨row, r1, r2, r3⟩ := hx.rows k d hk h0
  obtain ⟨row', s1, s2, s3⟩ := hx'.rows l d' hl (fun h => h0 ((cls_pos hM hp hq hk hl hm).mpr h))
  have : row = row' := row_ext r2 s2 fun c => by rw [r3, s3, hm]
  subst this
  exact ⟨row, r1, s1, fun c hc => (r3 c).mp hc⟩

include hM hG in
/-- the names in the block of a class are the same on all its processes -/
theorem blk_agree {p q k l : ℕ} {d d' : List ℕ} (hp : p < np) (hq : q < np) {ex ex' : List (List CNode)} (hx : ExRows np C edges p ex)
    (hx' : ExRows np C edges q ex') (hk : (C p).T[k]? = some d) (hl : (C q).T[l]? = some d') (hm : members p d = members q d') (t : Bool)
    {b b' : List (ℕ × ℕ)} (hb : (blk (items p) ex (C p) t)[k]? = some b) (hb' : (blk (items q) ex' (C q) t)[l]? = some b') (h0 : k ≠ 0) :
    b.length = b'.length ∧ ∀ (j : ℕ) (e f : ℕ × ℕ), b[j]? = some e → b'[j]? = some f → ∃ S r S' s, IsEdge p (C p) e S r S' s ∧ IsEdge q (C q) f S r S' s := by
  obtain ⟨row, r1, r2, r3⟩ := rows_agree hM hG hp hq hx hx' hk hl hm h0
  have h0' : l ≠ 0 := fun h => h0 ((cls_pos hM hp hq hk hl hm).mpr h)
  have key : ∃ l : List CNode, (∀ c ∈ l, c ∈ row) ∧ b = l.map (decode (C p)) ∧ b' = l.map (decode (C q)) := by
    unfold blk at hb hb'
    cases t
    · simp only [Bool.false_eq_true, if_false] at hb hb'
      rw [crB_get r1 h0] at hb; cases hb
      rw [crB_get r2 h0'] at hb'; cases hb'
      exact ⟨rowCr row, fun c hc => List.mem_of_mem_drop hc, rfl, rfl⟩
    · simp only [if_true] at hb hb'
      rw [inB_get r1 h0] at hb; cases hb
      rw [inB_get r2 h0'] at hb'; cases hb'
      exact ⟨rowIn row, fun c hc => List.mem_of_mem_take hc, rfl, rfl⟩
  obtain ⟨cs, c1, rfl, rfl⟩ := key
  refine ⟨by simp, ?_⟩
  intro j e f he hf
  rw [List.getElem?_map] at he hf
  obtain ⟨c, hc, rfl⟩ := Option.map_eq_some_iff.mp he
  rw [hc] at hf
  simp only [Option.map_some, Option.some.injEq] at hf
  subst hf
  have hsh := r3 c (c1 c (List.mem_of_getElem? hc))
  obtain ⟨S, S', g1, g2, g3, -⟩ := shared_edge hM hG hp hsh (mem_members.mpr (Or.inl rfl))
  obtain ⟨U, U', f1, f2, f3, -⟩ := shared_edge hM hG hq hsh (by rw [hm]; exact mem_members.mpr (Or.inl rfl))
  have e1 := (idName_iff hM hp hq g1.1 f1.1 g2.1 f2.1).mp rfl
  have e2 := (idName_iff hM hp hq g1.2 f1.2 g2.2 f2.2).mp rfl
  subst e1 e2
  exact ⟨S, _, S', _, g1, f1⟩

include hM hG hI in
/-- **C72 (copies).** Two edges of two processes are copies of each other (their end points are) exactly if the queries return the same
class, the same number within the class, and they are both within a class or both between classes. -/
theorem edges_agree {p q : ℕ} (hp : p < np) (hq : q < np) (hne : (C p).T ≠ []) (hne' : (C q).T ≠ []) {ex ex' : List (List CNode)}
    {E E' : Edges} (hB : Built np C edges items p ex E) (hB' : Built np C edges items q ex' E') {n m : ℕ} {e f : ℕ × ℕ}
    (hn : E.nodes[n]? = some (some e)) (hm : E'.nodes[m]? = some (some f)) :
    (∃ S r S' s, IsEdge p (C p) e S r S' s ∧ IsEdge q (C q) f S r S' s) ↔
      ∃ (k l a : ℕ) (d d' : List ℕ), eqcOf E.dE E.dC n = some k ∧ eqcOf E'.dE E'.dC m = some l ∧ (C p).T[k]? = some d ∧ (C q).T[l]? = some d' ∧
        members p d = members q d' ∧ toEQC E.dE E.dC n = some a ∧ toEQC E'.dE E'.dC m = some a ∧
        (n < E.dE.getLastD 0 ↔ m < E'.dE.getLastD 0) := by
  obtain ⟨t, k, j, b, d, h1, h2, h3, rfl⟩ := built_index hM hG hI hp hne hB hn
  obtain ⟨t', l, j', b', d', g1, g2, g3, rfl⟩ := built_index hM hG hI hq hne' hB' hm
  have hj := (List.getElem?_eq_some_iff.mp h3).1
  have hj' := (List.getElem?_eq_some_iff.mp g3).1
  obtain ⟨-, q2, q3, q4, -⟩ := built_query hM hG hI hp hne hB h2 hj
  obtain ⟨-, r2, r3, r4, -⟩ := built_query hM hG hI hq hne' hB' g2 hj'
  rw [q2, r2, q3, r3, q4, r4]
  obtain ⟨x, x1, x2, x3⟩ := blocks hM hG hI hp hB.rows h1 t
  rw [h2] at x1; cases x1
  obtain ⟨y, y1, y2, y3⟩ := blocks hM hG hI hq hB'.rows g1 t'
  rw [g2] at y1; cases y1
  have hsame : ∀ {f' : ℕ × ℕ}, members p d = members q d' → t = t' → b'[j]? = some f' →
      ∃ S r S' s, IsEdge p (C p) e S r S' s ∧ IsEdge q (C q) f' S r S' s := by
    intro f' hmm htt hf
    subst htt
    by_cases h0 : k = 0
    · subst h0
      rw [hM.loc p hp hne] at h1; cases h1
      have hqp : q = p := by
        have : q ∈ members p [] := by rw [hmm]; exact mem_members.mpr (Or.inl rfl)
        simpa [members] using this
      subst hqp
      have hl : l = 0 := (cls_pos hM hp hp (hM.loc q hp hne) g1 hmm).mp rfl
      subst hl
      have hbb : b = b' := by
        have e1 : ∀ ex : List (List CNode), (blk (items q) ex (C q) t)[0]? = (blk (items q) ex' (C q) t)[0]? := by
          intro ex; unfold blk; cases t <;> rfl
        rw [e1 ex, g2] at h2
        exact (Option.some.inj h2).symm
      subst hbb
      rw [h3] at hf; cases hf
      obtain ⟨-, S, r, S', s, f1, -⟩ := (x3 e).mp (List.mem_of_getElem? h3)
      exact ⟨S, r, S', s, f1, f1⟩
    · exact (blk_agree hM hG hp hq hB.rows hB'.rows h1 g1 hmm t h2 g2 h0).2 j e f' h3 hf
  constructor
  · rintro ⟨S, r, S', s, f1, f2⟩
    obtain ⟨-, U, r', U', s', u1, u2, u3⟩ := (x3 e).mp (List.mem_of_getElem? h3)
    obtain ⟨-, V, r'', V', s'', v1, v2, v3⟩ := (y3 f).mp (List.mem_of_getElem? g3)
    obtain ⟨a1, -, a3, -⟩ := isEdge_unique hM hp f1 u1
    obtain ⟨b1, -, b3, -⟩ := isEdge_unique hM hq f2 v1
    subst a1 a3 b1 b3
    have hmm : members p d = members q d' := u2.symm.trans v2
    have htt : t = t' := by rw [Bool.eq_iff_iff, u3, v3]
    refine ⟨k, l, j, d, d', rfl, rfl, h1, g1, hmm, rfl, ?_, by rw [htt]⟩
    -- the same position in the block
    have hlen : b.length = b'.length := by
      subst htt
      by_cases h0 : k = 0
      · subst h0
        rw [hM.loc p hp hne] at h1; cases h1
        have hqp : q = p := by
          have : q ∈ members p [] := by rw [hmm]; exact mem_members.mpr (Or.inl rfl)
          simpa [members] using this
        subst hqp
        have hl : l = 0 := (cls_pos hM hp hp (hM.loc q hp hne) g1 hmm).mp rfl
        subst hl
        have e1 : ∀ ex : List (List CNode), (blk (items q) ex (C q) t)[0]? = (blk (items q) ex' (C q) t)[0]? := by
          intro ex; unfold blk; cases t <;> rfl
        rw [e1 ex, g2] at h2
        rw [Option.some.inj h2]
      · exact (blk_agree hM hG hp hq hB.rows hB'.rows h1 g1 hmm t h2 g2 h0).1
    have hjb : j < b'.length := by omega
    obtain ⟨W, w, W', w', i1, i2⟩ := hsame hmm htt (List.getElem?_eq_getElem hjb)
    obtain ⟨c1, c2, c3, c4⟩ := isEdge_unique hM hp f1 i1
    subst c1 c2 c3 c4
    have hf := isEdge_inj hM hq f2 i2
    have : j = j' := by
      rw [← List.Nodup.getElem_inj_iff y2 (hi := hjb) (hj := hj'), ← hf]
      rw [List.getElem?_eq_getElem hj'] at g3
      exact (Option.some.inj g3).symm
    rw [this]
  · rintro ⟨k', l', a, c, c', e1, e2, e3, e4, e5, e6, e7, e8⟩
    cases e1; cases e2; cases e6; cases e7
    rw [h1] at e3; cases e3
    rw [g1] at e4; cases e4
    exact hsame e5 (by rw [Bool.eq_iff_iff]; exact e8) g3

/-! ### the number of edges -/

theorem isMaster_members {np p : ℕ} {d : List ℕ} (hd : Valid np p d) : isMaster p d = true ↔ ∀ r ∈ members p d, p ≤ r := by
  cases d with
  | nil => simp [isMaster, members]
  | cons a l =>
    have h1 := hd.notSelf
    have h2 := List.pairwise_cons.mp hd.sorted
    simp only [isMaster, decide_eq_true_eq, mem_members, List.mem_cons]
    constructor
    · rintro h r (rfl | rfl | hr)
      · exact le_rfl
      · exact h.le
      · have := h2.1 r hr; omega
    · intro h
      have := h a (Or.inr (Or.inl rfl))
      have : p ≠ a := by rintro rfl; exact h1 (by simp)
      omega

theorem flatten_pick {α : Type} (B : List (List α)) (f : ℕ → Bool) :
    ((B.zipIdx.filter fun x => f x.2).map fun x => x.1).flatten.length =
      ((List.range B.length).map fun k => if f k then (B.getD k []).length else 0).sum := by
  have key : ∀ (B : List (List α)) (o : ℕ), (((B.zipIdx o).filter fun x => f x.2).map fun x => x.1).flatten.length =
      ((List.range B.length).map fun k => if f (o + k) then (B.getD k []).length else 0).sum := by
    intro B
    induction B with
    | nil => simp
    | cons b B ih =>
      intro o
      rw [List.zipIdx_cons, List.length_cons, List.range_succ_eq_map, List.map_cons, List.sum_cons, List.map_map]
      have ih' := ih (o + 1)
      have hc : (List.range B.length).map ((fun k => if f (o + k) then ((b :: B).getD k []).length else 0) ∘ Nat.succ) =
          (List.range B.length).map fun k => if f (o + 1 + k) then (B.getD k []).length else 0 := by
        apply List.map_congr_left
        intro k _
        simp only [Function.comp]
        rw [show o + Nat.succ k = o + 1 + k by omega]
        simp
      rw [hc, ← ih']
      by_cases h : f o = true
      · rw [List.filter_cons_of_pos (by simpa using h)]
        simp [h]
      · rw [List.filter_cons_of_neg (by simpa using h)]
        simp [h]
  have := key B 0
  simpa using this

/-- the edges of the classes process `p` is the master of -/
def masterL (p : ℕ) (T : List (List ℕ)) (B B' : List (List (ℕ × ℕ))) : List (ℕ × ℕ) :=
  ((B.zipIdx.filter fun x => isMaster p (T.getD x.2 [])).map fun x => x.1).flatten ++
    ((B'.zipIdx.filter fun x => isMaster p (T.getD x.2 [])).map fun x => x.1).flatten

theorem pick_sublist {α : Type} (B : List α) (f : ℕ → Bool) : ((B.zipIdx.filter fun x => f x.2).map fun x => x.1).Sublist B := by
  have h : (B.zipIdx.map fun x => x.1) = B := by
    have := List.zipIdx_map_fst 0 B
    exact this
  conv_rhs => rw [← h]
  exact List.filter_sublist.map _

include hM hG hI in
theorem nEdgeMaster_eq {p : ℕ} (hp : p < np) (hne : (C p).T ≠ []) {ex : List (List CNode)} {E : Edges} (hB : Built np C edges items p ex E) :
    nEdgeMaster p (C p).T E = (masterL p (C p).T (blk (items p) ex (C p) true) (blk (items p) ex (C p) false)).length := by
  have gen : ∀ t, nMaster p (C p).T ((List.range ((C p).T.length + 1)).map (off (blk (items p) ex (C p) t))) =
      (((blk (items p) ex (C p) t).zipIdx.filter fun x => isMaster p ((C p).T.getD x.2 [])).map fun x => x.1).flatten.length := by
    intro t
    rw [flatten_pick (blk (items p) ex (C p) t) fun k => isMaster p ((C p).T.getD k []), blk_length hM hG hI hp hne hB.rows t]
    unfold nMaster
    congr 1
    apply List.map_congr_left
    intro k hk
    rw [List.mem_range] at hk
    have hk' : k < (blk (items p) ex (C p) t).length := by rw [blk_length hM hG hI hp hne hB.rows t]; exact hk
    have hget := (built_offs hM hG hI hp hne hB t).2.1
    rw [List.getD_eq_getElem?_getD (l := (List.range ((C p).T.length + 1)).map (off (blk (items p) ex (C p) t))), hget (k + 1) (by omega),
      List.getD_eq_getElem?_getD (l := (List.range ((C p).T.length + 1)).map (off (blk (items p) ex (C p) t))), hget k (by omega),
      Option.getD_some, Option.getD_some, off_succ _ (List.getElem?_eq_getElem hk'),
      List.getD_eq_getElem?_getD (l := blk (items p) ex (C p) t), List.getElem?_eq_getElem hk', Option.getD_some, Nat.add_sub_cancel_left]
  unfold nEdgeMaster masterL
  rw [hB.dE, hB.dC, gen true, gen false, List.length_append]

include hM hG hI in
theorem masterL_spec {p : ℕ} (hp : p < np) (hne : (C p).T ≠ []) {ex : List (List CNode)} {E : Edges} (hB : Built np C edges items p ex E) :
    (masterL p (C p).T (blk (items p) ex (C p) true) (blk (items p) ex (C p) false)).Nodup ∧
    ∀ e, e ∈ masterL p (C p).T (blk (items p) ex (C p) true) (blk (items p) ex (C p) false) ↔
      GivenAnywhere np C edges p e ∧ ∃ S r S' s, IsEdge p (C p) e S r S' s ∧ ∀ x ∈ S ∩ S', p ≤ x := by
  have hmesh := built_mesh hM hG hI hp hne hB
  constructor
  · obtain ⟨L, l1, l2, -⟩ := hmesh.nodes
    have hL : L = (blk (items p) ex (C p) true).flatten ++ (blk (items p) ex (C p) false).flatten := by
      rw [hB.nodes] at l1
      exact (List.map_injective_iff.mpr (Option.some_injective _) l1).symm
    rw [hL] at l2
    unfold masterL
    exact l2.sublist ((pick_sublist _ (fun k => isMaster p ((C p).T.getD k []))).flatten.append
      (pick_sublist _ (fun k => isMaster p ((C p).T.getD k []))).flatten)
  · intro e
    have hpick : ∀ t, e ∈ (((blk (items p) ex (C p) t).zipIdx.filter fun x => isMaster p ((C p).T.getD x.2 [])).map fun x => x.1).flatten ↔
        ∃ (k : ℕ) (b : List (ℕ × ℕ)), (blk (items p) ex (C p) t)[k]? = some b ∧ isMaster p ((C p).T.getD k []) = true ∧ e ∈ b := by
      intro t
      simp only [List.mem_flatten, List.mem_map, List.mem_filter, Prod.exists]
      constructor
      · rintro ⟨b, ⟨b', k, ⟨h1, h2⟩, rfl⟩, h3⟩
        exact ⟨k, b', List.mem_zipIdx_iff_getElem?.mp h1, h2, h3⟩
      · rintro ⟨k, b, h1, h2, h3⟩
        exact ⟨b, ⟨b, k, ⟨List.mem_zipIdx_iff_getElem?.mpr h1, h2⟩, rfl⟩, h3⟩
    have hblk : ∀ (t : Bool) (k : ℕ) (b : List (ℕ × ℕ)), (blk (items p) ex (C p) t)[k]? = some b → ∃ d, (C p).T[k]? = some d ∧
        IsBlock np C edges p (members p d) t b := by
      intro t k b hb
      have hkl : k < (C p).T.length := by
        rw [← blk_length hM hG hI hp hne hB.rows t]; exact (List.getElem?_eq_some_iff.mp hb).1
      obtain ⟨b', b1, b2⟩ := blocks hM hG hI hp hB.rows (List.getElem?_eq_getElem hkl) t
      rw [hb] at b1; cases b1
      exact ⟨_, List.getElem?_eq_getElem hkl, b2⟩
    have hex : e ∈ masterL p (C p).T (blk (items p) ex (C p) true) (blk (items p) ex (C p) false) ↔
        ∃ (t : Bool) (k : ℕ) (b : List (ℕ × ℕ)), (blk (items p) ex (C p) t)[k]? = some b ∧ isMaster p ((C p).T.getD k []) = true ∧ e ∈ b := by
      unfold masterL
      rw [List.mem_append, hpick true, hpick false]
      constructor
      · rintro (h | h)
        · exact ⟨true, h⟩
        · exact ⟨false, h⟩
      · rintro ⟨t, h⟩
        cases t
        · exact Or.inr h
        · exact Or.inl h
    rw [hex]
    constructor
    · rintro ⟨t, k, b, h1, h2, h3⟩
      obtain ⟨d, d1, -, d2⟩ := hblk t k b h1
      obtain ⟨g, S, r, S', s, f1, f2, -⟩ := (d2 e).mp h3
      refine ⟨g, S, r, S', s, f1, ?_⟩
      rw [f2]
      rw [List.getD_eq_getElem?_getD, d1, Option.getD_some] at h2
      exact (isMaster_members ((hM.tabs.ok p hp).2 d (List.mem_of_getElem? d1))).mp h2
    · rintro ⟨g, S, r, S', s, f1, f2⟩
      obtain ⟨it, c, -, -, -, i4, i5, -⟩ := classify_spec hM hp f1
      obtain ⟨b, b1, -, b2⟩ := blocks hM hG hI hp hB.rows i4 (decide (S = S'))
      refine ⟨_, _, b, b1, ?_, (b2 e).mpr ⟨g, S, r, S', s, f1, i5.symm, by simp⟩⟩
      rw [List.getD_eq_getElem?_getD, i4, Option.getD_some]
      refine (isMaster_members ((hM.tabs.ok p hp).2 c (List.mem_of_getElem? i4))).mpr ?_
      rw [i5]; exact f2

include hM hG hI in
/-- **C72 (global number of edges).** The sum over all processes of the numbers of edges of the classes they are masters of is the number of
edges; `nm p n` is any name of the vertex `n` of process `p` that is the same for copies of a vertex only. -/
theorem global_edges {β : Type} [DecidableEq β] (nm : ℕ → ℕ → β)
    (hnm : ∀ p < np, ∀ q < np, ∀ n < (C p).nv, ∀ m < (C q).nv, nm p n = nm q m ↔ ∃ S r, IsVert p (C p) n S r ∧ IsVert q (C q) m S r)
    {ex : ℕ → List (List CNode)} {E : ℕ → Edges} (hB : ∀ p < np, (C p).T ≠ [] → Built np C edges items p (ex p) (E p)) :
    ((List.range np).map fun p => nEdgeMaster p (C p).T (E p)).sum =
      ((Finset.range np).biUnion fun p => (edges p).toFinset.image fun e => (nm p e.1, nm p e.2)).card := by
  classical
  let ml : ℕ → List (ℕ × ℕ) := fun p => if (C p).T = [] then [] else
    masterL p (C p).T (blk (items p) (ex p) (C p) true) (blk (items p) (ex p) (C p) false)
  have hml : ∀ p < np, nEdgeMaster p (C p).T (E p) = (ml p).length ∧ (ml p).Nodup ∧ ∀ e, e ∈ ml p ↔
      GivenAnywhere np C edges p e ∧ ∃ S r S' s, IsEdge p (C p) e S r S' s ∧ ∀ x ∈ S ∩ S', p ≤ x := by
    intro p hp
    by_cases hne : (C p).T = []
    · have h1 : ml p = [] := if_pos hne
      rw [h1]
      refine ⟨by simp [nEdgeMaster, nMaster, hne], List.nodup_nil, ?_⟩
      intro e
      simp only [List.not_mem_nil, false_iff, not_and]
      rintro - ⟨S, r, S', s, ⟨⟨k, a, b, d, hk, -⟩, -⟩, -⟩
      rw [hne] at hk; simp at hk
    · have h1 : ml p = _ := if_neg hne
      rw [h1]
      exact ⟨nEdgeMaster_eq hM hG hI hp hne (hB p hp hne), masterL_spec hM hG hI hp hne (hB p hp hne)⟩
  have hnme : ∀ p < np, ∀ q < np, ∀ e f, GivenAnywhere np C edges p e → GivenAnywhere np C edges q f →
      ((nm p e.1, nm p e.2) = (nm q f.1, nm q f.2) ↔ ∃ S r S' s, IsEdge p (C p) e S r S' s ∧ IsEdge q (C q) f S r S' s) := by
    intro p hp q hq e f he hf
    obtain ⟨e1, e2⟩ := given_lt hM hG hp he
    obtain ⟨f1, f2⟩ := given_lt hM hG hq hf
    rw [Prod.mk.injEq, hnm p hp q hq e.1 (by omega) f.1 (by omega), hnm p hp q hq e.2 e2 f.2 f2]
    constructor
    · rintro ⟨⟨S, r, a1, a2⟩, S', s, b1, b2⟩
      exact ⟨S, r, S', s, ⟨a1, b1⟩, a2, b2⟩
    · rintro ⟨S, r, S', s, ⟨a1, b1⟩, a2, b2⟩
      exact ⟨⟨S, r, a1, a2⟩, S', s, b1, b2⟩
  have hgiv : ∀ p < np, ∀ e ∈ edges p, GivenAnywhere np C edges p e := by
    intro p hp e he
    obtain ⟨g1, g2⟩ := (hG p hp).range e he
    obtain ⟨S, r, S', s, h⟩ := isEdge_exists hM hp (by omega) g2
    exact ⟨p, hp, e, he, S, r, S', s, h, h⟩
  have hset : ((Finset.range np).biUnion fun p => (edges p).toFinset.image fun e => (nm p e.1, nm p e.2)) =
      (Finset.range np).biUnion fun p => (ml p).toFinset.image fun e => (nm p e.1, nm p e.2) := by
    ext x
    simp only [Finset.mem_biUnion, Finset.mem_range, Finset.mem_image, List.mem_toFinset]
    constructor
    · rintro ⟨q, hq, g, hg, rfl⟩
      have hgg := hgiv q hq g hg
      obtain ⟨g1, g2⟩ := (hG q hq).range g hg
      obtain ⟨S, r, S', s, h⟩ := isEdge_exists hM hq (by omega) g2
      -- the smallest process with both end points
      have hne : (S ∩ S').Nonempty := ⟨q, Finset.mem_inter.mpr ⟨isVert_self h.1, isVert_self h.2⟩⟩
      set p := (S ∩ S').min' hne with hpdef
      have hpm : p ∈ S ∩ S' := Finset.min'_mem _ hne
      rw [Finset.mem_inter] at hpm
      obtain ⟨hp, a, ha⟩ := vert_partner hM hq h.1 hpm.1
      obtain ⟨-, b, hb⟩ := vert_partner hM hq h.2 hpm.2
      have hab : IsEdge p (C p) (a, b) S r S' s := ⟨ha, hb⟩
      have hgab : GivenAnywhere np C edges p (a, b) := ⟨q, hq, g, hg, S, r, S', s, h, hab⟩
      refine ⟨p, hp, (a, b), ((hml p hp).2.2 _).mpr ⟨hgab, S, r, S', s, hab, fun x hx => Finset.min'_le _ x hx⟩, ?_⟩
      exact (hnme p hp q hq (a, b) g hgab hgg).mpr ⟨S, r, S', s, hab, h⟩
    · rintro ⟨p, hp, e, he, rfl⟩
      obtain ⟨hge, -⟩ := ((hml p hp).2.2 e).mp he
      obtain ⟨q, hq, g, hg, S, r, S', s, h1, h2⟩ := id hge
      exact ⟨q, hq, g, hg, (hnme q hq p hp g e (hgiv q hq g hg) hge).mpr ⟨S, r, S', s, h1, h2⟩⟩
  rw [hset, Finset.card_biUnion, ← List.sum_toFinset _ (List.nodup_range), List.toFinset_range]
  · apply Finset.sum_congr rfl
    intro p hp
    rw [Finset.mem_range] at hp
    rw [(hml p hp).1, Finset.card_image_of_injOn, List.toFinset_card_of_nodup (hml p hp).2.1]
    intro e he f hf hef
    rw [Finset.mem_coe, List.mem_toFinset] at he hf
    obtain ⟨S, r, S', s, a1, a2⟩ := (hnme p hp p hp e f (((hml p hp).2.2 e).mp he).1 (((hml p hp).2.2 f).mp hf).1).mp hef
    exact isEdge_inj hM hp a1 a2
  · intro p hp q hq hpq
    rw [Finset.mem_coe, Finset.mem_range] at hp hq
    rw [Function.onFun, Finset.disjoint_left]
    intro x hx hy
    simp only [Finset.mem_image, List.mem_toFinset] at hx hy
    obtain ⟨e, he, rfl⟩ := hx
    obtain ⟨f, hf, hfe⟩ := hy
    obtain ⟨ge, S, r, S', s, b1, b2⟩ := ((hml p hp).2.2 e).mp he
    obtain ⟨gf, U, r', U', s', c1, c2⟩ := ((hml q hq).2.2 f).mp hf
    obtain ⟨V, v, V', v', d1, d2⟩ := (hnme q hq p hp f e gf ge).mp hfe
    obtain ⟨x1, -, x3, -⟩ := isEdge_unique hM hp b1 d2
    obtain ⟨y1, -, y3, -⟩ := isEdge_unique hM hq c1 d1
    subst x1 x3 y1 y3
    have h1 := b2 q (Finset.mem_inter.mpr ⟨isVert_self c1.1, isVert_self c1.2⟩)
    have h2 := c2 p (Finset.mem_inter.mpr ⟨isVert_self b1.1, isVert_self b1.2⟩)
    omega

end

end NgsAMG.BTM
