import Verif.Props.MapEdges8

/-!
# C76: the coarse edges of all processes fit together
-/

namespace NgsAMG.CMap

open NgsAMG.EQC NgsAMG.RedTab NgsAMG.Exch NgsAMG.BTM

theorem flatMap_single {α : Type} {n k : ℕ} {f : ℕ → List α} (hk : k < n) (h : ∀ j < n, j ≠ k → f j = []) : (List.range n).flatMap f = f k := by
  induction n with
  | zero => omega
  | succ n ih =>
    rw [List.range_succ, List.flatMap_append, List.flatMap_singleton]
    by_cases hkn : k = n
    · subst hkn
      have : (List.range k).flatMap f = [] := by
        rw [List.flatMap_eq_nil_iff]
        intro j hj
        have := List.mem_range.mp hj
        exact h j (by omega) (by omega)
      rw [this, List.nil_append]
    · rw [ih (by omega) (fun j hj hjk => h j (by omega) hjk), h n (by omega) (Ne.symm hkn), List.append_nil]

theorem forall₂_filter {α β : Type} {R : α → β → Prop} {P : α → Bool} {Q : β → Bool} {l : List α} {l' : List β} (h : List.Forall₂ R l l')
    (hP : ∀ a b, a ∈ l → b ∈ l' → R a b → P a = Q b) : List.Forall₂ R (l.filter P) (l'.filter Q) := by
  induction h with
  | nil => exact List.Forall₂.nil
  | @cons a b l l' hab _ ih =>
    have := ih fun x y hx hy => hP x y (List.mem_cons_of_mem _ hx) (List.mem_cons_of_mem _ hy)
    rw [List.filter_cons, List.filter_cons, hP a b (by simp) (by simp) hab]
    split
    · exact List.Forall₂.cons hab this
    · exact this

section
variable {np : ℕ} {C : ℕ → Ctx} {disps : ℕ → List ℕ} {vmap : ℕ → List (Option ℕ)} (hv : VMaps np C disps vmap)
  {E : ℕ → FEdges} {B : ℕ → Bool → List (List (ℕ × ℕ))}

local notation "CC" => fun p => coarseCtx (C p) (disps p)

/-- the same coarse edge on two processes -/
def Sm (C : ℕ → Ctx) (disps : ℕ → List ℕ) (p q : ℕ) (i j : CInfo) : Prop :=
  ∃ T c T' c', CI p (coarseCtx (C p) (disps p)) i T c T' c' ∧ CI q (coarseCtx (C q) (disps q)) j T c T' c'

include hv

theorem sm_iff {p q : ℕ} (hp : p < np) (hq : q < np) {i j i' j' : CInfo} (h : Sm C disps p q i i') (h' : Sm C disps p q j j') : i = j ↔ i' = j' := by
  obtain ⟨T, c, T', c', a1, a2⟩ := h
  obtain ⟨U, u, U', u', b1, b2⟩ := h'
  constructor
  · rintro rfl
    obtain ⟨rfl, rfl⟩ := isVert_unique hv.mesh hp a1.v0 b1.v0
    obtain ⟨rfl, rfl⟩ := isVert_unique hv.mesh hp a1.v1 b1.v1
    exact ci_unique hv hq a2 b2 (isVert_inj hv.mesh hq a2.v0 b2.v0) (isVert_inj hv.mesh hq a2.v1 b2.v1)
  · rintro rfl
    obtain ⟨rfl, rfl⟩ := isVert_unique hv.mesh hq a2.v0 b2.v0
    obtain ⟨rfl, rfl⟩ := isVert_unique hv.mesh hq a2.v1 b2.v1
    exact ci_unique hv hp a1 b1 (isVert_inj hv.mesh hp a1.v0 b1.v0) (isVert_inj hv.mesh hp a1.v1 b1.v1)

/-- in ascending order on one process, in ascending order on the other -/
theorem norm_copies {p q : ℕ} (hp : p < np) (hq : q < np) {x y x' y' c c' : ℕ} {T T' : Finset ℕ} (hx : IsVert p (coarseCtx (C p) (disps p)) x T c)
    (hy : IsVert p (coarseCtx (C p) (disps p)) y T' c') (hx' : IsVert q (coarseCtx (C q) (disps q)) x' T c) (hy' : IsVert q (coarseCtx (C q) (disps q)) y' T' c') :
    ∃ U u U' u', IsEdge p (coarseCtx (C p) (disps p)) (norm (x, y)) U u U' u' ∧ IsEdge q (coarseCtx (C q) (disps q)) (norm (x', y')) U u U' u' := by
  have := vert_lt hv.mesh hp hq hx hy hx' hy'
  unfold norm
  dsimp only
  by_cases h : x < y
  · rw [if_pos h, if_pos (this.mp h)]
    exact ⟨T, c, T', c', ⟨hx, hy⟩, ⟨hx', hy'⟩⟩
  · rw [if_neg h, if_neg (fun h' => h (this.mpr h'))]
    exact ⟨T', c', T, c, ⟨hy, hx⟩, ⟨hy', hx'⟩⟩

variable (hE : EMesh np C E B)
include hE

/-- the copies of a fine edge have the same coarse edge -/
theorem key_copies {p q : ℕ} (hp : p < np) (hq : q < np) {f f' : ℕ} {nd nd' : ℕ × ℕ} (hf : (E p).nodes[f]? = some nd) (hf' : (E q).nodes[f']? = some nd')
    {S S' : Finset ℕ} {r s : ℕ} (he : IsEdge p (C p) nd S r S' s) (he' : IsEdge q (C q) nd' S r S' s) :
    (keyOf (envOf C disps E vmap p) f = none ∧ keyOf (envOf C disps E vmap q) f' = none) ∨
    ∃ i i', keyOf (envOf C disps E vmap p) f = some i ∧ keyOf (envOf C disps E vmap q) f' = some i' ∧ Sm C disps p q i i' := by
  have nokey : ∀ {p f : ℕ} {nd : ℕ × ℕ}, p < np → (E p).nodes[f]? = some nd →
      (¬ ∃ x y, (vmap p)[nd.1]? = some (some x) ∧ (vmap p)[nd.2]? = some (some y) ∧ x ≠ y) → keyOf (envOf C disps E vmap p) f = none := by
    intro p f nd hp hf hn
    by_contra h
    obtain ⟨i, hi⟩ := Option.ne_none_iff_exists'.mp h
    obtain ⟨nd', x, y, n1, n2, n3, n4, -⟩ := key_some hv hE hp hi
    rw [hf] at n1; cases n1
    exact hn ⟨x, y, n2, n3, n4⟩
  rcases hv.copies p hp q hq _ _ _ _ he.1 he'.1 with ⟨h1, h2⟩ | ⟨x, x', T, c, x1, x2, x3, x4, -⟩
  · left
    exact ⟨nokey hp hf (by rintro ⟨x, y, n1, -⟩; rw [h1] at n1; cases n1), nokey hq hf' (by rintro ⟨x, y, n1, -⟩; rw [h2] at n1; cases n1)⟩
  rcases hv.copies p hp q hq _ _ _ _ he.2 he'.2 with ⟨h1, h2⟩ | ⟨y, y', T', c', y1, y2, y3, y4, -⟩
  · left
    exact ⟨nokey hp hf (by rintro ⟨x, y, -, n1, -⟩; rw [h1] at n1; cases n1), nokey hq hf' (by rintro ⟨x, y, -, n1, -⟩; rw [h2] at n1; cases n1)⟩
  have hiff : x = y ↔ x' = y' := by
    constructor
    · rintro rfl
      obtain ⟨rfl, rfl⟩ := isVert_unique hv.mesh hp x3 y3
      exact isVert_inj hv.mesh hq x4 y4
    · rintro rfl
      obtain ⟨rfl, rfl⟩ := isVert_unique hv.mesh hq x4 y4
      exact isVert_inj hv.mesh hp x3 y3
  by_cases hne : x = y
  · left
    refine ⟨nokey hp hf ?_, nokey hq hf' ?_⟩
    · rintro ⟨a, b, n1, n2, n3⟩
      rw [x1] at n1; cases n1
      rw [y1] at n2; cases n2
      exact n3 hne
    · rintro ⟨a, b, n1, n2, n3⟩
      rw [x2] at n1; cases n1
      rw [y2] at n2; cases n2
      exact n3 (hiff.mp hne)
  · right
    obtain ⟨i, i1, i2⟩ := key_of hv hE hp hf x1 y1 hne
    obtain ⟨j, j1, j2⟩ := key_of hv hE hq hf' x2 y2 (fun h => hne (hiff.mpr h))
    obtain ⟨-, -, -, -, -, -, -, -, U, u, U', u', ci⟩ := key_some hv hE hp i1
    obtain ⟨-, -, -, -, -, -, -, -, W, w, W', w', cj⟩ := key_some hv hE hq j1
    obtain ⟨A, a, A', a', e1, e2⟩ := norm_copies hv hp hq x3 y3 x4 y4
    rw [← i2] at e1
    rw [← j2] at e2
    obtain ⟨rfl, rfl⟩ := isVert_unique hv.mesh hp ci.v0 e1.1
    obtain ⟨rfl, rfl⟩ := isVert_unique hv.mesh hp ci.v1 e1.2
    obtain ⟨rfl, rfl⟩ := isVert_unique hv.mesh hq cj.v0 e2.1
    obtain ⟨rfl, rfl⟩ := isVert_unique hv.mesh hq cj.v1 e2.2
    exact ⟨i, j, i1, j1, _, _, _, _, ci, cj⟩

/-- the edges of a class, on two processes -/
theorem seg_copies {p q k l : ℕ} {d e : List ℕ} (hp : p < np) (hq : q < np) (hk : (C p).T[k]? = some d) (hl : (C q).T[l]? = some e) (hm : members p d = members q e) :
    List.Forall₂ (fun x x' : ℕ × ℕ => (keyOf (envOf C disps E vmap p) x.2 = none ∧ keyOf (envOf C disps E vmap q) x'.2 = none) ∨
      ∃ i i', keyOf (envOf C disps E vmap p) x.2 = some i ∧ keyOf (envOf C disps E vmap q) x'.2 = some i' ∧ Sm C disps p q i i')
      ((eNodes (E p) k ++ cNodes (E p) k).map fun f => (k, f)) ((eNodes (E q) l ++ cNodes (E q) l).map fun f => (l, f)) := by
  have hkl := (List.getElem?_eq_some_iff.mp hk).1
  have hll := (List.getElem?_eq_some_iff.mp hl).1
  have gen : ∀ (t : Bool) (b b' : List (ℕ × ℕ)), (B p t)[k]? = some b → (B q t)[l]? = some b' →
      List.Forall₂ (fun f f' : ℕ => (keyOf (envOf C disps E vmap p) f = none ∧ keyOf (envOf C disps E vmap q) f' = none) ∨
        ∃ i i', keyOf (envOf C disps E vmap p) f = some i ∧ keyOf (envOf C disps E vmap q) f' = some i' ∧ Sm C disps p q i i')
        (List.range' (num (B p true) (B p false) t k 0) b.length) (List.range' (num (B q true) (B q false) t l 0) b'.length) := by
    intro t b b' hb hb'
    have hc := hE.copies p hp q hq t k l b b' d e hb hb' hk hl hm
    rw [List.forall₂_iff_get] at hc ⊢
    refine ⟨by simp [hc.1], fun i h1 h2 => ?_⟩
    rw [List.length_range'] at h1 h2
    obtain ⟨S, r, S', s, e1, e2⟩ := hc.2 i h1 h2
    have n1 := node_at hE hp hb h1
    have n2 := node_at hE hq hb' h2
    rw [List.getElem?_eq_getElem h1] at n1
    rw [List.getElem?_eq_getElem h2] at n2
    have hnum : ∀ (X Y : List (List (ℕ × ℕ))) (k i : ℕ), num X Y t k 0 + 1 * i = num X Y t k i := by
      intro X Y k i
      unfold num
      split <;> omega
    have := key_copies hv hE hp hq n1 n2 e1 e2
    simp only [List.get_eq_getElem, List.getElem_range', hnum]
    exact this
  obtain ⟨b, hb⟩ := blk_get hE hp true hkl
  obtain ⟨c, hc⟩ := blk_get hE hp false hkl
  obtain ⟨b', hb'⟩ := blk_get hE hq true hll
  obtain ⟨c', hc'⟩ := blk_get hE hq false hll
  rw [eNodes_eq hE hp hb, cNodes_eq hE hp hc, eNodes_eq hE hq hb', cNodes_eq hE hq hc', List.forall₂_map_left_iff, List.forall₂_map_right_iff]
  exact List.rel_append (gen true b b' hb hb') (gen false c c' hc hc')

variable {rows : ℕ → List (List CNode)} (hR : MergedCE np C disps E vmap rows)
include hR

omit hE in
/-- the rows are the same on all processes of the class -/
theorem row_eq {p q k l : ℕ} {d e : List ℕ} (hp : p < np) (hq : q < np) (hk : (C p).T[k]? = some d) (hl : (C q).T[l]? = some e) (hm : members p d = members q e) :
    (rows p).getD k [] = (rows q).getD l [] := by
  obtain ⟨row, r1, r2, r3⟩ := (hR p hp).2 k d hk
  obtain ⟨row', s1, s2, s3⟩ := (hR q hq).2 l e hl
  rw [List.getD_eq_getElem?_getD, List.getD_eq_getElem?_getD, r1, s1, Option.getD_some, Option.getD_some]
  refine tup_ext r2 s2 fun c => ?_
  rw [r3, s3, hm]

/-- which coarse edges are in the table -/
theorem inRow_name {p f : ℕ} (hp : p < np) {i : CInfo} (hi : keyOf (envOf C disps E vmap p) f = some i) :
    inRow (envOf C disps E vmap p) (rows p) i = true ↔ nameOf (envOf C disps E vmap p) i ∈ (rows p).getD i.cls [] := by
  obtain ⟨-, -, -, -, -, -, -, -, T, c, T', c', hci⟩ := key_some hv hE hp hi
  have hlt := keyOf_cv hi
  have hnm := (ci_name hv (E := E) hp hci).2
  have hpr := (prT_name hv (E := E) hp hci.v0 hci.v1 (by omega) hnm).1
  have hpr' : prT (envOf C disps E vmap p) (nameOf (envOf C disps E vmap p) i) = pr i := by
    rw [hpr]
    unfold norm pr
    rw [if_pos hlt]
  obtain ⟨d, d1, d2⟩ := hci.cls
  obtain ⟨row, r1, -, -⟩ := (hR p hp).2 i.cls d d1
  have hg : (rows p).getD i.cls [] = row := by rw [List.getD_eq_getElem?_getD, r1]; rfl
  unfold inRow
  rw [decide_eq_true_iff, hg, List.mem_map]
  constructor
  · rintro ⟨t, ht, h⟩
    obtain ⟨x, y, u, u', U, U', hne, hx, hy, hn, -⟩ := row_entry hv hE hR hp d1 r1 ht
    rw [(prT_name hv (E := E) hp hx hy hne hn).1] at h
    rcases (norm_eq (v := (x, y)) hlt hne).mp h.symm with ⟨a, b⟩ | ⟨a, b⟩ <;> dsimp only at a b
    · have h0 := hci.v0
      have h1 := hci.v1
      rw [a] at h0; rw [b] at h1
      obtain ⟨rfl, rfl⟩ := isVert_unique hv.mesh hp hx h0
      obtain ⟨rfl, rfl⟩ := isVert_unique hv.mesh hp hy h1
      rwa [← isName_det hv.mesh hn hnm]
    · have h0 := hci.v0
      have h1 := hci.v1
      rw [a] at h0; rw [b] at h1
      obtain ⟨rfl, rfl⟩ := isVert_unique hv.mesh hp hx h1
      obtain ⟨rfl, rfl⟩ := isVert_unique hv.mesh hp hy h0
      rwa [← isName_det hv.mesh (isName_symm hn) hnm]
  · intro h
    exact ⟨_, h, hpr'⟩

/-- the coarse edges of a class that are not in the table come from the fine edges of the class -/
theorem new_first {p k : ℕ} {t : Bool} (hp : p < np) (hk : k < (C p).T.length) :
    (firstEdges (envOf C disps E vmap p)).filter (fun y => isCls t k y && !inRow (envOf C disps E vmap p) (rows p) y.2) =
      firsts (keyOf (envOf C disps E vmap p)) [] (((eNodes (E p) k ++ cNodes (E p) k).map fun f => (k, f)).filter fun x =>
        (keyOf (envOf C disps E vmap p) x.2).any fun i => (i.cls == k && (t != i.cross)) && !inRow (envOf C disps E vmap p) (rows p) i) := by
  have hrows := rows_ok hv hE hR hp
  unfold firstEdges
  have := firsts_filter (keyOf (envOf C disps E vmap p)) (fun i => (i.cls == k && (t != i.cross)) && !inRow (envOf C disps E vmap p) (rows p) i) []
    (order (envOf C disps E vmap p).C.T.length (envOf C disps E vmap p).E)
  refine Eq.trans ?_ (this.trans ?_)
  · rfl
  congr 1
  rw [show (envOf C disps E vmap p).C.T.length = (C p).T.length from rfl, show (envOf C disps E vmap p).E = E p from rfl]
  conv_lhs => unfold order
  rw [List.filter_flatMap]
  refine flatMap_single hk ?_
  intro j hj hjk
  rw [List.filter_eq_nil_iff]
  intro x hx hany
  rw [Option.any_eq_true] at hany
  obtain ⟨i, hi, hP⟩ := hany
  rw [Bool.and_eq_true, Bool.and_eq_true, beq_iff_eq, Bool.not_eq_true'] at hP
  obtain ⟨⟨h1, -⟩, h2⟩ := hP
  have hxo : x ∈ order (C p).T.length (E p) := List.mem_flatMap.mpr ⟨j, List.mem_range.mpr hj, hx⟩
  have := (hrows.all x hxo i hi (by
    intro row hr hmem
    unfold inRow at h2
    rw [decide_eq_false_iff_not, List.getD_eq_getElem?_getD, hr, Option.getD_some] at h2
    exact h2 hmem)).1
  obtain ⟨f, -, rfl⟩ := List.mem_map.mp hx
  dsimp only at this
  omega

/-- the coarse edges of a class, on two processes -/
theorem newB_copies {p q k l : ℕ} {t : Bool} {d e : List ℕ} (hp : p < np) (hq : q < np) (hk : (C p).T[k]? = some d) (hl : (C q).T[l]? = some e) (hm : members p d = members q e) :
    List.Forall₂ (fun e f => ∃ S r S' s, IsEdge p (coarseCtx (C p) (disps p)) e S r S' s ∧ IsEdge q (coarseCtx (C q) (disps q)) f S r S' s)
      (newB (envOf C disps E vmap p) (rows p) t k) (newB (envOf C disps E vmap q) (rows q) t l) := by
  have hkl := (List.getElem?_eq_some_iff.mp hk).1
  have hll := (List.getElem?_eq_some_iff.mp hl).1
  unfold newB
  refine List.rel_append ?_ ?_
  · rw [new_first hv hE hR hp hkl, new_first hv hE hR hq hll, List.forall₂_map_left_iff, List.forall₂_map_right_iff]
    have hseg := seg_copies hv hE hp hq hk hl hm
    have hfil := forall₂_filter (P := fun x => (keyOf (envOf C disps E vmap p) x.2).any fun i => (i.cls == k && (t != i.cross)) && !inRow (envOf C disps E vmap p) (rows p) i)
      (Q := fun x => (keyOf (envOf C disps E vmap q) x.2).any fun i => (i.cls == l && (t != i.cross)) && !inRow (envOf C disps E vmap q) (rows q) i) hseg ?_
    · have := firsts_rel (keyOf (envOf C disps E vmap p)) (S := Sm C disps p q) (fun i j i' j' h h' => sm_iff hv hp hq h h') hfil List.Forall₂.nil
      refine this.imp ?_
      rintro y y' ⟨T, c, T', c', a1, a2⟩
      exact ⟨T, c, T', c', ⟨a1.v0, a1.v1⟩, ⟨a2.v0, a2.v1⟩⟩
    · rintro x x' - - (⟨h1, h2⟩ | ⟨i, i', h1, h2, hS⟩)
      · rw [h1, h2]; rfl
      · rw [h1, h2, Option.any_some, Option.any_some]
        obtain ⟨T, c, T', c', a1, a2⟩ := hS
        obtain ⟨di, d1, d2⟩ := a1.cls
        obtain ⟨dj, e1, e2⟩ := a2.cls
        have hcls : i.cls = k ↔ i'.cls = l := by
          constructor
          · intro h
            rw [h] at d1
            replace d1 : (C p).T[k]? = some di := d1
            rw [hk] at d1; cases d1
            exact cls_eq (hv.mesh.tabs.ok q hq) e1 hl (by rw [e2, ← d2, hm])
          · intro h
            rw [h] at e1
            replace e1 : (C q).T[l]? = some dj := e1
            rw [hl] at e1; cases e1
            exact cls_eq (hv.mesh.tabs.ok p hp) d1 hk (by rw [d2, ← e2, hm])
        have hcross : i.cross = i'.cross := by
          have := a1.cross.trans a2.cross.symm
          revert this; cases i.cross <;> cases i'.cross <;> simp
        have hrow : inRow (envOf C disps E vmap p) (rows p) i = inRow (envOf C disps E vmap q) (rows q) i' := by
          rw [Bool.eq_iff_iff, inRow_name hv hE hR hp h1, inRow_name hv hE hR hq h2, isName_det hv.mesh (ci_name hv (E := E) hp a1).2 (ci_name hv (E := E) hq a2).2,
            row_eq hv hR hp hq d1 e1 (by rw [d2, e2])]
        rw [hcross, hrow]
        congr 2
        rw [Bool.eq_iff_iff, beq_iff_eq, beq_iff_eq, hcls]
  · rw [List.forall₂_map_left_iff, List.forall₂_map_right_iff, ← row_eq hv hR hp hq hk hl hm, List.forall₂_same]
    intro c hc
    have hc := (List.mem_filter.mp hc).1
    have hrp : (rows p)[k]? = some ((rows p).getD k []) := rows_get (cnt_ok hv hE hp) (rows_ok hv hE hR hp) hkl
    have hrq : (rows q)[l]? = some ((rows q).getD l []) := rows_get (cnt_ok hv hE hq) (rows_ok hv hE hR hq) hll
    obtain ⟨x, y, u, u', U, U', hne, hx, hy, hn, -⟩ := row_entry hv hE hR hp hk hrp hc
    rw [row_eq hv hR hp hq hk hl hm] at hc
    obtain ⟨x', y', w, w', W, W', hne', hx', hy', hn', -⟩ := row_entry hv hE hR hq hl hrq hc
    rw [(prT_name hv (E := E) hp hx hy hne hn).1, (prT_name hv (E := E) hq hx' hy' hne' hn').1]
    rcases isName_unique hv.mesh hn hn' with ⟨rfl, rfl, rfl, rfl⟩ | ⟨rfl, rfl, rfl, rfl⟩
    · exact norm_copies hv hp hq hx hy hx' hy'
    · rw [← norm_swap hne']
      exact norm_copies hv hp hq hx hy hy' hx'

/-- the coarse edges are a distributed set of edges -/
theorem coarse_emesh {R : ℕ → FEdges} (h1 : ∀ p < np, (R p).dE = (List.range ((C p).T.length + 1)).map (off (blocksE (envOf C disps E vmap p) (rows p) true)))
    (h2 : ∀ p < np, (R p).dC = (List.range ((C p).T.length + 1)).map (off (blocksE (envOf C disps E vmap p) (rows p) false)))
    (h3 : ∀ p < np, (R p).nodes = allCE (envOf C disps E vmap p) (rows p)) :
    EMesh np CC R fun p t => blocksE (envOf C disps E vmap p) (rows p) t := by
  have blk : ∀ {p k : ℕ} {t : Bool} {b : List (ℕ × ℕ)}, (blocksE (envOf C disps E vmap p) (rows p) t)[k]? = some b →
      k < (C p).T.length ∧ b = newB (envOf C disps E vmap p) (rows p) t k := by
    intro p k t b hb
    have hk : k < (C p).T.length := by
      have := (List.getElem?_eq_some_iff.mp hb).1
      unfold blocksE at this
      rw [List.length_map, List.length_range] at this
      exact this
    rw [blocksE_get _ _ _ hk] at hb
    exact ⟨hk, (Option.some.inj hb).symm⟩
  refine ⟨?_, h1, h2, h3, ?_, ?_, ?_⟩
  · intro p hp t
    unfold blocksE
    rw [List.length_map, List.length_range]; rfl
  · intro p hp t k b hb
    obtain ⟨hk, rfl⟩ := blk hb
    exact newB_nodup (cnt_ok hv hE hp) (rows_ok hv hE hR hp) hk
  · intro p hp t k b d hb hd e he
    obtain ⟨hk, rfl⟩ := blk hb
    rcases (mem_newB (cnt_ok hv hE hp) (rows_ok hv hE hR hp) hk).mp he with ⟨f, i, i1, rfl, rfl, i3, -⟩ | ⟨c, c1, c2, rfl⟩
    · obtain ⟨-, -, -, -, -, -, -, -, T, c, T', c', hci⟩ := key_some hv hE hp i1
      refine ⟨keyOf_cv i1, T, c, T', c', ⟨hci.v0, hci.v1⟩, ?_, ?_⟩
      · obtain ⟨d', d1, d2⟩ := hci.cls
        rw [hd] at d1; cases d1
        exact d2.symm
      · have := hci.cross
        rw [i3] at this
        rw [← not_iff_not, ← ne_eq, ← ne_eq, ← this]
        cases t <;> simp
    · have hrp : (rows p)[k]? = some ((rows p).getD k []) := rows_get (cnt_ok hv hE hp) (rows_ok hv hE hR hp) hk
      obtain ⟨x, y, u, u', U, U', hne, hx, hy, hn, hUU⟩ := row_entry hv hE hR hp hd hrp c1
      rw [(prT_name hv (E := E) hp hx hy hne hn).1]
      have hin := isName_isIn hv.mesh hn
      rw [c2] at hin
      refine ⟨norm_lt (v := (x, y)) hne, ?_⟩
      obtain ⟨A, a, A', a', e1, e2⟩ := norm_copies hv hp hp hx hy hx hy
      refine ⟨A, a, A', a', e1, ?_⟩
      unfold norm at e1
      dsimp only at e1
      split at e1
      · obtain ⟨rfl, -⟩ := isVert_unique hv.mesh hp hx e1.1
        obtain ⟨rfl, -⟩ := isVert_unique hv.mesh hp hy e1.2
        exact ⟨hUU, hin⟩
      · obtain ⟨rfl, -⟩ := isVert_unique hv.mesh hp hy e1.1
        obtain ⟨rfl, -⟩ := isVert_unique hv.mesh hp hx e1.2
        exact ⟨by rw [← hUU, Finset.inter_comm], hin.trans eq_comm⟩
  · intro p hp q hq t k l b b' d d' hb hb' hd hd' hm
    obtain ⟨hk, rfl⟩ := blk hb
    obtain ⟨hl, rfl⟩ := blk hb'
    exact newB_copies hv hE hR hp hq hd hd' hm

end

end NgsAMG.CMap
