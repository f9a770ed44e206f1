import Verif.Props.BTM4

/-! C72: the exchanged rows of edges. -/

namespace NgsAMG.BTM

open NgsAMG.EQC NgsAMG.RedTab

/-- what is assumed of the edges given to `SetNodes` on one process: no edge is given twice, the end points are vertices of the process in
ascending order -/
structure Given (C : Ctx) (edges : List (ℕ × ℕ)) : Prop where
  nodup : edges.Nodup
  range : ∀ e ∈ edges, e.1 < e.2 ∧ e.2 < C.nv

section
variable {np : ℕ} {C : ℕ → Ctx} (hM : Mesh np C) {edges : ℕ → List (ℕ × ℕ)} (hG : ∀ p < np, Given (C p) (edges p))

/-- the name `c` stands for the edge `e` -/
def Names (C : Ctx) (e : ℕ × ℕ) (c : CNode) : Prop :=
  idName C e.1 = some (c.e0, c.v0) ∧ idName C e.2 = some (c.e1, c.v1)

omit hM hG in
theorem names_unique {C : Ctx} {e : ℕ × ℕ} {c c' : CNode} (h : Names C e c) (h' : Names C e c') : c = c' := by
  have a1 := h.1.symm.trans h'.1
  have a2 := h.2.symm.trans h'.2
  obtain ⟨c0, c1, c2, c3⟩ := c
  obtain ⟨n0, n1, n2, n3⟩ := c'
  simp only [Option.some.injEq, Prod.mk.injEq] at a1 a2
  obtain ⟨rfl, rfl⟩ := a1
  obtain ⟨rfl, rfl⟩ := a2
  rfl

include hM hG in
theorem items_exist {p : ℕ} (hp : p < np) : ∃ items, (edges p).mapM (classify (C p)) = some items ∧ items.map Item.edge = edges p := by
  have key : ∀ l : List (ℕ × ℕ), (∀ e ∈ l, e ∈ edges p) → ∃ items, l.mapM (classify (C p)) = some items ∧ items.map Item.edge = l := by
    intro l
    induction l with
    | nil => intro _; exact ⟨[], rfl, rfl⟩
    | cons e l ih =>
      intro h
      obtain ⟨items, h1, h2⟩ := ih (fun x hx => h x (by simp [hx]))
      obtain ⟨g1, g2⟩ := (hG p hp).range e (h e (by simp))
      obtain ⟨S, r, S', s, he⟩ := isEdge_exists hM hp (by omega) g2
      obtain ⟨it, c, e1, e2, -⟩ := classify_spec hM hp he
      exact ⟨it :: items, by rw [List.mapM_cons, e1, h1]; rfl, by simp [e2, h2]⟩
  exact key _ fun e h => h

/-- the items are the classified edges -/
structure Items (C : ℕ → Ctx) (edges : ℕ → List (ℕ × ℕ)) (items : ℕ → List Item) (p : ℕ) : Prop where
  edge : (items p).map Item.edge = edges p
  cls : ∀ it ∈ items p, classify (C p) it.edge = some it

omit hM hG in
theorem mapM_classify {C : Ctx} : ∀ {l : List (ℕ × ℕ)} {items : List Item}, l.mapM (classify C) = some items →
    (∀ e ∈ l, ∀ it, classify C e = some it → it.edge = e) → items.map Item.edge = l ∧ ∀ it ∈ items, classify C it.edge = some it := by
  intro l
  induction l with
  | nil => intro items h _; simp at h; subst h; simp
  | cons e l ih =>
    intro items h he
    rw [List.mapM_cons] at h
    rcases h1 : classify C e with _ | it
    · rw [h1] at h; simp at h
    · rcases h2 : l.mapM (classify C) with _ | its
      · rw [h1, h2] at h; simp at h
      · rw [h1, h2] at h
        simp at h
        subst h
        obtain ⟨g1, g2⟩ := ih h2 (fun x hx => he x (by simp [hx]))
        have h3 := he e (by simp) it h1
        refine ⟨by simp [g1, h3], ?_⟩
        intro it' hit
        rcases List.mem_cons.mp hit with rfl | hit
        · rw [h3]; exact h1
        · exact g2 it' hit

omit hM hG in
theorem classify_edge {C : Ctx} {e : ℕ × ℕ} {it : Item} (h : classify C e = some it) : it.edge = e := by
  unfold classify at h
  simp only [Option.bind_eq_some_iff, Option.map_eq_some_iff] at h
  obtain ⟨_, _, _, _, _, _, _, _, _, _, _, _, _, _, rfl⟩ := h
  rfl

variable {items : ℕ → List Item} (hI : ∀ p < np, (edges p).mapM (classify (C p)) = some (items p))

include hI in
theorem items_ok {p : ℕ} (hp : p < np) : Items C edges items p := by
  obtain ⟨h1, h2⟩ := mapM_classify (hI p hp) fun e _ it h => classify_edge h
  exact ⟨h1, h2⟩

include hM hG hI in
/-- everything about one item -/
theorem item_spec {p : ℕ} (hp : p < np) {it : Item} (hit : it ∈ items p) :
    it.edge ∈ edges p ∧ ∃ S S' c, IsEdge p (C p) it.edge S it.node.v0 S' it.node.v1 ∧ Names (C p) it.edge it.node ∧
      (C p).T[it.cls]? = some c ∧ members p c = S ∩ S' ∧ (it.isIn = true ↔ S = S') ∧ it.node.isIn = it.isIn ∧
      (it.isIn = true → (C p).ids[it.cls]? = some it.node.e0) := by
  have hi := items_ok hI hp
  have hed : it.edge ∈ edges p := by rw [← hi.edge]; exact List.mem_map_of_mem hit
  obtain ⟨g1, g2⟩ := (hG p hp).range _ hed
  obtain ⟨S, r, S', s, he⟩ := isEdge_exists hM hp (by omega) g2
  obtain ⟨it', c, e1, e2, e3, e4, e5, e6, e7, e8, e9, e10, e11⟩ := classify_spec hM hp he
  rw [hi.cls it hit] at e1
  cases e1
  subst e7 e8
  exact ⟨hed, S, S', c, he, ⟨e9, e10⟩, e4, e5, e3, e6, e11⟩

include hI in
theorem item_of_edge {p : ℕ} (hp : p < np) {e : ℕ × ℕ} (he : e ∈ edges p) : ∃ it ∈ items p, it.edge = e := by
  have hi := items_ok hI hp
  rw [← hi.edge] at he
  obtain ⟨it, h1, h2⟩ := List.mem_map.mp he
  exact ⟨it, h1, h2⟩

include hM in
/-- names determine edges -/
theorem names_inj {p : ℕ} (hp : p < np) {e e' : ℕ × ℕ} {c : CNode} {S S' U U' : Finset ℕ} (h1 : IsEdge p (C p) e S c.v0 S' c.v1)
    (h2 : IsEdge p (C p) e' U c.v0 U' c.v1) (g1 : Names (C p) e c) (g2 : Names (C p) e' c) : e = e' := by
  have e1 := (idName_iff hM hp hp h1.1 h2.1 g1.1 g2.1).mp rfl
  have e2 := (idName_iff hM hp hp h1.2 h2.2 g1.2 g2.2).mp rfl
  subst e1 e2
  exact Prod.ext (isVert_inj hM hp h1.1 h2.1) (isVert_inj hM hp h1.2 h2.2)

include hM hG hI in
theorem items_nodup {p : ℕ} (hp : p < np) : ((items p).map Item.node).Nodup := by
  have hi := items_ok hI hp
  have hn : (items p).Nodup := List.Nodup.of_map Item.edge (by rw [hi.edge]; exact (hG p hp).nodup)
  refine (List.nodup_map_iff_inj_on hn).mpr ?_
  intro a ha b hb hab
  obtain ⟨-, S, S', c, h1, h2, -⟩ := item_spec hM hG hI hp ha
  obtain ⟨-, U, U', c', g1, g2, -⟩ := item_spec hM hG hI hp hb
  rw [← hab] at g1 g2
  have := names_inj hM hp h1 g1 h2 g2
  have e1 := hi.cls a ha
  have e2 := hi.cls b hb
  rw [this, e2] at e1
  exact (Option.some.inj e1).symm

/-! ### the tentative rows -/

omit hM hG hI in
theorem tent_length (n : ℕ) (l : List Item) : (tent n l).length = n := by simp [tent]

omit hM hG hI in
theorem tent_get (n : ℕ) (l : List Item) {k : ℕ} (hk : k < n) : (tent n l)[k]? = some (if k = 0 then [] else
    ((l.filter fun i => i.cls == k).map Item.node).insertionSort fun a b => smaller b a = false) := by
  simp [tent, hk]

include hM in
/-- a shared class is not the first one -/
theorem cls_pos {p q k l : ℕ} {d e : List ℕ} (hp : p < np) (hq : q < np) (hk : (C p).T[k]? = some d) (hl : (C q).T[l]? = some e)
    (hm : members p d = members q e) : k = 0 ↔ l = 0 := by
  have key : ∀ {p q k l : ℕ} {d e : List ℕ}, p < np → q < np → (C p).T[k]? = some d → (C q).T[l]? = some e →
      members p d = members q e → k = 0 → l = 0 := by
    rintro p q k l d e hp hq hk hl hm rfl
    have hne : (C p).T ≠ [] := by rintro h; rw [h] at hk; simp at hk
    rw [hM.loc p hp hne] at hk
    cases hk
    have : q ∈ members p [] := by rw [hm]; exact mem_members.mpr (Or.inl rfl)
    have : q = p := by simpa [members] using this
    subst this
    exact cls_eq (hM.tabs.ok q hq) hl (hM.loc q hq hne) hm.symm
  exact ⟨key hp hq hk hl hm, key hq hp hl hk hm.symm⟩

include hM hG hI in
/-- a tentative row is sorted, and lists the own edges of the class -/
theorem tent_row {p k : ℕ} {d : List ℕ} (hp : p < np) (hk : (C p).T[k]? = some d) (hk0 : k ≠ 0) :
    ∃ row id, (tent (C p).T.length (items p))[k]? = some row ∧ (C p).ids[k]? = some id ∧
      (row.Pairwise fun a b => smaller a b = true) ∧ (∀ c ∈ row, InRow id c) ∧
      ∀ c, c ∈ row ↔ ∃ it ∈ items p, it.cls = k ∧ it.node = c := by
  have hkl : k < (C p).T.length := (List.getElem?_eq_some_iff.mp hk).1
  obtain ⟨id, hid⟩ : ∃ id, (C p).ids[k]? = some id := ⟨_, List.getElem?_eq_getElem (by rw [hM.idl p hp]; exact hkl)⟩
  refine ⟨_, id, tent_get _ _ hkl, hid, ?_⟩
  rw [if_neg hk0]
  have hrow : ∀ c ∈ ((items p).filter fun i => i.cls == k).map Item.node, InRow id c := by
    intro c hc
    obtain ⟨it, h1, rfl⟩ := List.mem_map.mp hc
    rw [List.mem_filter] at h1
    obtain ⟨-, S, S', c, -, -, -, -, -, g1, g2⟩ := item_spec hM hG hI hp h1.1
    intro h
    have : it.isIn = true := by rw [← g1]; simpa [CNode.isIn] using h
    have h3 := g2 this
    have h4 : it.cls = k := by simpa using h1.2
    rw [h4, hid] at h3
    exact (Option.some.inj h3).symm
  have hnd : (((items p).filter fun i => i.cls == k).map Item.node).Nodup :=
    (items_nodup hM hG hI hp).sublist (List.filter_sublist.map _)
  refine ⟨sort_strict _ hrow hnd, ?_, ?_⟩
  · intro c hc
    exact hrow c ((List.perm_insertionSort _ _).mem_iff.mp hc)
  · intro c
    rw [(List.perm_insertionSort _ _).mem_iff, List.mem_map]
    simp only [List.mem_filter, beq_iff_eq, and_assoc]

/-! ### the rows after the exchange -/

/-- specification: `c` is the name of an edge given on some process, between vertices whose classes have exactly the processes `U` in
common -/
def SharedName (np : ℕ) (C : ℕ → Ctx) (edges : ℕ → List (ℕ × ℕ)) (U : Finset ℕ) (c : CNode) : Prop :=
  ∃ q < np, ∃ e ∈ edges q, ∃ S S', IsEdge q (C q) e S c.v0 S' c.v1 ∧ Names (C q) e c ∧ S ∩ S' = U

omit hM hG hI in
theorem isVert_self {p n r : ℕ} {D : Ctx} {S : Finset ℕ} (h : IsVert p D n S r) : p ∈ S := by
  obtain ⟨k, a, b, d, h1, h2, h3⟩ := h
  rw [← h2]; exact mem_members.mpr (Or.inl rfl)

include hM hG hI in
/-- the rows of the result of `ReduceTable` -/
theorem ex_row {out : List (Option (List CNode))} {p : ℕ} (hp : p < np)
    (hout : Reduced np (fun p => (C p).T) (fun p k => members p ((C p).T.getD k [])) (fun p => tent (C p).T.length (items p))
      (fun _ _ ins => (mergeBy smaller ins).getD []) p out) :
    ∃ ex, out.mapM id = some ex ∧ ex.length = (C p).T.length ∧ (∀ row, ex[0]? = some row → row = []) ∧
      ∀ (k : ℕ) (d : List ℕ), (C p).T[k]? = some d → k ≠ 0 → ∃ row, ex[k]? = some row ∧ (row.Pairwise fun a b => smaller a b = true) ∧
        ∀ c, c ∈ row ↔ SharedName np C edges (members p d) c := by
  obtain ⟨hlen, hrows⟩ := hout
  -- every row
  have hrow : ∀ (k : ℕ) (d : List ℕ), (C p).T[k]? = some d → ∃ row, out[k]? = some (some row) ∧ (k = 0 → row = []) ∧
      (k ≠ 0 → (row.Pairwise fun a b => smaller a b = true) ∧ ∀ c, c ∈ row ↔ SharedName np C edges (members p d) c) := by
    intro k d hk
    obtain ⟨m, l, ins, h1, h2, h3, h4, h5, h6⟩ := hrows k d hk
    refine ⟨_, h6, ?_, ?_⟩
    · rintro rfl
      have hne : (C p).T ≠ [] := by rintro h; rw [h] at hk; simp at hk
      rw [hM.loc p hp hne] at hk
      cases hk
      have hs : [p].insertionSort (· ≤ ·) = [p] := rfl
      rw [hs] at h5
      unfold RowsWithKey at h5
      rw [List.forall₂_cons_left_iff] at h5
      obtain ⟨row, u, ⟨j, hj1, hj2⟩, hu, rfl⟩ := h5
      rw [List.forall₂_nil_left_iff] at hu
      subst hu
      have hjl : j < (C p).T.length := by
        have := (List.getElem?_eq_some_iff.mp hj2).1
        rwa [tent_length] at this
      have hj0 : j = 0 := by
        have h0 : 0 < (C p).T.length := List.length_pos_iff.mpr hne
        have := (rows_of_tables hM.tabs).inj p hp j 0 hjl h0 hj1
        exact this
      subst hj0
      rw [tent_get _ _ hjl] at hj2
      simp at hj2
      subst hj2
      simp [mergeBy, firstHeadBy]
    · intro hk0
      have hmem : ∀ r ∈ (p :: d).insertionSort (· ≤ ·), r = p ∨ r ∈ d := fun r hr => by
        rw [List.mem_insertionSort, List.mem_cons] at hr; exact hr
      have hkey : (fun p k => members p ((C p).T.getD k [])) p k = members p d := by
        show members p ((C p).T.getD k []) = _
        rw [List.getD_eq_getElem?_getD, hk]; rfl
      rw [hkey] at h5
      have hidk : k < (C p).ids.length := by rw [hM.idl p hp]; exact (List.getElem?_eq_some_iff.mp hk).1
      -- every input is a tentative row of a process of the class
      have hin : ∀ row ∈ ins, (row.Pairwise fun a b => smaller a b = true) ∧ (∀ c ∈ row, InRow (C p).ids[k] c) ∧
          ∀ c ∈ row, SharedName np C edges (members p d) c := by
        intro row hrow
        obtain ⟨r, hr, j, hj1, hj2⟩ : ∃ r ∈ (p :: d).insertionSort (· ≤ ·), ∃ j : ℕ,
            members r ((C r).T.getD j []) = members p d ∧ (tent (C r).T.length (items r))[j]? = some row := by
          obtain ⟨i, hi, rfl⟩ := List.mem_iff_getElem.mp hrow
          have hi' : i < ((p :: d).insertionSort (· ≤ ·)).length := by rw [h5.length_eq]; exact hi
          obtain ⟨j, hj⟩ := List.Forall₂.get h5 hi' hi
          exact ⟨_, List.getElem_mem hi', j, hj⟩
        have hrn : r < np := by
          rcases hmem r hr with h | h
          · rw [h]; exact hp
          · exact ((hM.tabs.ok p hp).2 d (List.mem_of_getElem? hk)).range r h
        have hjl : j < (C r).T.length := by
          have := (List.getElem?_eq_some_iff.mp hj2).1
          rwa [tent_length] at this
        have hje : (C r).T[j]? = some (C r).T[j] := List.getElem?_eq_getElem hjl
        have hjm : members r (C r).T[j] = members p d := by rw [← hj1, List.getD_eq_getElem?_getD, hje]; rfl
        have hj0 : j ≠ 0 := fun h => hk0 ((cls_pos hM hp hrn hk hje hjm.symm).mpr h)
        obtain ⟨row', id, t1, t2, t3, t4, t5⟩ := tent_row hM hG hI hrn hje hj0
        rw [hj2] at t1; cases t1
        have hid : id = (C p).ids[k] :=
          (hM.ids r hrn p hp j k id _ _ _ t2 (List.getElem?_eq_getElem hidk) hje hk).mpr hjm
        subst hid
        refine ⟨t3, t4, ?_⟩
        intro c hc
        obtain ⟨it, i1, i2, rfl⟩ := (t5 c).mp hc
        obtain ⟨g1, S, S', e', g2, g3, g4, g5, -⟩ := item_spec hM hG hI hrn i1
        rw [i2, hje] at g4; cases g4
        exact ⟨r, hrn, it.edge, g1, S, S', g2, g3, by rw [← g5, hjm]⟩
      obtain ⟨o, o1, o2, o3⟩ := mergeBy_correct smaller ckey (InRow (C p).ids[k]) (fun a b _ _ => smaller_iff a b)
        (fun a b ha hb => ckey_inj ha hb) ins (fun r hr => (hin r hr).2.1) (fun r hr => (hin r hr).1)
      show List.Pairwise (fun a b => smaller a b = true) ((mergeBy smaller ins).getD []) ∧
        ∀ c, c ∈ (mergeBy smaller ins).getD [] ↔ SharedName np C edges (members p d) c
      rw [o1, Option.getD_some]
      refine ⟨o2, ?_⟩
      intro c
      rw [o3]
      constructor
      · rintro ⟨r, hr, hc⟩
        exact (hin r hr).2.2 c hc
      · rintro ⟨q, hq, e, he, S, S', hE, hN, hSS⟩
        have hqm : q ∈ members p d := by
          rw [← hSS, Finset.mem_inter]
          exact ⟨isVert_self hE.1, isVert_self hE.2⟩
        have hqi : q ∈ (p :: d).insertionSort (· ≤ ·) := by
          rw [List.mem_insertionSort, List.mem_cons]; exact mem_members.mp hqm
        obtain ⟨i, hi, hiq⟩ := List.mem_iff_getElem.mp hqi
        have hi' : i < ins.length := by rw [← h5.length_eq]; exact hi
        obtain ⟨j, hj1, hj2⟩ := List.Forall₂.get h5 hi hi'
        rw [List.get_eq_getElem, hiq] at hj1 hj2
        refine ⟨ins[i], List.getElem_mem hi', ?_⟩
        have hjl : j < (C q).T.length := by
          have := (List.getElem?_eq_some_iff.mp hj2).1
          rwa [tent_length] at this
        have hje : (C q).T[j]? = some (C q).T[j] := List.getElem?_eq_getElem hjl
        have hjm : members q (C q).T[j] = members p d := by
          have : members q ((C q).T.getD j []) = members p d := hj1
          rw [← this, List.getD_eq_getElem?_getD, hje]; rfl
        have hj0 : j ≠ 0 := fun h => hk0 ((cls_pos hM hp hq hk hje hjm.symm).mpr h)
        obtain ⟨row', id, t1, t2, t3, t4, t5⟩ := tent_row hM hG hI hq hje hj0
        have hj2 : (tent (C q).T.length (items q))[j]? = some ins[i] := hj2
        rw [hj2] at t1; cases t1
        obtain ⟨it, i1, i2⟩ := item_of_edge hI hq he
        obtain ⟨-, U, U', e', g2, g3, g4, g5, -⟩ := item_spec hM hG hI hq i1
        rw [i2] at g2 g3
        have hnode : it.node = c := names_unique g3 hN
        refine (t5 c).mpr ⟨it, i1, ?_, hnode⟩
        rw [hnode] at g2
        obtain ⟨u1, -⟩ := isVert_unique hM hq g2.1 hE.1
        obtain ⟨u2, -⟩ := isVert_unique hM hq g2.2 hE.2
        subst u1 u2
        exact cls_eq (hM.tabs.ok q hq) g4 hje (by rw [g5, hSS, hjm])
  choose f hf using hrow
  have hex : ∃ ex : List (List CNode), out = ex.map some := by
    refine ⟨out.map fun o => o.getD [], ?_⟩
    rw [List.map_map]
    symm
    conv_rhs => rw [← List.map_id out]
    apply List.map_congr_left
    intro o ho
    obtain ⟨k, hk⟩ := List.mem_iff_getElem?.mp ho
    have hkl : k < (C p).T.length := by
      have := (List.getElem?_eq_some_iff.mp hk).1
      rwa [hlen] at this
    have := (hf k _ (List.getElem?_eq_getElem hkl)).1
    rw [hk] at this
    cases this
    rfl
  obtain ⟨ex, rfl⟩ := hex
  have hmap : ∀ l : List (List CNode), (l.map some).mapM id = some l := by
    intro l
    induction l with
    | nil => rfl
    | cons a l ih => rw [List.map_cons, List.mapM_cons, ih]; rfl
  refine ⟨ex, hmap ex, by simpa using hlen, ?_, ?_⟩
  · intro row h0
    have hkl : 0 < (C p).T.length := by
      have h1 := (List.getElem?_eq_some_iff.mp h0).1
      have : ex.length = (C p).T.length := by simpa using hlen
      omega
    obtain ⟨a, b, -⟩ := hf 0 _ (List.getElem?_eq_getElem hkl)
    rw [List.getElem?_map, h0] at a
    simp only [Option.map_some, Option.some.injEq] at a
    rw [a]; exact b rfl
  · intro k d hk hk0
    obtain ⟨a, -, b⟩ := hf k d hk
    refine ⟨f k d hk, ?_, b hk0⟩
    rw [List.getElem?_map] at a
    rcases h : ex[k]? with _ | x
    · rw [h] at a; simp at a
    · rw [h] at a
      simp only [Option.map_some, Option.some.injEq] at a
      rw [a]

end

end NgsAMG.BTM
