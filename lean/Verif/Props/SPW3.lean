import Verif.Props.SPW2

/-!
# Properties of the pairwise aggregation, part 3: all rounds
-/

namespace NgsAMG.SPW

variable {K : Type}

/-- the vertices of the mesh mapped to `c` -/
def Cls (n : ℕ) (vmap : ℕ → Option ℕ) (c v : ℕ) : Prop := v < n ∧ vmap v = some c

/-- one step along an edge of the graph between vertices of a set -/
def InStep (adj : ℕ → List ℕ) (S : ℕ → Prop) (a b : ℕ) : Prop := S a ∧ S b ∧ Adj adj a b

/-- the set is connected in the graph (paths inside the set) -/
def ConnectedIn (adj : ℕ → List ℕ) (S : ℕ → Prop) : Prop :=
  ∀ v w, S v → S w → Relation.ReflTransGen (InStep adj S) v w

/-- a map from the mesh (`n` vertices, graph `adj`, participating vertices `el`) to aggregates -/
structure Level (n : ℕ) (adj : ℕ → List ℕ) (el : ℕ → Prop) (m : LMap) : Prop where
  nf : m.nf = n
  total : ∀ v < n, el v → ∃ c < m.nc, m.vmap v = some c
  other : ∀ v < n, ¬ el v → m.vmap v = none
  used : ∀ c < m.nc, ∃ v, Cls n m.vmap c v
  table : TableOK n m.nc m.vmap m.c2f
  conn : ∀ c < m.nc, ConnectedIn adj (Cls n m.vmap c)

/-- the reverse table and the graph of the coarse level have been set up -/
structure Finished (n : ℕ) (adj : ℕ → List ℕ) (m : LMap) : Prop where
  rev : m.rev.length = m.nc
  edge : ∀ u < m.nc, ∀ w ∈ m.cadj u, w < m.nc ∧ ∃ a b, Cls n m.vmap u a ∧ Cls n m.vmap w b ∧ Adj adj a b

/-- every aggregate has a member whose EQC is above the EQCs of all members -/
def HasTop (leq : ℕ → ℕ → Bool) (eqc : ℕ → ℕ) (n : ℕ) (m : LMap) : Prop :=
  ∀ c < m.nc, ∃ t, Cls n m.vmap c t ∧ ∀ v, Cls n m.vmap c v → leq (eqc v) (eqc t) = true

/-- the stored EQC of a coarse vertex is the largest EQC of its members -/
def EqOK (leq : ℕ → ℕ → Bool) (eqc : ℕ → ℕ) (n : ℕ) (m : LMap) : Prop :=
  ∀ c < m.nc, ∃ t, Cls n m.vmap c t ∧ eqc t = m.cEq c ∧ ∀ v, Cls n m.vmap c v → leq (eqc v) (m.cEq c) = true

/-- no aggregate has more than `k` members -/
def SizeLe (k : ℕ) (m : LMap) : Prop := ∀ c < m.nc, (m.c2f.getD c []).length ≤ k

/-- `IsLEQ` is an order, and EQC 0 (the local one, without distant ranks) is below all others -/
structure LeqOK (leq : ℕ → ℕ → Bool) : Prop where
  refl : ∀ a, leq a a = true
  trans : ∀ a b c, leq a b = true → leq b c = true → leq a c = true
  antisymm : ∀ a b, leq a b = true → leq b a = true → a = b
  zero : ∀ a, leq 0 a = true

theorem comparable_leq {par : Par} (hl : LeqOK par.leq) (hp : par.trulyParallel = true) (v2eq : ℕ → ℕ) (a b : ℕ)
    (h : Comparable par v2eq a b) : par.leq (v2eq a) (v2eq b) = true ∨ par.leq (v2eq b) (v2eq a) = true := by
  rcases h hp with h | h | h | h
  · left; rw [h]; exact hl.zero _
  · right; rw [h]; exact hl.zero _
  · exact Or.inl h
  · exact Or.inr h

theorem inStep_mono {adj : ℕ → List ℕ} {S T : ℕ → Prop} (h : ∀ v, S v → T v) {a b : ℕ}
    (hab : Relation.ReflTransGen (InStep adj S) a b) : Relation.ReflTransGen (InStep adj T) a b := by
  induction hab with
  | refl => exact .refl
  | tail _ hh ih => exact ih.tail ⟨h _ hh.1, h _ hh.2.1, hh.2.2⟩

theorem nodup_length_le_two (l : List ℕ) (hn : l.Nodup) (a b : ℕ) (h : ∀ w ∈ l, w = a ∨ w = b) : l.length ≤ 2 := by
  have hs : l ⊆ [a, b] := by
    intro w hw
    rcases h w hw with rfl | rfl <;> simp
  exact (List.subperm_of_subset hn hs).length_le

/-! ### round 0 -/

theorem level_of_star (n : ℕ) (adj : ℕ → List ℕ) (cmp : ℕ → ℕ → Prop) (el : ℕ → Prop) (vmap : ℕ → Option ℕ) (nc : ℕ)
    (h : Star n adj cmp el (fun _ => none) vmap nc) (cadj : ℕ → List ℕ) (cEq : ℕ → ℕ) :
    Level n adj el ⟨n, nc, vmap, [], cadj, cEq⟩ := by
  have hel : ∀ v < n, ∀ c, vmap v = some c → el v := by
    intro v hv c e
    by_contra hne
    rw [h.other v hv hne] at e
    cases e
  refine ⟨rfl, h.total, h.other, ?_, ?_, ?_⟩
  · intro c hc
    obtain ⟨a, ha, -, ea, -⟩ := h.star c hc
    exact ⟨a, ha, ea⟩
  · unfold LMap.c2f
    split
    · exact c2fTable_ok _ _ _
    · rename_i hh
      have : nc = 0 := by simpa using (not_not.mp hh).symm
      subst this
      exact ⟨rfl, fun c hc => absurd hc (by simp)⟩
  · intro c hc v w hv hw
    obtain ⟨a, ha, -, ea, hall⟩ := h.star c hc
    have hca : Cls n vmap c a := ⟨ha, ea⟩
    have h1 : ∀ x, Cls n vmap c x → Relation.ReflTransGen (InStep adj (Cls n vmap c)) x a ∧
        Relation.ReflTransGen (InStep adj (Cls n vmap c)) a x := by
      intro x hx
      rcases hall x hx.1 (hel x hx.1 c hx.2) hx.2 with rfl | ⟨hxa, -⟩
      · exact ⟨.refl, .refl⟩
      · exact ⟨.single ⟨hx, hca, hxa⟩, .single ⟨hca, hx, hxa.symm⟩⟩
    exact (h1 v hv).1.trans (h1 w hw).2

theorem pairs_size (n : ℕ) (el : ℕ → Prop) (m : LMap) (ht : TableOK n m.nc m.vmap m.c2f)
    (hel : ∀ v < n, ∀ c, m.vmap v = some c → el v) (h : Pairs n el m.vmap m.nc) : SizeLe 2 m := by
  intro c hc
  obtain ⟨a, b, hab⟩ := h c hc
  obtain ⟨h1, h2⟩ := ht.2 c hc
  refine nodup_length_le_two _ h1 a b ?_
  intro w hw
  obtain ⟨hwn, e⟩ := (h2 w).mp hw
  exact hab w hwn (hel w hwn c e) e

/-! ### finishing a map -/

theorem c2f_finishUp (leq : ℕ → ℕ → Bool) (fadj : ℕ → List ℕ) (base : Option (ℕ → ℕ)) (m : LMap)
    (h : m.c2f.length = m.nc) : (m.finishUp leq fadj base).c2f = m.c2f := by
  show (if m.c2f.length ≠ m.nc then _ else m.c2f) = m.c2f
  rw [if_neg (by simpa using h)]

theorem level_finishUp {n : ℕ} {adj : ℕ → List ℕ} {el : ℕ → Prop} {m : LMap} (h : Level n adj el m)
    (leq : ℕ → ℕ → Bool) (fadj : ℕ → List ℕ) (base : Option (ℕ → ℕ)) : Level n adj el (m.finishUp leq fadj base) :=
  ⟨h.nf, h.total, h.other, h.used, by
    have := c2f_finishUp leq fadj base m h.table.1
    show TableOK n m.nc m.vmap _
    rw [this]
    exact h.table, h.conn⟩

theorem finished_finishUp {n : ℕ} {adj : ℕ → List ℕ} {el : ℕ → Prop} (hadj : ∀ v < n, ∀ w ∈ adj v, w < n) {m : LMap}
    (h : Level n adj el m) (leq : ℕ → ℕ → Bool) (base : Option (ℕ → ℕ)) :
    Finished n adj (m.finishUp leq adj base) := by
  have hr : ∀ v < n, ∀ c, m.vmap v = some c → c < m.nc := by
    intro v hv c e
    by_cases hel : el v
    · obtain ⟨c', hc', e'⟩ := h.total v hv hel
      rw [e] at e'; injection e' with e'; omega
    · rw [h.other v hv hel] at e; cases e
  refine ⟨h.table.1, ?_⟩
  intro u hu w hw
  have := (coarse_adjacency n m.nc adj hadj m.vmap hr m.c2f h.table u w).mp hw
  obtain ⟨-, h2, -, a, ha, b, hb, ea, eb, h3⟩ := this
  refine ⟨h2, a, b, ⟨ha, ea⟩, ⟨hb, eb⟩, ?_⟩
  rcases h3 with h3 | h3
  · exact Or.inl h3.2
  · exact Or.inr h3.2

/-- the largest element of a chain, as computed by a loop with a comparison -/
theorem foldl_max_chain (leq : ℕ → ℕ → Bool) (hl : LeqOK leq) (f : ℕ → ℕ) (step : ℕ → ℕ → ℕ)
    (hstep : ∀ cur v, leq (f v) cur = true ∨ leq cur (f v) = true →
      (step cur v = cur ∧ leq (f v) cur = true) ∨ (step cur v = f v ∧ leq cur (f v) = true)) :
    ∀ (l : List ℕ) (cur : ℕ), (∀ v ∈ l, leq (f v) cur = true ∨ leq cur (f v) = true) →
      (∀ v ∈ l, ∀ w ∈ l, leq (f v) (f w) = true ∨ leq (f w) (f v) = true) →
      (l.foldl step cur = cur ∨ ∃ v ∈ l, l.foldl step cur = f v) ∧ leq cur (l.foldl step cur) = true ∧
      ∀ v ∈ l, leq (f v) (l.foldl step cur) = true := by
  intro l
  induction l with
  | nil => intro cur _ _; exact ⟨Or.inl rfl, hl.refl _, by simp⟩
  | cons x l ih =>
    intro cur h1 h2
    rw [List.foldl_cons]
    have hx := hstep cur x (h1 x List.mem_cons_self)
    have hcur : ∀ v ∈ l, leq (f v) (step cur x) = true ∨ leq (step cur x) (f v) = true := by
      intro v hv
      rcases hx with ⟨e, -⟩ | ⟨e, -⟩
      · rw [e]; exact h1 v (List.mem_cons_of_mem _ hv)
      · rw [e]; exact h2 v (List.mem_cons_of_mem _ hv) x List.mem_cons_self
    obtain ⟨a, b, c⟩ := ih (step cur x) hcur fun v hv w hw => h2 v (List.mem_cons_of_mem _ hv) w (List.mem_cons_of_mem _ hw)
    have hle : leq cur (step cur x) = true ∧ leq (f x) (step cur x) = true := by
      rcases hx with ⟨e, h⟩ | ⟨e, h⟩
      · rw [e]; exact ⟨hl.refl _, h⟩
      · rw [e]; exact ⟨h, hl.refl _⟩
    refine ⟨?_, hl.trans _ _ _ hle.1 b, ?_⟩
    · rcases a with a | ⟨v, hv, a⟩
      · rcases hx with ⟨e, -⟩ | ⟨e, -⟩
        · left; rw [a, e]
        · right; exact ⟨x, List.mem_cons_self, by rw [a, e]⟩
      · right; exact ⟨v, List.mem_cons_of_mem _ hv, a⟩
    · intro v hv
      rcases List.mem_cons.mp hv with rfl | hv
      · exact hl.trans _ _ _ hle.2 b
      · exact c v hv

theorem firstEq_ok {n : ℕ} {adj : ℕ → List ℕ} {el : ℕ → Prop} {m : LMap} (h : Level n adj el m) (leq : ℕ → ℕ → Bool)
    (hl : LeqOK leq) (eqc : ℕ → ℕ)
    (hch : ∀ c < m.nc, ∀ v w, Cls n m.vmap c v → Cls n m.vmap c w →
      leq (eqc v) (eqc w) = true ∨ leq (eqc w) (eqc v) = true) :
    EqOK leq eqc n (m.finishUp leq adj (some eqc)) := by
  intro c hc
  have hc' : c < m.nc := hc
  show ∃ t, Cls n m.vmap c t ∧ eqc t = firstEq leq eqc m.nf m.vmap c ∧ ∀ v, Cls n m.vmap c v →
    leq (eqc v) (firstEq leq eqc m.nf m.vmap c) = true
  rw [h.nf]
  have hmem : ∀ v, v ∈ ((List.range n).filter fun v => eqc v ≠ 0 ∧ m.vmap v = some c) ↔
      Cls n m.vmap c v ∧ eqc v ≠ 0 := by
    intro v; simp [Cls]; tauto
  have hstep : ∀ cur v, leq (eqc v) cur = true ∨ leq cur (eqc v) = true →
      ((if cur = 0 then eqc v else if leq (eqc v) cur = true then cur else eqc v) = cur ∧ leq (eqc v) cur = true) ∨
      ((if cur = 0 then eqc v else if leq (eqc v) cur = true then cur else eqc v) = eqc v ∧ leq cur (eqc v) = true) := by
    intro cur v hcmp
    by_cases h0 : cur = 0
    · subst h0
      right; exact ⟨if_pos rfl, hl.zero _⟩
    · rw [if_neg h0]
      by_cases h1 : leq (eqc v) cur = true
      · left; exact ⟨if_pos h1, h1⟩
      · right; exact ⟨if_neg h1, by tauto⟩
  obtain ⟨a, -, b⟩ := foldl_max_chain leq hl eqc _ hstep
    ((List.range n).filter fun v => eqc v ≠ 0 ∧ m.vmap v = some c) 0 (fun v _ => Or.inr (hl.zero _))
    (fun v hv w hw => hch c hc' v w ((hmem v).mp hv).1 ((hmem w).mp hw).1)
  have hall : ∀ v, Cls n m.vmap c v → leq (eqc v) (firstEq leq eqc n m.vmap c) = true := by
    intro v hv
    by_cases h0 : eqc v = 0
    · rw [h0]; exact hl.zero _
    · exact b v ((hmem v).mpr ⟨hv, h0⟩)
  rcases a with a | ⟨v, hv, a⟩
  · obtain ⟨t, ht⟩ := h.used c hc'
    refine ⟨t, ht, ?_, hall⟩
    have h1 : firstEq leq eqc n m.vmap c = 0 := a
    have h2 := hall t ht
    rw [h1] at h2 ⊢
    exact hl.antisymm _ _ h2 (hl.zero _)
  · exact ⟨v, ((hmem v).mp hv).1, a.symm, hall⟩

/-! ### concatenation of two rounds -/

theorem cls_conc {n : ℕ} {l r : ℕ → Option ℕ} {c v : ℕ} :
    Cls n (concVMap l r) c v ↔ ∃ k, Cls n l k v ∧ r k = some c := by
  unfold Cls concVMap
  rw [Option.bind_eq_some_iff]
  constructor
  · rintro ⟨h, k, h1, h2⟩; exact ⟨k, ⟨h, h1⟩, h2⟩
  · rintro ⟨k, ⟨h, h1⟩, h2⟩; exact ⟨h, k, h1, h2⟩

theorem star_range {n nc : ℕ} {adj : ℕ → List ℕ} {cmp : ℕ → ℕ → Prop} {vmap0 vmap : ℕ → Option ℕ}
    (h : Star n adj cmp (fun _ => True) vmap0 vmap nc) (k : ℕ) (hk : k < n) (c : ℕ) (e : vmap k = some c) : c < nc := by
  obtain ⟨c', hc', e'⟩ := h.total k hk trivial
  rw [e] at e'; injection e' with e'; omega

/-- properties of the concatenated vertex map that do not depend on the tables -/
theorem conc_core {n : ℕ} {adj : ℕ → List ℕ} {el : ℕ → Prop} {m : LMap} (h : Level n adj el m) (hf : Finished n adj m)
    {cmp : ℕ → ℕ → Prop} {vmap0 rv : ℕ → Option ℕ} {nc : ℕ}
    (hs : Star m.nc m.cadj cmp (fun _ => True) vmap0 rv nc) :
    (∀ v < n, el v → ∃ c < nc, concVMap m.vmap rv v = some c) ∧
    (∀ v < n, ¬ el v → concVMap m.vmap rv v = none) ∧
    (∀ c < nc, ∃ v, Cls n (concVMap m.vmap rv) c v) ∧
    (∀ c < nc, ConnectedIn adj (Cls n (concVMap m.vmap rv) c)) := by
  have hrange : ∀ k v, Cls n m.vmap k v → k < m.nc := by
    intro k v hv
    by_cases hel : el v
    · obtain ⟨c', hc', e'⟩ := h.total v hv.1 hel
      rw [hv.2] at e'; injection e' with e'; omega
    · have := h.other v hv.1 hel; rw [hv.2] at this; cases this
  refine ⟨?_, ?_, ?_, ?_⟩
  · intro v hv hel
    obtain ⟨k, hk, e⟩ := h.total v hv hel
    obtain ⟨c, hc, e'⟩ := hs.total k hk trivial
    exact ⟨c, hc, by simp [concVMap, e, e']⟩
  · intro v hv hel
    simp [concVMap, h.other v hv hel]
  · intro c hc
    obtain ⟨a, ha, -, ea, -⟩ := hs.star c hc
    obtain ⟨v, hv⟩ := h.used a ha
    exact ⟨v, cls_conc.mpr ⟨a, hv, ea⟩⟩
  · intro c hc v w hv hw
    obtain ⟨a, ha, -, ea, hall⟩ := hs.star c hc
    have hsub : ∀ k, rv k = some c → ∀ x, Cls n m.vmap k x → Cls n (concVMap m.vmap rv) c x :=
      fun k hk x hx => cls_conc.mpr ⟨k, hx, hk⟩
    obtain ⟨a0, ha0⟩ := h.used a ha
    -- every member is connected with a fixed vertex of the center aggregate
    have key : ∀ x, Cls n (concVMap m.vmap rv) c x →
        Relation.ReflTransGen (InStep adj (Cls n (concVMap m.vmap rv) c)) x a0 ∧
        Relation.ReflTransGen (InStep adj (Cls n (concVMap m.vmap rv) c)) a0 x := by
      intro x hx
      obtain ⟨k, hxk, ek⟩ := cls_conc.mp hx
      have hk := hrange k x hxk
      have hin : ∀ p q, Cls n m.vmap a p → Cls n m.vmap a q →
          Relation.ReflTransGen (InStep adj (Cls n (concVMap m.vmap rv) c)) p q :=
        fun p q hp hq => inStep_mono (hsub a ea) (h.conn a ha p q hp hq)
      have hink : ∀ p q, Cls n m.vmap k p → Cls n m.vmap k q →
          Relation.ReflTransGen (InStep adj (Cls n (concVMap m.vmap rv) c)) p q :=
        fun p q hp hq => inStep_mono (hsub k ek) (h.conn k hk p q hp hq)
      rcases hall k hk trivial ek with rfl | ⟨hka, -⟩
      · exact ⟨hin x a0 hxk ha0, hin a0 x ha0 hxk⟩
      · obtain ⟨p, q, hp, hq, hpq⟩ : ∃ p q, Cls n m.vmap k p ∧ Cls n m.vmap a q ∧ Adj adj p q := by
          rcases hka with h' | h'
          · obtain ⟨-, p, q, hp, hq, hpq⟩ := hf.edge k hk a h'
            exact ⟨p, q, hp, hq, hpq⟩
          · obtain ⟨-, q, p, hq, hp, hpq⟩ := hf.edge a ha k h'
            exact ⟨p, q, hp, hq, hpq.symm⟩
        have hcp := hsub k ek p hp
        have hcq := hsub a ea q hq
        refine ⟨?_, ?_⟩
        · exact ((hink x p hxk hp).tail ⟨hcp, hcq, hpq⟩).trans (hin q a0 hq ha0)
        · exact ((hin a0 q ha0 hq).tail ⟨hcq, hcp, hpq.symm⟩).trans (hink p x hp hxk)
    exact (key v hv).1.trans (key w hw).2

theorem table_flat {n n1 nc : ℕ} {l r : ℕ → Option ℕ} {t1 : List (List ℕ)} (h1 : TableOK n n1 l t1)
    (hr : ∀ v < n, ∀ k, l v = some k → k < n1) (rows : List ℕ) (c : ℕ) (hnd : rows.Nodup)
    (hrows : ∀ k, k ∈ rows ↔ k < n1 ∧ r k = some c) (_ : c < nc) :
    (rows.flatMap fun k => t1.getD k []).Nodup ∧
    ∀ v, v ∈ (rows.flatMap fun k => t1.getD k []) ↔ v < n ∧ concVMap l r v = some c := by
  refine ⟨?_, ?_⟩
  · rw [List.nodup_flatMap]
    refine ⟨fun k hk => (h1.2 k ((hrows k).mp hk).1).1, ?_⟩
    refine List.Pairwise.imp_of_mem ?_ hnd
    intro a b ha hb hab
    simp only [Function.onFun, List.disjoint_left]
    intro v hva hvb
    have e1 := (((h1.2 a ((hrows a).mp ha).1).2 v).mp hva).2
    have e2 := (((h1.2 b ((hrows b).mp hb).1).2 v).mp hvb).2
    rw [e1] at e2
    injection e2 with e2
    exact hab e2
  · intro v
    rw [List.mem_flatMap]
    constructor
    · rintro ⟨k, hk, hv⟩
      obtain ⟨hk1, hk2⟩ := (hrows k).mp hk
      obtain ⟨hvn, e⟩ := ((h1.2 k hk1).2 v).mp hv
      exact ⟨hvn, by simp [concVMap, e, hk2]⟩
    · rintro ⟨hvn, e⟩
      obtain ⟨k, e1, e2⟩ := Option.bind_eq_some_iff.mp e
      have hk := hr v hvn k e1
      exact ⟨k, (hrows k).mpr ⟨hk, e2⟩, ((h1.2 k hk).2 v).mpr ⟨hvn, e1⟩⟩

theorem level_range {n : ℕ} {adj : ℕ → List ℕ} {el : ℕ → Prop} {m : LMap} (h : Level n adj el m) :
    ∀ v < n, ∀ k, m.vmap v = some k → k < m.nc := by
  intro v hv k e
  by_cases hel : el v
  · obtain ⟨c', hc', e'⟩ := h.total v hv hel
    rw [e] at e'; injection e' with e'; omega
  · rw [h.other v hv hel] at e; cases e

theorem c2f_of_rev (m : LMap) (h : m.rev.length = m.nc) : m.c2f = m.rev := by
  unfold LMap.c2f
  rw [if_neg (by simpa using h)]

theorem level_concVM {n : ℕ} {adj : ℕ → List ℕ} {el : ℕ → Prop} {m : LMap} (h : Level n adj el m) (hf : Finished n adj m)
    {cmp : ℕ → ℕ → Prop} {vmap0 rv : ℕ → Option ℕ} {nc : ℕ}
    (hs : Star m.nc m.cadj cmp (fun _ => True) vmap0 rv nc) : Level n adj el (m.concVM nc rv) := by
  obtain ⟨h1, h2, h3, h4⟩ := conc_core h hf hs
  have hc : (m.concVM nc rv).c2f = (m.concVM nc rv).rev := c2f_of_rev _ (by simp [LMap.concVM])
  have ht := h.table
  rw [c2f_of_rev m hf.rev] at ht
  refine ⟨h.nf, h1, h2, h3, ?_, h4⟩
  rw [hc]
  refine ⟨by simp [LMap.concVM], ?_⟩
  intro c hcc
  have e : (m.concVM nc rv).rev.getD c [] = ((List.range m.rev.length).filter fun k => rv k = some c).flatMap
      fun k => m.rev.getD k [] := getD_map_range _ _ _ _ hcc
  rw [e]
  exact table_flat ht (level_range h) _ c (List.nodup_range.filter _) (fun k => by simp [hf.rev]) hcc

theorem size_concVM {n : ℕ} {adj : ℕ → List ℕ} {el : ℕ → Prop} {m : LMap} (h : Level n adj el m) (hf : Finished n adj m)
    {rv : ℕ → Option ℕ} {nc : ℕ} (hp : Pairs m.nc (fun _ => True) rv nc) (k : ℕ) (hk : SizeLe k m) :
    SizeLe (2 * k) (m.concVM nc rv) := by
  intro c hc
  have hcc : c < nc := hc
  rw [c2f_of_rev (m.concVM nc rv) (by simp [LMap.concVM])]
  have e : (m.concVM nc rv).rev.getD c [] = ((List.range m.rev.length).filter fun k => rv k = some c).flatMap
      fun k => m.rev.getD k [] := getD_map_range _ _ _ _ hcc
  rw [e, List.length_flatMap]
  have hlen : ((List.range m.rev.length).filter fun k => rv k = some c).length ≤ 2 := by
    obtain ⟨a, b, hab⟩ := hp c hcc
    refine nodup_length_le_two _ (List.nodup_range.filter _) a b ?_
    intro w hw
    simp only [List.mem_filter, List.mem_range, decide_eq_true_eq, hf.rev] at hw
    exact hab w hw.1 trivial hw.2
  have hall : ∀ x ∈ ((List.range m.rev.length).filter fun k => rv k = some c).map (fun k => (m.rev.getD k []).length),
      x ≤ k := by
    intro x hx
    obtain ⟨j, hj, rfl⟩ := List.mem_map.mp hx
    simp only [List.mem_filter, List.mem_range, hf.rev] at hj
    have := hk j hj.1
    rwa [c2f_of_rev m hf.rev] at this
  have hsum : ∀ l : List ℕ, (∀ x ∈ l, x ≤ k) → l.sum ≤ l.length * k := by
    intro l
    induction l with
    | nil => simp
    | cons x l ih =>
      intro hl
      have h1 := hl x List.mem_cons_self
      have h2 := ih fun y hy => hl y (List.mem_cons_of_mem _ hy)
      rw [List.sum_cons, List.length_cons, Nat.succ_mul]
      omega
  have := hsum _ hall
  rw [List.length_map] at this
  exact this.trans (Nat.mul_le_mul_right _ hlen)

/-- the map of a later round, before it is concatenated -/
theorem level_concProper {n : ℕ} {adj : ℕ → List ℕ} {el : ℕ → Prop} (leq : ℕ → ℕ → Bool) {m : LMap}
    (h : Level n adj el m) (hf : Finished n adj m) {cmp : ℕ → ℕ → Prop} {vmap0 rv : ℕ → Option ℕ} {nc : ℕ}
    (hs : Star m.nc m.cadj cmp (fun _ => True) vmap0 rv nc) (cadj0 : ℕ → List ℕ) (cEq0 : ℕ → ℕ) :
    let r : LMap := (⟨m.nc, nc, rv, [], cadj0, cEq0⟩ : LMap).finishUp leq m.cadj none
    Level n adj el (m.concProper leq r) ∧ Finished n adj (m.concProper leq r) := by
  intro r
  obtain ⟨h1, h2, h3, h4⟩ := conc_core h hf hs
  have hel : ∀ v < m.nc, ∀ c, rv v = some c → c < nc := fun v hv c e => star_range hs v hv c e
  have hadjc : ∀ u < m.nc, ∀ w ∈ m.cadj u, w < m.nc := fun u hu w hw => (hf.edge u hu w hw).1
  have htr : TableOK m.nc nc rv (⟨m.nc, nc, rv, [], cadj0, cEq0⟩ : LMap).c2f := by
    unfold LMap.c2f
    split
    · exact c2fTable_ok _ _ _
    · rename_i hh
      have : nc = 0 := by simpa using (not_not.mp hh).symm
      subst this
      exact ⟨rfl, fun c hc => absurd hc (by simp)⟩
  have hr2 : r.c2f = (⟨m.nc, nc, rv, [], cadj0, cEq0⟩ : LMap).c2f := c2f_finishUp leq m.cadj none _ htr.1
  have hlen : (m.concProper leq r).rev.length = nc := by
    show (r.c2f.map _).length = nc
    rw [List.length_map, hr2, htr.1]
  have htab : TableOK n nc (concVMap m.vmap rv) (m.concProper leq r).rev := by
    refine ⟨hlen, ?_⟩
    intro c hc
    have e : (m.concProper leq r).rev.getD c [] = (r.c2f.getD c []).flatMap fun v => m.c2f.getD v [] := by
      show (r.c2f.map fun row => row.flatMap fun v => m.c2f.getD v []).getD c [] = _
      simp only [List.getD_eq_getElem?_getD, List.getElem?_map]
      cases r.c2f[c]? <;> simp
    rw [e, hr2]
    exact table_flat h.table (level_range h) _ c (htr.2 c hc).1 (htr.2 c hc).2 hc
  refine ⟨⟨h.nf, h1, h2, h3, ?_, h4⟩, ⟨hlen, ?_⟩⟩
  · rw [c2f_of_rev _ hlen]; exact htab
  · intro u hu w hw
    have hu' : u < nc := hu
    have := (coarse_adjacency m.nc nc m.cadj hadjc rv hel _ htr u w).mp hw
    obtain ⟨-, h5, -, a, ha, b, hb, ea, eb, h6⟩ := this
    refine ⟨h5, ?_⟩
    obtain ⟨p, q, hp, hq, hpq⟩ : ∃ p q, Cls n m.vmap a p ∧ Cls n m.vmap b q ∧ Adj adj p q := by
      rcases h6 with h6 | h6
      · exact (hf.edge a ha b h6.2).2
      · obtain ⟨q, p, hq, hp, hpq⟩ := (hf.edge b hb a h6.2).2
        exact ⟨p, q, hp, hq, hpq.symm⟩
    exact ⟨p, q, cls_conc.mpr ⟨a, hp, ea⟩, cls_conc.mpr ⟨b, hq, eb⟩, hpq⟩

theorem size_concProper {n : ℕ} {adj : ℕ → List ℕ} {el : ℕ → Prop} (leq : ℕ → ℕ → Bool) {m : LMap}
    (h : Level n adj el m) (hf : Finished n adj m) {cmp : ℕ → ℕ → Prop} {vmap0 rv : ℕ → Option ℕ} {nc : ℕ}
    (hs : Star m.nc m.cadj cmp (fun _ => True) vmap0 rv nc) (hp : Pairs m.nc (fun _ => True) rv nc)
    (cadj0 : ℕ → List ℕ) (cEq0 : ℕ → ℕ) (k : ℕ) (hk : SizeLe k m) :
    SizeLe (2 * k) (m.concProper leq ((⟨m.nc, nc, rv, [], cadj0, cEq0⟩ : LMap).finishUp leq m.cadj none)) := by
  have hL := level_concProper leq h hf hs cadj0 cEq0
  have hV := level_concVM h hf hs
  intro c hc
  have hcc : c < nc := hc
  have hsz := size_concVM h hf hp k hk c hcc
  -- both tables list the same vertices
  obtain ⟨a1, a2⟩ := hL.1.table.2 c hcc
  obtain ⟨b1, b2⟩ := hV.table.2 c hcc
  have : ((m.concProper leq ((⟨m.nc, nc, rv, [], cadj0, cEq0⟩ : LMap).finishUp leq m.cadj none)).c2f.getD c []).Perm
      ((m.concVM nc rv).c2f.getD c []) := by
    rw [List.perm_ext_iff_of_nodup a1 b1]
    intro v
    exact (a2 v).trans (b2 v).symm
  rw [this.length_eq]
  exact hsz

/-- vertices that got the same number in a pairing round have comparable EQCs, and one of them is the largest -/
theorem star_chain {n : ℕ} {adj : ℕ → List ℕ} {el : ℕ → Prop} {par : Par} (hl : LeqOK par.leq)
    (hpar : par.trulyParallel = true) {f : ℕ → ℕ} {vmap0 rv : ℕ → Option ℕ} {nc : ℕ}
    (hs : Star n adj (Comparable par f) el vmap0 rv nc) (hp : Pairs n el rv nc) :
    ∀ c < nc, (∀ k k', k < n → k' < n → el k → el k' → rv k = some c → rv k' = some c →
      par.leq (f k) (f k') = true ∨ par.leq (f k') (f k) = true) ∧
    ∃ k < n, el k ∧ rv k = some c ∧ ∀ k' < n, el k' → rv k' = some c → par.leq (f k') (f k) = true := by
  intro c hc
  obtain ⟨a, ha, ela, ea, hall⟩ := hs.star c hc
  obtain ⟨x, y, hxy⟩ := hp c hc
  have hch : ∀ k k', k < n → k' < n → el k → el k' → rv k = some c → rv k' = some c →
      par.leq (f k) (f k') = true ∨ par.leq (f k') (f k) = true := by
    have hka : ∀ k < n, el k → rv k = some c → par.leq (f k) (f a) = true ∨ par.leq (f a) (f k) = true := by
      intro k hk elk ek
      rcases hall k hk elk ek with rfl | ⟨-, hcm⟩
      · exact Or.inl (hl.refl _)
      · exact comparable_leq hl hpar f k a hcm
    intro k k' hk hk' elk elk' ek ek'
    by_cases hkk : k = k'
    · subst hkk; exact Or.inl (hl.refl _)
    · rcases hxy k hk elk ek with h1 | h1 <;> rcases hxy k' hk' elk' ek' with h2 | h2 <;>
        rcases hxy a ha ela ea with h3 | h3
      · exact absurd (h1.trans h2.symm) hkk
      · exact absurd (h1.trans h2.symm) hkk
      · rw [h1, ← h3]; rcases hka k' hk' elk' ek' with h | h <;> tauto
      · rw [h2, ← h3]; exact hka k hk elk ek
      · rw [h2, ← h3]; exact hka k hk elk ek
      · rw [h1, ← h3]; rcases hka k' hk' elk' ek' with h | h <;> tauto
      · exact absurd (h1.trans h2.symm) hkk
      · exact absurd (h1.trans h2.symm) hkk
  refine ⟨hch, ?_⟩
  by_cases hex : ∃ b < n, el b ∧ rv b = some c ∧ b ≠ a
  · obtain ⟨b, hb, elb, eb, hba⟩ := hex
    have h2 : ∀ k < n, el k → rv k = some c → k = a ∨ k = b := by
      intro k hk elk ek
      have t1 := hxy k hk elk ek
      have t2 := hxy a ha ela ea
      have t3 := hxy b hb elb eb
      omega
    rcases hch a b ha hb ela elb ea eb with hle | hle
    · refine ⟨b, hb, elb, eb, ?_⟩
      intro k hk elk ek
      rcases h2 k hk elk ek with rfl | rfl
      · exact hle
      · exact hl.refl _
    · refine ⟨a, ha, ela, ea, ?_⟩
      intro k hk elk ek
      rcases h2 k hk elk ek with rfl | rfl
      · exact hl.refl _
      · exact hle
  · push Not at hex
    exact ⟨a, ha, ela, ea, fun k hk elk ek => by rw [hex k hk elk ek]; exact hl.refl _⟩

theorem top_conc {par : Par} (hl : LeqOK par.leq) (hpar : par.trulyParallel = true) {m : LMap}
    {vmap0 rv : ℕ → Option ℕ} {nc : ℕ}
    (hs : Star m.nc m.cadj (Comparable par m.cEq) (fun _ => True) vmap0 rv nc)
    (hp : Pairs m.nc (fun _ => True) rv nc) :
    ∀ c < nc, (∀ k k', k < m.nc → k' < m.nc → rv k = some c → rv k' = some c →
      par.leq (m.cEq k) (m.cEq k') = true ∨ par.leq (m.cEq k') (m.cEq k) = true) ∧
    ∃ k < m.nc, rv k = some c ∧ ∀ k' < m.nc, rv k' = some c → par.leq (m.cEq k') (m.cEq k) = true := by
  intro c hc
  obtain ⟨h1, k, hk, -, ek, h2⟩ := star_chain hl hpar hs hp c hc
  exact ⟨fun k k' hk hk' ek ek' => h1 k k' hk hk' trivial trivial ek ek', k, hk, ek, fun k' hk' ek' => h2 k' hk' trivial ek'⟩

theorem hasTop_concVM {n : ℕ} {adj : ℕ → List ℕ} {el : ℕ → Prop} {par : Par} (hl : LeqOK par.leq)
    (hpar : par.trulyParallel = true) {m : LMap} {eqc : ℕ → ℕ} (he : EqOK par.leq eqc n m) (h : Level n adj el m)
    {vmap0 rv : ℕ → Option ℕ} {nc : ℕ}
    (hs : Star m.nc m.cadj (Comparable par m.cEq) (fun _ => True) vmap0 rv nc)
    (hp : Pairs m.nc (fun _ => True) rv nc) : HasTop par.leq eqc n (m.concVM nc rv) := by
  intro c hc
  obtain ⟨-, k, hk, ek, htop⟩ := top_conc hl hpar hs hp c hc
  obtain ⟨t, ht, et, hall⟩ := he k hk
  refine ⟨t, cls_conc.mpr ⟨k, ht, ek⟩, ?_⟩
  intro v hv
  obtain ⟨k', hv', ek'⟩ := cls_conc.mp hv
  have hk' := level_range h v hv'.1 k' hv'.2
  obtain ⟨-, -, -, hall'⟩ := he k' hk'
  rw [et]
  exact hl.trans _ _ _ (hall' v hv') (htop k' hk' ek')

theorem eqOK_concProper {n : ℕ} {adj : ℕ → List ℕ} {el : ℕ → Prop} {par : Par} (hl : LeqOK par.leq)
    (hpar : par.trulyParallel = true) {m : LMap} {eqc : ℕ → ℕ} (he : EqOK par.leq eqc n m) (h : Level n adj el m)
    {vmap0 rv : ℕ → Option ℕ} {nc : ℕ}
    (hs : Star m.nc m.cadj (Comparable par m.cEq) (fun _ => True) vmap0 rv nc)
    (hp : Pairs m.nc (fun _ => True) rv nc) (cadj0 : ℕ → List ℕ) (cEq0 : ℕ → ℕ) :
    EqOK par.leq eqc n (m.concProper par.leq ((⟨m.nc, nc, rv, [], cadj0, cEq0⟩ : LMap).finishUp par.leq m.cadj none)) := by
  intro c hc
  have hcc : c < nc := hc
  have htr : TableOK m.nc nc rv (⟨m.nc, nc, rv, [], cadj0, cEq0⟩ : LMap).c2f := by
    unfold LMap.c2f
    split
    · exact c2fTable_ok _ _ _
    · rename_i hh
      have : nc = 0 := by simpa using (not_not.mp hh).symm
      subst this
      exact ⟨rfl, fun c hc => absurd hc (by simp)⟩
  obtain ⟨hch, k0, hk0, ek0, -⟩ := top_conc hl hpar hs hp c hcc
  show ∃ t, Cls n (concVMap m.vmap rv) c t ∧ eqc t = concEq par.leq m.cEq
    (((⟨m.nc, nc, rv, [], cadj0, cEq0⟩ : LMap).finishUp par.leq m.cadj none).c2f.getD c []) ∧
    ∀ v, Cls n (concVMap m.vmap rv) c v → par.leq (eqc v) (concEq par.leq m.cEq
    (((⟨m.nc, nc, rv, [], cadj0, cEq0⟩ : LMap).finishUp par.leq m.cadj none).c2f.getD c [])) = true
  rw [c2f_finishUp par.leq m.cadj none _ htr.1]
  obtain ⟨-, hrow⟩ := htr.2 c hcc
  generalize hr : (⟨m.nc, nc, rv, [], cadj0, cEq0⟩ : LMap).c2f.getD c [] = row at hrow ⊢
  obtain ⟨x, l, rfl⟩ : ∃ x l, row = x :: l := by
    cases row with
    | nil => exact absurd ((hrow k0).mpr ⟨hk0, ek0⟩) (by simp)
    | cons x l => exact ⟨x, l, rfl⟩
  have hmem : ∀ k ∈ x :: l, k < m.nc ∧ rv k = some c := fun k hk => (hrow k).mp hk
  have hcmp : ∀ v ∈ x :: l, ∀ w ∈ x :: l,
      par.leq (m.cEq v) (m.cEq w) = true ∨ par.leq (m.cEq w) (m.cEq v) = true :=
    fun v hv w hw => hch v w (hmem v hv).1 (hmem w hw).1 (hmem v hv).2 (hmem w hw).2
  obtain ⟨a, b, d⟩ := foldl_max_chain par.leq hl m.cEq
    (fun cur v => if par.leq cur (m.cEq v) = true then m.cEq v else cur)
    (by
      intro cur v hcv
      by_cases hh : par.leq cur (m.cEq v) = true
      · right; exact ⟨if_pos hh, hh⟩
      · left; exact ⟨if_neg hh, by tauto⟩)
    l (m.cEq x) (fun v hv => hcmp v (List.mem_cons_of_mem _ hv) x List.mem_cons_self)
    (fun v hv w hw => hcmp v (List.mem_cons_of_mem _ hv) w (List.mem_cons_of_mem _ hw))
  have hT : concEq par.leq m.cEq (x :: l) =
      l.foldl (fun cur v => if par.leq cur (m.cEq v) = true then m.cEq v else cur) (m.cEq x) := rfl
  rw [← hT] at a b d
  have hall : ∀ k ∈ x :: l, par.leq (m.cEq k) (concEq par.leq m.cEq (x :: l)) = true := by
    intro k hk
    rcases List.mem_cons.mp hk with rfl | hk
    · exact b
    · exact d k hk
  have hex : ∃ k ∈ x :: l, concEq par.leq m.cEq (x :: l) = m.cEq k := by
    rcases a with a | ⟨v, hv, a⟩
    · exact ⟨x, List.mem_cons_self, a⟩
    · exact ⟨v, List.mem_cons_of_mem _ hv, a⟩
  obtain ⟨k, hk, e⟩ := hex
  obtain ⟨t, ht, et, -⟩ := he k (hmem k hk).1
  refine ⟨t, cls_conc.mpr ⟨k, ht, (hmem k hk).2⟩, by rw [e]; exact et, ?_⟩
  intro v hv
  obtain ⟨k', hv', ek'⟩ := cls_conc.mp hv
  have hk' := level_range h v hv'.1 k' hv'.2
  obtain ⟨-, -, -, hall'⟩ := he k' hk'
  exact hl.trans _ _ _ (hall' v hv') (hall k' ((hrow k').mpr ⟨hk', ek'⟩))

end NgsAMG.SPW
