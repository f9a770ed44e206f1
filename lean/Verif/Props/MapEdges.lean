import Verif.Props.CoarseMap6
import Verif.Model.MapEdges

/-!
# C76: `MapEdges`: the loop over the first fine edges of the coarse edges
-/

namespace NgsAMG.CMap

open NgsAMG.EQC NgsAMG.RedTab NgsAMG.Exch NgsAMG.BTM

/-- the coarse edge of the fine edge number `e` -/
def keyOf (V : Env) (e : ℕ) : Option CInfo := ((V.E.nodes[e]?).bind (cinfo V)).join.map ordered

/-- what the loops of one process need: the coarse edges are found, `it_feids` lists the fine edges of a coarse edge -/
structure LocOK (V : Env) : Prop where
  info : ∀ e < V.E.nodes.length, ∃ o, (V.E.nodes[e]?).bind (cinfo V) = some o
  mem : ∀ x y f, x ≠ y → (f ∈ feids V x y ↔ ∃ i, keyOf V f = some i ∧ ((i.cv0 = x ∧ i.cv1 = y) ∨ (i.cv0 = y ∧ i.cv1 = x)))
  key : ∀ e f i j, keyOf V e = some i → keyOf V f = some j → i.cv0 = j.cv0 → i.cv1 = j.cv1 → i = j

/-- the edges that are the first of their coarse edge, with the coarse edge; without the coarse edges `D` -/
def firsts (K : ℕ → Option CInfo) : List CInfo → List (ℕ × ℕ) → List ((ℕ × ℕ) × CInfo)
  | _, [] => []
  | D, x :: l =>
    match K x.2 with
    | none => firsts K D l
    | some i => if i ∈ D then firsts K D l else (x, i) :: firsts K (i :: D) l

theorem specOf_same {V : Env} {k e : ℕ} (fs : List ℕ) (h : ∀ f ∈ fs, eqcOf V.E.dE V.E.dC f = some k ∧ e ≤ f) : specOf V (k, e) fs = some (k, e) := by
  induction fs with
  | nil => rfl
  | cons f fs ih =>
    obtain ⟨h1, h2⟩ := h f (by simp)
    rw [specOf, h1, Option.bind_some, if_pos rfl, show min (k, e).2 f = e from Nat.min_eq_left h2]
    exact ih fun g hg => h g (by simp [hg])

theorem cinfo_ne {V : Env} {e : ℕ × ℕ} {i : CInfo} (h : cinfo V e = some (some i)) : i.cv0 ≠ i.cv1 ∧ i.cross = decide (i.q0 ≠ i.q1) := by
  unfold cinfo at h
  obtain ⟨a, -, h⟩ := Option.bind_eq_some_iff.mp h
  obtain ⟨b, -, h⟩ := Option.bind_eq_some_iff.mp h
  split at h
  · split at h
    · simp at h
    · obtain ⟨q0, -, h⟩ := Option.bind_eq_some_iff.mp h
      obtain ⟨q1, -, h⟩ := Option.bind_eq_some_iff.mp h
      obtain ⟨q, -, h⟩ := Option.map_eq_some_iff.mp h
      cases h
      exact ⟨by assumption, rfl⟩
  · simp at h

theorem keyOf_lt {V : Env} {e : ℕ} {i : CInfo} (h : keyOf V e = some i) : e < V.E.nodes.length := by
  by_contra hn
  unfold keyOf at h
  rw [List.getElem?_eq_none (by omega)] at h
  simp at h

theorem ordered_lt {i : CInfo} (h : i.cv0 ≠ i.cv1) : (ordered i).cv0 < (ordered i).cv1 := by
  unfold ordered
  split
  · assumption
  · omega

theorem keyOf_cv {V : Env} {e : ℕ} {i : CInfo} (h : keyOf V e = some i) : i.cv0 < i.cv1 := by
  unfold keyOf at h
  obtain ⟨j, h1, rfl⟩ := Option.map_eq_some_iff.mp h
  rw [Option.join_eq_some_iff] at h1
  obtain ⟨n, -, h2⟩ := Option.bind_eq_some_iff.mp h1
  exact ordered_lt (cinfo_ne h2).1

section
variable {V : Env} (hV : LocOK V)
include hV

theorem feids_key {e f : ℕ} {i : CInfo} (he : keyOf V e = some i) : f ∈ feids V i.cv0 i.cv1 ↔ keyOf V f = some i := by
  have hlt := keyOf_cv he
  rw [hV.mem _ _ _ (by omega)]
  constructor
  · rintro ⟨j, h1, h2⟩
    have := keyOf_cv h1
    rw [h1, hV.key e f i j he h1 (by omega) (by omega)]
  · intro h
    exact ⟨i, h, Or.inl ⟨rfl, rfl⟩⟩

theorem feids_ordered {e f : ℕ} {j : CInfo} (hne : j.cv0 ≠ j.cv1) (he : keyOf V e = some (ordered j)) : f ∈ feids V j.cv0 j.cv1 ↔ keyOf V f = some (ordered j) := by
  rw [← feids_key hV he]
  unfold ordered
  split
  · rw [hV.mem _ _ _ hne, hV.mem _ _ _ (Ne.symm hne)]
    simp only [or_comm]
  · rfl

/-- **the loop** calls the callback for the first edge of every coarse edge, except those that are done -/
theorem itEs_eq {σ : Type} (om : Bool) (check : σ → ℕ → Bool) (lam : σ → ℕ → ℕ → CInfo → List ℕ → Option σ) (J : (ℕ → Bool) → σ → List CInfo → Prop)
    (hJ1 : ∀ m st D e i, J m st D → keyOf V e = some i → ((!m e && check st e) = true ↔ i ∉ D))
    (hJ2 : ∀ m st D e k i st' m', J m st D → i ∉ D → keyOf V e = some i → lam st e k i (feids V i.cv0 i.cv1) = some st' →
      (∀ f, m' f = true ↔ m f = true ∨ keyOf V f = some i) → J m' st' (i :: D))
    (l : List (ℕ × ℕ)) (D : List CInfo) (s : ISt σ) (hl : ∀ x ∈ l, x.2 < V.E.nodes.length) (hs : J s.mark s.st D)
    (hcls : om = true → ∀ x ∈ l, ∀ i, keyOf V x.2 = some i → i ∉ D → ∀ f, keyOf V f = some i → eqcOf V.E.dE V.E.dC f = some x.1)
    (hrest : om = true → ∀ f i, keyOf V f = some i → i ∉ D → ∃ k, (k, f) ∈ l)
    (hord : om = true → l.Pairwise fun a b => a.1 = b.1 → a.2 < b.2) :
    (itEs V om check lam s l).map (·.st) = (firsts (keyOf V) D l).foldlM (fun st x => lam st x.1.2 x.1.1 x.2 (feids V x.2.cv0 x.2.cv1)) s.st := by
  induction l generalizing D s with
  | nil => rfl
  | cons x l ih =>
    obtain ⟨o, ho⟩ := hV.info x.2 (hl x (by simp))
    obtain ⟨nd, hnd, hco⟩ := Option.bind_eq_some_iff.mp ho
    have hk : keyOf V x.2 = o.map ordered := by unfold keyOf; rw [ho]; rfl
    have hl' : ∀ y ∈ l, y.2 < V.E.nodes.length := fun y hy => hl y (by simp [hy])
    have hcls' : ∀ D', D ⊆ D' → (om = true → ∀ y ∈ l, ∀ i, keyOf V y.2 = some i → i ∉ D' → ∀ f, keyOf V f = some i → eqcOf V.E.dE V.E.dC f = some y.1) :=
      fun D' hD ho y hy i hi hn => hcls ho y (by simp [hy]) i hi fun h => hn (hD h)
    have hord' : om = true → l.Pairwise fun a b => a.1 = b.1 → a.2 < b.2 := fun h => (List.pairwise_cons.mp (hord h)).2
    unfold itEs
    rw [List.foldlM_cons]
    cases o with
    | none =>
      rw [Option.map_none] at hk
      have hw : wrapE V om check lam s x = some s := by
        unfold wrapE
        split
        · rw [hnd, Option.bind_some, hco, Option.bind_some]
        · rfl
      rw [hw]
      have hf : firsts (keyOf V) D (x :: l) = firsts (keyOf V) D l := by rw [firsts, hk]
      rw [hf]
      refine ih D s hl' hs (hcls' D fun _ h => h) (fun h f i hi hn => ?_) hord'
      obtain ⟨k, hkf⟩ := hrest h f i hi hn
      rcases List.mem_cons.mp hkf with rfl | hkf
      · rw [hk] at hi; simp at hi
      · exact ⟨k, hkf⟩
    | some j =>
      rw [Option.map_some] at hk
      have hne := (cinfo_ne hco).1
      by_cases hD : ordered j ∈ D
      · have hw : wrapE V om check lam s x = some s := by
          unfold wrapE
          rw [if_neg]
          intro h
          exact (hJ1 s.mark s.st D x.2 _ hs hk).mp h hD
        rw [hw]
        have hf : firsts (keyOf V) D (x :: l) = firsts (keyOf V) D l := by rw [firsts, hk]; simp only [hD, if_true]
        rw [hf]
        refine ih D s hl' hs (hcls' D fun _ h => h) (fun h f i hi hn => ?_) hord'
        obtain ⟨k, hkf⟩ := hrest h f i hi hn
        rcases List.mem_cons.mp hkf with rfl | hkf
        · rw [hk] at hi; cases hi; exact absurd hD hn
        · exact ⟨k, hkf⟩
      · have hf : firsts (keyOf V) D (x :: l) = (x, ordered j) :: firsts (keyOf V) (ordered j :: D) l := by
          rw [firsts, hk]; simp only [hD, if_false]
        rw [hf, List.foldlM_cons]
        have hc := (hJ1 s.mark s.st D x.2 _ hs hk).mpr hD
        -- the designated edge is this edge
        have hspec : (if (om && decide (0 < j.cls) && !s.desig x.2) = true then specOf V x (feids V j.cv0 j.cv1) else some x) = some x := by
          split
          · rename_i hlook
            have hom : om = true := by
              revert hlook; cases om <;> simp
            refine specOf_same (k := x.1) (e := x.2) _ fun f hfm => ?_
            have hkf := (feids_ordered hV hne hk).mp hfm
            have h1 := hcls hom x (by simp) _ hk hD f hkf
            refine ⟨h1, ?_⟩
            obtain ⟨k, hkl⟩ := hrest hom f _ hkf hD
            rcases List.mem_cons.mp hkl with rfl | hkl
            · exact le_rfl
            · have h2 := hcls hom (k, f) (by simp [hkl]) _ hkf hD f hkf
              rw [h1] at h2
              cases h2
              exact le_of_lt ((List.pairwise_cons.mp (hord hom)).1 _ hkl rfl)
          · rfl
        have hw : wrapE V om check lam s x = (lam s.st x.2 x.1 (ordered j) (feids V (ordered j).cv0 (ordered j).cv1)).map fun st =>
            ⟨markAll (if (om && decide (0 < j.cls) && !s.desig x.2) = true then markAll s.mark (feids V j.cv0 j.cv1) else s.mark)
              (feids V (ordered j).cv0 (ordered j).cv1), s.desig, st⟩ := by
          unfold wrapE
          rw [if_pos hc, hnd, Option.bind_some, hco, Option.bind_some]
          dsimp only
          rw [hspec, Option.bind_some, if_neg (by simp)]
        rw [hw]
        cases hlam : lam s.st x.2 x.1 (ordered j) (feids V (ordered j).cv0 (ordered j).cv1) with
        | none => rfl
        | some st' =>
          rw [Option.map_some]
          show ((some _ : Option (ISt σ)).bind _).map _ = (some st').bind _
          rw [Option.bind_some, Option.bind_some]
          refine ih (ordered j :: D) _ hl' ?_ (hcls' _ fun _ h => List.mem_cons_of_mem _ h) (fun h f i hi hn => ?_) hord'
          · refine hJ2 s.mark s.st D x.2 x.1 (ordered j) st' _ hs hD hk hlam fun f => ?_
            unfold markAll
            rw [Bool.or_eq_true, List.contains_iff_mem, feids_key hV hk]
            split
            · rw [Bool.or_eq_true, List.contains_iff_mem, feids_ordered hV hne hk]
              tauto
            · rfl
          · obtain ⟨k, hkf⟩ := hrest h f i hi fun h => hn (by simp [h])
            rcases List.mem_cons.mp hkf with rfl | hkf
            · rw [hk] at hi; cases hi; simp at hn
            · exact ⟨k, hkf⟩

end

/-! ### the first edges -/

section
variable (K : ℕ → Option CInfo)

theorem firsts_mem {D : List CInfo} {l : List (ℕ × ℕ)} {y : (ℕ × ℕ) × CInfo} (h : y ∈ firsts K D l) : y.1 ∈ l ∧ K y.1.2 = some y.2 ∧ y.2 ∉ D := by
  induction l generalizing D with
  | nil => simp [firsts] at h
  | cons x l ih =>
    rw [firsts] at h
    split at h
    · obtain ⟨h1, h2⟩ := ih h
      exact ⟨by simp [h1], h2⟩
    · rename_i i hi
      split at h
      · obtain ⟨h1, h2⟩ := ih h
        exact ⟨by simp [h1], h2⟩
      · rename_i hD
        rcases List.mem_cons.mp h with rfl | h
        · exact ⟨by simp, hi, hD⟩
        · obtain ⟨h1, h2, h3⟩ := ih h
          exact ⟨by simp [h1], h2, fun h => h3 (by simp [h])⟩

theorem firsts_nodup (D : List CInfo) (l : List (ℕ × ℕ)) : ((firsts K D l).map Prod.snd).Nodup := by
  induction l generalizing D with
  | nil => simp [firsts]
  | cons x l ih =>
    rw [firsts]
    split
    · exact ih D
    · split
      · exact ih D
      · rw [List.map_cons, List.nodup_cons]
        refine ⟨?_, ih _⟩
        intro h
        obtain ⟨y, hy, hyi⟩ := List.mem_map.mp h
        exact (firsts_mem K hy).2.2 (by simp [hyi])

theorem firsts_cover {D : List CInfo} {l : List (ℕ × ℕ)} {x : ℕ × ℕ} {i : CInfo} (hx : x ∈ l) (hi : K x.2 = some i) (hD : i ∉ D) :
    ∃ y, (y, i) ∈ firsts K D l := by
  induction l generalizing D with
  | nil => simp at hx
  | cons a l ih =>
    rw [firsts]
    rcases List.mem_cons.mp hx with rfl | hx
    · rw [hi]
      simp only [hD, if_false]
      exact ⟨x, by simp⟩
    · split
      · exact ih hx hD
      · rename_i j hj
        split
        · exact ih hx hD
        · by_cases hij : i = j
          · subst hij; exact ⟨a, by simp⟩
          · obtain ⟨y, hy⟩ := ih (D := j :: D) hx (by simp [hij, hD])
            exact ⟨y, by simp [hy]⟩

/-- a first edge is before all others of its coarse edge -/
theorem firsts_first {R : ℕ × ℕ → ℕ × ℕ → Prop} (hR : ∀ a, R a a) {D : List CInfo} {l : List (ℕ × ℕ)} (hl : l.Pairwise R) {y : (ℕ × ℕ) × CInfo}
    (h : y ∈ firsts K D l) {x : ℕ × ℕ} (hx : x ∈ l) (hi : K x.2 = some y.2) : R y.1 x := by
  induction l generalizing D with
  | nil => simp at hx
  | cons a l ih =>
    obtain ⟨h1, h2⟩ := List.pairwise_cons.mp hl
    rw [firsts] at h
    split at h
    · rename_i hn
      rcases List.mem_cons.mp hx with rfl | hx
      · rw [hn] at hi; simp at hi
      · exact ih h2 h hx
    · rename_i i hia
      split at h
      · rename_i hD
        rcases List.mem_cons.mp hx with rfl | hx
        · rw [hia] at hi; cases hi
          exact absurd hD (firsts_mem K h).2.2
        · exact ih h2 h hx
      · rcases List.mem_cons.mp h with rfl | h'
        · rcases List.mem_cons.mp hx with rfl | hx
          · exact hR _
          · exact h1 _ hx
        · rcases List.mem_cons.mp hx with rfl | hx
          · rw [hia] at hi
            have h3 := (firsts_mem K h').2.2
            rw [Option.some.inj hi] at h3
            simp at h3
          · exact ih h2 h' hx

/-- the order of the done edges does not matter -/
theorem firsts_congr (m : List (ℕ × ℕ)) (A B : List CInfo) (hAB : ∀ c, c ∈ A ↔ c ∈ B) : firsts K A m = firsts K B m := by
  induction m generalizing A B with
  | nil => rfl
  | cons z m ihm =>
    rw [firsts, firsts]
    cases K z.2 with
    | none => exact ihm A B hAB
    | some c =>
      dsimp only
      by_cases hc : c ∈ A
      · rw [if_pos hc, if_pos ((hAB c).mp hc), ihm A B hAB]
      · rw [if_neg hc, if_neg (mt (hAB c).mpr hc), ihm (c :: A) (c :: B) (by simp [hAB])]

/-- restriction to some coarse edges -/
theorem firsts_filter (P : CInfo → Bool) (D : List CInfo) (l : List (ℕ × ℕ)) :
    (firsts K D l).filter (fun y => P y.2) = firsts K D (l.filter fun x => (K x.2).any P) := by
  have aux : ∀ (l : List (ℕ × ℕ)) (D : List CInfo) (j : CInfo), P j = false →
      firsts K (j :: D) (l.filter fun x => (K x.2).any P) = firsts K D (l.filter fun x => (K x.2).any P) := by
    intro l
    induction l with
    | nil => intro D j _; rfl
    | cons x l ih =>
      intro D j hj
      rw [List.filter_cons]
      split
      · rename_i hx
        rw [firsts, firsts]
        cases hi : K x.2 with
        | none => exact ih D j hj
        | some i =>
          rw [hi] at hx
          have hij : i ≠ j := by rintro rfl; simp [hj] at hx
          dsimp only
          have : i ∈ j :: D ↔ i ∈ D := by simp [hij]
          by_cases hD : i ∈ D
          · rw [if_pos (this.mpr hD), if_pos hD, ih D j hj]
          · rw [if_neg (mt this.mp hD), if_neg hD]
            congr 1
            rw [firsts_congr K _ (i :: j :: D) (j :: i :: D) (by intro c; simp only [List.mem_cons]; tauto), ih (i :: D) j hj]
      · exact ih D j hj
  induction l generalizing D with
  | nil => rfl
  | cons x l ih =>
    rw [firsts, List.filter_cons]
    cases hi : K x.2 with
    | none =>
      simp only [Option.any_none, Bool.false_eq_true, if_false]
      exact ih D
    | some i =>
      simp only [Option.any_some]
      by_cases hP : P i = true
      · rw [if_pos hP, firsts, hi]
        dsimp only
        split
        · exact ih D
        · rw [List.filter_cons, if_pos hP, ih]
      · rw [if_neg hP]
        split
        · exact ih D
        · rw [List.filter_cons, if_neg hP, ih, aux l D i (by simpa using hP)]

/-- the done edges are left out -/
theorem firsts_done (D : List CInfo) (l : List (ℕ × ℕ)) : firsts K D l = (firsts K [] l).filter fun y => y.2 ∉ D := by
  have key : ∀ (l : List (ℕ × ℕ)) (D B : List CInfo), firsts K (B ++ D) l = (firsts K B l).filter fun y => y.2 ∉ D := by
    intro l
    induction l with
    | nil => intros; rfl
    | cons x l ih =>
      intro D B
      rw [firsts, firsts]
      cases K x.2 with
      | none => exact ih D B
      | some i =>
        dsimp only
        by_cases hB : i ∈ B
        · rw [if_pos (by simp [hB]), if_pos hB, ih]
        · rw [if_neg hB, List.filter_cons]
          by_cases hD : i ∈ D
          · have hstep := ih D (i :: B)
            rw [if_pos (by simp [hD]), if_neg (by simp [hD]), ← hstep]
            refine firsts_congr K l _ _ fun c => ?_
            simp only [List.mem_append, List.mem_cons]
            constructor
            · tauto
            · rintro ((rfl | h) | h)
              · exact Or.inr hD
              · exact Or.inl h
              · exact Or.inr h
          · rw [if_neg (by simp [hB, hD]), if_pos (by simp [hD]), ← ih D (i :: B)]
            rfl
  have := key l D []
  rwa [List.nil_append] at this

/-- two loops over edges with the same coarse edges -/
theorem firsts_rel {K' : ℕ → Option CInfo} {S : CInfo → CInfo → Prop} (hS : ∀ i j i' j', S i i' → S j j' → (i = j ↔ i' = j'))
    {l l' : List (ℕ × ℕ)} (h : List.Forall₂ (fun x x' => (K x.2 = none ∧ K' x'.2 = none) ∨ ∃ i i', K x.2 = some i ∧ K' x'.2 = some i' ∧ S i i') l l')
    {D D' : List CInfo} (hD : List.Forall₂ S D D') :
    List.Forall₂ (fun y y' => S y.2 y'.2) (firsts K D l) (firsts K' D' l') := by
  induction h generalizing D D' with
  | nil => exact List.Forall₂.nil
  | @cons x x' l l' hx _ ih =>
    rw [firsts, firsts]
    rcases hx with ⟨h1, h2⟩ | ⟨i, i', h1, h2, h3⟩
    · rw [h1, h2]; exact ih hD
    · rw [h1, h2]
      dsimp only
      have : i ∈ D ↔ i' ∈ D' := by
        clear ih
        induction hD with
        | nil => simp
        | cons h _ ih => rw [List.mem_cons, List.mem_cons, ih, hS _ _ _ _ h3 h]
      by_cases hi : i ∈ D
      · rw [if_pos hi, if_pos (this.mp hi)]; exact ih hD
      · rw [if_neg hi, if_neg (mt this.mpr hi)]
        exact List.Forall₂.cons h3 (ih (List.Forall₂.cons h3 hD))

end

end NgsAMG.CMap
