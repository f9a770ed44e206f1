import Verif.Props.EQC
import Verif.Props.Exchange

/-!
# Properties of the equivalence-class hierarchy, part 2: the closed families of all processes (C57)
-/

namespace NgsAMG.EQC

open NgsAMG.Exch NgsAMG.DCC

theorem mem_vExps (V : List (List ℕ)) (q : ℕ) : q ∈ vExps V ↔ ∃ v ∈ V, q ∈ v := by
  unfold vExps
  rw [List.mem_insertionSort, List.mem_dedup, List.mem_flatten]

theorem sortEqcs_perm (F : List (List ℕ)) : (sortEqcs F).Perm F := List.perm_insertionSort _ _

/-- the messages of the processes `L` -/
theorem foldl_messages {np p : ℕ} (N : ℕ → List (List ℕ)) (hN : ∀ q < np, ∀ d ∈ N q, Valid np q d) (L : List ℕ)
    (hL : ∀ q ∈ L, q < np) :
    ∀ F, FamOK np p F → ∃ F', L.foldlM (fun F q => addMessage p q F (encode ((N q).filter fun d => d.contains p))) F = some F' ∧
      FamOK np p F' ∧ F <+: F' ∧ (∀ q ∈ L, ∀ d ∈ N q, p ∈ d → Has p F' (members q d)) ∧
      (∀ e ∈ F', e ∈ F ∨ ∃ q ∈ L, ∃ d ∈ N q, p ∈ d ∧ members p e = members q d) := by
  induction L with
  | nil => intro F hF; exact ⟨F, rfl, hF, List.prefix_refl _, by simp, fun e he => Or.inl he⟩
  | cons q L ih =>
    intro F hF
    have hq := hL q (by simp)
    obtain ⟨F1, e1, h1, p1, m1, a1⟩ := foldl_received (q := p) hq ((N q).filter fun d => d.contains p)
      (fun d hd => by
        rw [List.mem_filter] at hd
        exact ⟨hN q hq d hd.1, by simpa using hd.2⟩) F hF
    obtain ⟨F2, e2, h2, p2, m2, a2⟩ := ih (fun x hx => hL x (by simp [hx])) F1 h1
    refine ⟨F2, ?_, h2, p1.trans p2, ?_, ?_⟩
    · rw [List.foldlM_cons, addMessage_encode, e1]; exact e2
    · intro x hx d hd hpd
      rcases List.mem_cons.mp hx with rfl | hx
      · obtain ⟨e, he, hme⟩ := m1 d (List.mem_filter.mpr ⟨hd, by simpa using hpd⟩)
        exact ⟨e, p2.subset he, hme⟩
      · exact m2 x hx d hd hpd
    · intro e he
      rcases a2 e he with h | ⟨x, hx, d, hd, hpd, hme⟩
      · rcases a1 e h with h | ⟨d, hd, hme⟩
        · exact Or.inl h
        · rw [List.mem_filter] at hd
          exact Or.inr ⟨q, by simp, d, hd.1, by simpa using hd.2, hme⟩
      · exact Or.inr ⟨x, by simp [hx], d, hd, hpd, hme⟩

theorem foldlM_congr' {α β : Type} (f g : β → α → Option β) (l : List α) (b : β) (h : ∀ a ∈ l, ∀ b, f b a = g b a) :
    l.foldlM f b = l.foldlM g b := by
  induction l generalizing b with
  | nil => rfl
  | cons a l ih =>
    rw [List.foldlM_cons, List.foldlM_cons, h a (by simp)]
    congr 1
    funext c
    exact ih c fun x hx => h x (by simp [hx])

/-- what the setup gives on one process, given the result on all processes -/
structure Closed (np : ℕ) (V : List (List ℕ)) (p : ℕ) (T : List (List ℕ)) : Prop where
  ok : FamOK np p T
  given : ∀ d ∈ V, d ∈ T
  inter : ∀ d ∈ T, ∀ e ∈ T, ∃ c ∈ T, members p c = members p d ∩ members p e
  union : ∀ d ∈ V, ∀ e ∈ V, ∀ f ∈ V, members p d ∪ members p e ⊆ members p f → ∃ c ∈ T, members p c = members p d ∪ members p e
  below : ∀ d ∈ T, ∃ v ∈ V, members p d ⊆ members p v

section
variable {np : ℕ} {V : ℕ → List (List ℕ)} (hV : ∀ p < np, FamOK np p (V p)) (hC : Consistent np V) {fuel : ℕ}
  (hf : 2 ^ np + 1 ≤ fuel)
include hV hC hf

/-- the families before the intersections -/
theorem exchange_spec :
    ∃ F1 : ℕ → List (List ℕ), ∀ p < np, FamOK np p (F1 p) ∧ V p <+: F1 p ∧
      closedTable fuel V p = (interLoop fuel fuel (F1 p)).map sortEqcs ∧
      (∀ S, Has p (F1 p) S → ∀ q ∈ S, q < np ∧ Has q (F1 q) S) ∧
      (∀ d ∈ V p, ∀ e ∈ V p, ∀ f ∈ V p, members p d ∪ members p e ⊆ members p f → Has p (F1 p) (members p d ∪ members p e)) ∧
      ∀ S, Has p (F1 p) S → ∃ v ∈ V p, S ⊆ members p v := by
  have hU' : ∀ p, ∃ F, p < np → unionLoop fuel (V p) = some F ∧ UInv np p (V p) F ∧
      ∀ d ∈ F, ∀ e ∈ F, ∀ f ∈ F, members p d ∪ members p e ⊆ members p f → ∃ c ∈ F, members p c = members p d ∪ members p e := by
    intro p
    by_cases hp : p < np
    · obtain ⟨F, h⟩ := unionLoop_spec (hV p hp) fuel hf
      exact ⟨F, fun _ => h⟩
    · exact ⟨[], fun h => absurd h hp⟩
  choose U hU' using hU'
  have hU : ∀ p < np, unionLoop fuel (V p) = some (U p) ∧ UInv np p (V p) (U p) := fun p hp => ⟨(hU' p hp).1, (hU' p hp).2.1⟩
  let N : ℕ → List (List ℕ) := fun q => (U q).drop (V q).length
  have hN : ∀ q < np, ∀ d ∈ N q, Valid np q d := fun q hq d hd => (hU q hq).2.ok.2 d (List.mem_of_mem_drop hd)
  have hexp : ∀ p < np, ∀ q ∈ vExps (V p), q < np ∧ p ∈ vExps (V q) := by
    intro p hp q hq
    obtain ⟨v, hv, hqv⟩ := (mem_vExps _ _).mp hq
    refine ⟨((hV p hp).2 v hv).range q hqv, ?_⟩
    obtain ⟨e, he, hme⟩ := hC p hp v hv q hqv
    refine (mem_vExps _ _).mpr ⟨e, he, ?_⟩
    have : p ∈ members q e := by rw [hme]; exact mem_members.mpr (Or.inl rfl)
    rcases mem_members.mp this with h | h
    · subst h; exact absurd hqv ((hV p hp).2 v hv).notSelf
    · exact h
  have hX : ∀ p, ∃ F, p < np → (vExps (V p)).foldlM
      (fun F q => addMessage p q F (encode ((N q).filter fun d => d.contains p))) (U p) = some F ∧
      FamOK np p F ∧ U p <+: F ∧ (∀ q ∈ vExps (V p), ∀ d ∈ N q, p ∈ d → Has p F (members q d)) ∧
      (∀ e ∈ F, e ∈ U p ∨ ∃ q ∈ vExps (V p), ∃ d ∈ N q, p ∈ d ∧ members p e = members q d) := by
    intro p
    by_cases hp : p < np
    · obtain ⟨F, h⟩ := foldl_messages N hN (vExps (V p)) (fun q hq => (hexp p hp q hq).1) (U p) (hU p hp).2.ok
      exact ⟨F, fun _ => h⟩
    · exact ⟨[], fun h => absurd h hp⟩
  choose F1 hX using hX
  refine ⟨F1, fun p hp => ?_⟩
  obtain ⟨e1, h1, p1, m1, a1⟩ := hX p hp
  refine ⟨h1, (hU p hp).2.pre.trans p1, ?_, ?_, ?_, ?_⟩
  · unfold closedTable newEqcPhase
    dsimp only
    rw [show (initState fuel V p).fam = some (U p) from (hU p hp).1, Option.bind_some]
    congr 1
    have : (vExps (V p)).foldlM (fun F q => addMessage p q F
        (if (vExps (V p)).contains q = true then
          encode ((((initState fuel V q).fam.getD []).drop (V q).length).filter fun d => d.contains p) else default)) (U p) =
        some (F1 p) := by
      rw [← e1]
      refine foldlM_congr' _ _ _ _ ?_
      intro q hq F
      rw [if_pos (by simpa using hq)]
      rw [show (initState fuel V q).fam = some (U q) from (hU q (hexp p hp q hq).1).1]
      rfl
    rw [this, Option.bind_some]
  · -- consistency of the families before the intersections
    have hiff : ∀ p < np, ∀ S, Has p (F1 p) S ↔ Has p (V p) S ∨ (p ∈ S ∧ ∃ q < np, Has q (N q) S) := by
      intro p hp S
      obtain ⟨e1, h1, p1, m1, a1⟩ := hX p hp
      have hUV : ∀ d, d ∈ U p ↔ d ∈ V p ∨ d ∈ N p := by
        intro d
        obtain ⟨t, ht⟩ := (hU p hp).2.pre
        have : N p = t := by
          show (U p).drop (V p).length = t
          rw [← ht]; exact List.drop_left
        rw [this, ← ht, List.mem_append]
      constructor
      · rintro ⟨e, he, rfl⟩
        rcases a1 e he with h | ⟨q, hq, d, hd, hpd, hme⟩
        · rcases (hUV e).mp h with h | h
          · exact Or.inl ⟨e, h, rfl⟩
          · exact Or.inr ⟨mem_members.mpr (Or.inl rfl), p, hp, e, h, rfl⟩
        · exact Or.inr ⟨mem_members.mpr (Or.inl rfl), q, (hexp p hp q hq).1, d, hd, hme.symm⟩
      · rintro (⟨d, hd, rfl⟩ | ⟨hpS, q, hq, d, hd, rfl⟩)
        · exact ⟨d, p1.subset ((hUV d).mpr (Or.inl hd)), rfl⟩
        · by_cases hpq : p = q
          · subst hpq
            exact ⟨d, p1.subset ((hUV d).mpr (Or.inr hd)), rfl⟩
          · have hpd : p ∈ d := by
              rcases mem_members.mp hpS with h | h
              · exact absurd h hpq
              · exact h
            refine m1 q ?_ d hd hpd
            obtain ⟨v, hv, hpv⟩ := (hU q hq).2.within d (List.mem_of_mem_drop hd) p hpd
            exact (hexp q hq p ((mem_vExps _ _).mpr ⟨v, hv, hpv⟩)).2
    intro S hS q hqS
    have hqn : q < np := by
      obtain ⟨e, he, rfl⟩ := hS
      rcases mem_members.mp hqS with rfl | h
      · exact hp
      · exact (h1.2 e he).range q h
    refine ⟨hqn, ?_⟩
    rw [hiff q hqn]
    rcases (hiff p hp S).mp hS with ⟨d, hd, rfl⟩ | ⟨-, h⟩
    · rcases mem_members.mp hqS with rfl | h
      · exact Or.inl ⟨d, hd, rfl⟩
      · exact Or.inl (hC p hp d hd q h)
    · exact Or.inr ⟨hqS, h⟩
  · intro d hd e he f hf hsub
    have hin : ∀ x ∈ V p, x ∈ U p := fun x hx => (hU p hp).2.pre.subset hx
    obtain ⟨c, hc, hcm⟩ := (hU' p hp).2.2 d (hin d hd) e (hin e he) f (hin f hf) hsub
    exact ⟨c, p1.subset hc, hcm⟩
  · rintro S ⟨e, he, rfl⟩
    have mono : ∀ (r : ℕ) (d v : List ℕ), (∀ x ∈ d, x ∈ v) → members r d ⊆ members r v := by
      intro r d v h x hx
      rcases mem_members.mp hx with h' | h'
      · exact mem_members.mpr (Or.inl h')
      · exact mem_members.mpr (Or.inr (h x h'))
    rcases a1 e he with h | ⟨q, hq, d, hd, hpd, hme⟩
    · obtain ⟨v, hv, hs⟩ := (hU p hp).2.below e h
      exact ⟨v, hv, mono p e v hs⟩
    · have hqn := (hexp p hp q hq).1
      obtain ⟨v, hv, hs⟩ := (hU q hqn).2.below d (List.mem_of_mem_drop hd)
      obtain ⟨w, hw, hwm⟩ := hC q hqn v hv p (hs p hpd)
      exact ⟨w, hw, by rw [hwm, hme]; exact mono q d v hs⟩

/-- C57: closing the families of classes never fails, whatever the given classes are (as long as the processes agree on them). On every
process the result contains the given classes and those unions of two of them that are below a given class, is closed under
intersections, has no duplicates, no class that is not below a given one, and the processes still
agree: a class known to one of its processes is known to all of them. -/
theorem closedTable_spec :
    ∃ T : ℕ → List (List ℕ), (∀ p < np, closedTable fuel V p = some (T p) ∧ Closed np (V p) p (T p)) ∧ Consistent np T := by
  have hpos := Nat.one_le_two_pow (n := np)
  obtain ⟨F1, hF1⟩ := exchange_spec hV hC hf
  have hR : ∀ p, ∃ R, p < np → interLoop fuel fuel (F1 p) = some R ∧ FamOK np p R ∧ F1 p <+: R ∧
      (∀ d ∈ R, Gen (Has p (F1 p)) (members p d)) ∧ ∀ d ∈ R, ∀ e ∈ R, Has p R (members p d ∩ members p e) := by
    intro p
    by_cases hp : p < np
    · obtain ⟨R, h⟩ := interLoop_spec (p := p) (B := Has p (F1 p)) fuel hf fuel (F1 p) (hF1 p hp).1
        (fun d hd => Gen.base ⟨d, hd, rfl⟩) (by omega) (by omega)
      exact ⟨R, fun _ => h⟩
    · exact ⟨[], fun h => absurd h hp⟩
  choose R hR using hR
  have hgen : ∀ p < np, ∀ S, Gen (Has p (F1 p)) S → ∀ q ∈ S, q < np ∧ Gen (Has q (F1 q)) S := by
    intro p hp S hS
    induction hS with
    | base h =>
      intro q hq
      exact ⟨((hF1 p hp).2.2.2.1 _ h q hq).1, Gen.base ((hF1 p hp).2.2.2.1 _ h q hq).2⟩
    | inter _ _ ih1 ih2 =>
      intro q hq
      rw [Finset.mem_inter] at hq
      exact ⟨(ih1 q hq.1).1, Gen.inter (ih1 q hq.1).2 (ih2 q hq.2).2⟩
  have hhas : ∀ p < np, ∀ S, Gen (Has p (F1 p)) S → Has p (R p) S := by
    intro p hp S hS
    obtain ⟨-, -, h3, -, h5⟩ := hR p hp
    induction hS with
    | base h => obtain ⟨d, hd, e⟩ := h; exact ⟨d, h3.subset hd, e⟩
    | inter _ _ ih1 ih2 =>
      obtain ⟨d, hd, rfl⟩ := ih1
      obtain ⟨e, he, rfl⟩ := ih2
      exact h5 d hd e he
  have hmem : ∀ p d, d ∈ sortEqcs (R p) ↔ d ∈ R p := fun p d => (sortEqcs_perm (R p)).mem_iff
  refine ⟨fun p => sortEqcs (R p), fun p hp => ?_, ?_⟩
  · obtain ⟨h1, h2, h3, h4, h5⟩ := hR p hp
    refine ⟨by rw [(hF1 p hp).2.2.1, h1]; rfl, ⟨(sortEqcs_perm _).nodup_iff.mpr h2.1, fun d hd => h2.2 d ((hmem p d).mp hd)⟩, ?_, ?_, ?_, ?_⟩
    · intro d hd
      exact (hmem p d).mpr (h3.subset ((hF1 p hp).2.1.subset hd))
    · intro d hd e he
      obtain ⟨c, hc, hce⟩ := h5 d ((hmem p d).mp hd) e ((hmem p e).mp he)
      exact ⟨c, (hmem p c).mpr hc, hce⟩
    · intro d hd e he f hf hsub
      obtain ⟨c, hc, hcm⟩ := (hF1 p hp).2.2.2.2.1 d hd e he f hf hsub
      exact ⟨c, (hmem p c).mpr (h3.subset hc), hcm⟩
    · intro d hd
      have hg := h4 d ((hmem p d).mp hd)
      generalize members p d = S at hg
      induction hg with
      | base h => exact (hF1 p hp).2.2.2.2.2 _ h
      | inter _ _ ih1 _ =>
        obtain ⟨v, hv, hs⟩ := ih1
        exact ⟨v, hv, Finset.inter_subset_left.trans hs⟩
  · intro p hp d hd q hq
    obtain ⟨h1, h2, h3, h4, h5⟩ := hR p hp
    obtain ⟨hqn, hg⟩ := hgen p hp _ (h4 d ((hmem p d).mp hd)) q (mem_members.mpr (Or.inr hq))
    obtain ⟨e, he, hme⟩ := hhas q hqn _ hg
    exact ⟨e, (hmem q e).mpr he, hme⟩

end

end NgsAMG.EQC
