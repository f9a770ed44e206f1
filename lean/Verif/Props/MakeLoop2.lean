import Verif.Props.MakeLoop1
import Mathlib.Data.Nat.Find
import Mathlib.Tactic.Push

/-!
# C108: every facet is in the loops of exactly one process
-/

namespace NgsAMG.FLoop

/-- the meshes of `np` processes are parts of one mesh: facets and nodes of the potential space have global names, the distant processes of a facet are
the other processes with that facet in increasing order, and if a facet contains a node it does so on every process -/
structure DistMesh (dim3 : Bool) (np : ℕ) (m : ℕ → LMesh) (nFacet : ℕ → ℕ) (fname pname : ℕ → ℕ → ℕ) : Prop where
  ok : ∀ p < np, MeshOk dim3 (m p) (nFacet p)
  rank : ∀ p < np, (m p).rank = p
  inj : ∀ p < np, ∀ f < nFacet p, ∀ f' < nFacet p, fname p f = fname p f' → f = f'
  sorted : ∀ p < np, ∀ f < nFacet p, ((m p).facetDps f).Pairwise (· < ·)
  dps : ∀ p < np, ∀ f < nFacet p, ∀ q, q ∈ (m p).facetDps f ↔ q < np ∧ q ≠ p ∧ ∃ f' < nFacet q, fname q f' = fname p f
  touch : ∀ p < np, ∀ q < np, ∀ f < nFacet p, ∀ f' < nFacet q, fname q f' = fname p f → ∀ v, Touch dim3 (m p) v f →
    ∃ v', pname q v' = pname p v ∧ Touch dim3 (m q) v' f'

variable {dim3 : Bool} {np : ℕ} {m : ℕ → LMesh} {nFacet : ℕ → ℕ} {fname pname : ℕ → ℕ → ℕ}

/-- one process with a facet is its master -/
theorem master_exists (h : DistMesh dim3 np m nFacet fname pname) {p f : ℕ} (hp : p < np) (hf : f < nFacet p) :
    ∃ q < np, ∃ f' < nFacet q, fname q f' = fname p f ∧ (m q).Master f' ∧
      ∀ q2 < np, ∀ f2 < nFacet q2, fname q2 f2 = fname p f → (m q2).Master f2 → q2 = q := by
  classical
  have hex : ∃ q, q < np ∧ ∃ f' < nFacet q, fname q f' = fname p f := ⟨p, hp, f, hf, rfl⟩
  obtain ⟨hq, f', hf', hn⟩ := Nat.find_spec hex
  have hmin : ∀ r, (r < np ∧ ∃ f' < nFacet r, fname r f' = fname p f) → Nat.find hex ≤ r := fun r hr => Nat.find_min' hex hr
  refine ⟨Nat.find hex, hq, f', hf', hn, ?_, ?_⟩
  · intro d hd
    rw [h.rank _ hq]
    have hmem : d ∈ (m (Nat.find hex)).facetDps f' := List.mem_of_mem_head? hd
    obtain ⟨h1, h2, f2, h3, h4⟩ := (h.dps _ hq f' hf' d).1 hmem
    have := hmin d ⟨h1, f2, h3, h4.trans hn⟩
    omega
  · intro q2 hq2 f2 hf2 hn2 hm2
    by_contra hne
    have hle := hmin q2 ⟨hq2, f2, hf2, hn2⟩
    have hmem : Nat.find hex ∈ (m q2).facetDps f2 := (h.dps q2 hq2 f2 hf2 _).2 ⟨hq, fun hh => hne hh.symm, f', hf', hn.trans hn2.symm⟩
    have hs := h.sorted q2 hq2 f2 hf2
    unfold LMesh.Master at hm2
    cases hd : (m q2).facetDps f2 with
    | nil =>
      rw [hd] at hmem
      simp at hmem
    | cons d ds =>
      rw [hd] at hmem hs hm2
      have h1 := hm2 d rfl
      rw [h.rank q2 hq2] at h1
      rcases List.mem_cons.1 hmem with h2 | h2
      · omega
      · have := (List.pairwise_cons.1 hs).1 _ h2
        omega

/-- Every facet that is relevant and free on all its processes is, for each of its nodes, in the loop of that node on exactly one process. -/
theorem facet_once (h : DistMesh dim3 np m nFacet fname pname) (S : ℕ → Space) (rel : ℕ → ℕ → Bool)
    (hS : ∀ p < np, ∀ f < nFacet p, rel p f = true → (S p).HasDof f) {p f v : ℕ} (hp : p < np) (hf : f < nFacet p)
    (ht : Touch dim3 (m p) v f)
    (hrel : ∀ q < np, ∀ f' < nFacet q, fname q f' = fname p f → rel q f' = true ∧ (S q).Free f') :
    ∃ q < np, ∃ f' v' l, fname q f' = fname p f ∧ pname q v' = pname p v ∧
      produceLoop dim3 (m q) (S q) (rel q) id v' = some (l, (m q).psnDps v') ∧ f' ∈ l ∧
      ∀ q2 < np, ∀ f2 v2 l2 d2, f2 < nFacet q2 → fname q2 f2 = fname p f →
        produceLoop dim3 (m q2) (S q2) (rel q2) id v2 = some (l2, d2) → f2 ∈ l2 → q2 = q := by
  obtain ⟨q, hq, f', hf', hn, hmas, huniq⟩ := master_exists h hp hf
  obtain ⟨v', hv', ht'⟩ := h.touch p hp q hq f hf f' hf' hn v ht
  obtain ⟨l, hl, _, hmem⟩ := produceLoop_correct dim3 (m q) (S q) (rel q) (nFacet q) (h.ok q hq) (hS q hq) id v'
  obtain ⟨hr, hfree⟩ := hrel q hq f' hf' hn
  refine ⟨q, hq, f', v', l, hn, hv', hl, (hmem f').2 ⟨hf', ht', hr, hfree, hmas⟩, ?_⟩
  intro q2 hq2 f2 v2 l2 d2 hf2 hn2 hl2 hin
  obtain ⟨l3, hl3, _, hmem3⟩ := produceLoop_correct dim3 (m q2) (S q2) (rel q2) (nFacet q2) (h.ok q2 hq2) (hS q2 hq2) id v2
  rw [hl3] at hl2
  cases hl2
  exact huniq q2 hq2 f2 hf2 hn2 ((hmem3 f2).1 hin).2.2.2.2

/-- Nothing else is in a loop: only relevant free facets that contain the node, each once and in increasing order. -/
theorem facet_only (h : DistMesh dim3 np m nFacet fname pname) (S : ℕ → Space) (rel : ℕ → ℕ → Bool)
    (hS : ∀ p < np, ∀ f < nFacet p, rel p f = true → (S p).HasDof f) {p v : ℕ} (hp : p < np) :
    ∃ l, produceLoop dim3 (m p) (S p) (rel p) id v = some (l, (m p).psnDps v) ∧ l.Pairwise (· < ·) ∧
      ∀ f ∈ l, f < nFacet p ∧ Touch dim3 (m p) v f ∧ rel p f = true ∧ (S p).Free f := by
  obtain ⟨l, hl, hsrt, hmem⟩ := produceLoop_correct dim3 (m p) (S p) (rel p) (nFacet p) (h.ok p hp) (hS p hp) id v
  exact ⟨l, hl, hsrt, fun f hf => by
    obtain ⟨h1, h2, h3, h4, _⟩ := (hmem f).1 hf
    exact ⟨h1, h2, h3, h4⟩⟩

end NgsAMG.FLoop
