import Verif.Model.BTM
import Verif.Props.SortedArray
import Verif.Props.EQC7
import Verif.Props.HybridEnergy2

/-! C71: numbering of the vertices of a distributed mesh. -/

namespace NgsAMG.BTM

open NgsAMG.EQC NgsAMG.DCC

/-! ### offsets -/

theorem partialSum_length (acc : ℕ) (l : List ℕ) : (partialSum acc l).length = l.length := by
  induction l generalizing acc with
  | nil => rfl
  | cons x xs ih => simp [partialSum, ih]

theorem partialSum_get (acc : ℕ) (l : List ℕ) (i : ℕ) (hi : i < l.length) :
    (partialSum acc l)[i]? = some (acc + (l.take (i + 1)).sum) := by
  induction l generalizing acc i with
  | nil => simp at hi
  | cons x xs ih =>
    cases i with
    | zero => simp [partialSum]
    | succ i =>
      rw [partialSum, List.getElem?_cons_succ, ih _ _ (by simpa using hi)]
      simp [Nat.add_assoc]

theorem count_fold (cls : List ℕ) (d : List ℕ) (hc : ∀ c ∈ cls, c + 1 < d.length) :
    (cls.foldl (fun d c => d.modify (c + 1) (· + 1)) d).length = d.length ∧
    ∀ j, (cls.foldl (fun d c => d.modify (c + 1) (· + 1)) d)[j]? = d[j]?.map (· + cls.countP fun c => c + 1 == j) := by
  induction cls generalizing d with
  | nil => simp
  | cons c cs ih =>
    obtain ⟨h1, h2⟩ := ih (d.modify (c + 1) (· + 1)) (by intro x hx; rw [List.length_modify]; exact hc x (by simp [hx]))
    refine ⟨by rw [List.foldl_cons, h1, List.length_modify], ?_⟩
    intro j
    rw [List.foldl_cons, h2, List.getElem?_modify, List.countP_cons]
    rcases hd : d[j]? with _ | x
    · simp
    · by_cases hj : c + 1 = j
      · simp [hj]; omega
      · simp [hj]

theorem dispOf_length (n : ℕ) (cls : List ℕ) (hc : ∀ c ∈ cls, c < n) : (dispOf n cls).length = n + 1 := by
  unfold dispOf
  rw [partialSum_length, (count_fold _ _ _).1, List.length_replicate]
  intro c h; rw [List.length_replicate]; have := hc c h; omega

/-- the offset of class `k` is the number of vertices of earlier classes -/
theorem dispOf_get (n : ℕ) (cls : List ℕ) (hc : ∀ c ∈ cls, c < n) (k : ℕ) (hk : k ≤ n) :
    (dispOf n cls)[k]? = some (cls.countP fun c => decide (c < k)) := by
  have hc' : ∀ c ∈ cls, c + 1 < (List.replicate (n + 1) 0).length := by
    intro c h; rw [List.length_replicate]; have := hc c h; omega
  obtain ⟨h1, h2⟩ := count_fold cls (List.replicate (n + 1) 0) hc'
  unfold dispOf
  set L := cls.foldl (fun d c => d.modify (c + 1) (· + 1)) (List.replicate (n + 1) 0) with hL
  rw [List.length_replicate] at h1
  rw [partialSum_get _ _ _ (by omega), Nat.zero_add]
  congr 1
  induction k with
  | zero =>
    have h0 := h2 0
    rw [List.getElem?_replicate, if_pos (by omega)] at h0
    have hz : cls.countP (fun c => c + 1 == 0) = 0 := by
      rw [List.countP_eq_zero]; intro a _; simp
    have h0' : L[0]? = some 0 := by rw [h0]; simp
    have : L.take 1 = [0] := by
      cases hLc : L with
      | nil => simp [hLc] at h0'
      | cons a l => simp [hLc] at h0' ⊢; exact h0'
    rw [this]
    symm
    simp
  | succ k ih =>
    have hk' := ih (by omega)
    have hg := h2 (k + 1)
    rw [List.getElem?_replicate, if_pos (by omega)] at hg
    rw [List.take_add_one (i := k + 1), List.sum_append, hk', hg]
    have e : cls.countP (fun c => decide (c < k + 1)) =
        cls.countP (fun c => decide (c < k)) + cls.countP (fun c => c + 1 == k + 1) := by
      clear * -
      induction cls with
      | nil => rfl
      | cons c cs ih =>
        simp only [List.countP_cons, ih]
        by_cases h1 : c < k
        · have h2 : c < k + 1 := by omega
          have h3 : c ≠ k := by omega
          simp [h1, h2, h3]; omega
        · by_cases h2 : c = k
          · simp [h2]; omega
          · have h3 : ¬ c < k + 1 := by omega
            simp [h1, h2, h3]
    rw [e]; simp

/-- the entries of `sortPass` -/
theorem sortPass_length (cls vcnt : List ℕ) : (sortPass cls vcnt).length = cls.length := by
  induction cls generalizing vcnt with
  | nil => rfl
  | cons c cs ih => simp [sortPass, ih]

theorem sortPass_get (cls vcnt : List ℕ) (hc : ∀ c ∈ cls, c < vcnt.length) (v c : ℕ) (hv : cls[v]? = some c) :
    (sortPass cls vcnt)[v]? = some (vcnt.getD c 0 + (cls.take v).count c) := by
  induction cls generalizing vcnt v with
  | nil => simp at hv
  | cons a cs ih =>
    cases v with
    | zero =>
      simp at hv; subst hv
      simp [sortPass]
    | succ v =>
      rw [List.getElem?_cons_succ] at hv
      rw [sortPass, List.getElem?_cons_succ, ih _ (by intro x hx; rw [List.length_modify]; exact hc x (by simp [hx])) v hv,
        List.take_succ_cons, List.count_cons]
      have hal := hc a (by simp)
      rw [List.getD_eq_getElem?_getD, List.getElem?_modify, List.getD_eq_getElem?_getD]
      by_cases hac : a = c
      · subst hac
        rw [List.getElem?_eq_getElem hal]; simp; omega
      · simp [hac]

/-! ### blocks of consecutive numbers -/

/-- sorted offsets; block `k` is `[disp[k], disp[k+1])` -/
def Offsets (disp : List ℕ) : Prop := disp.Pairwise (· ≤ ·)

theorem eqcOfE_eq {disp : List ℕ} (hs : Offsets disp) {k n a b : ℕ} (ha : disp[k]? = some a) (hb : disp[k + 1]? = some b)
    (h1 : a ≤ n) (h2 : n < b) : eqcOfE disp n = some k := by
  obtain ⟨p, hp, h3, h4, h5⟩ := SortedArray.mergePos_correct n disp hs
  have hpk : p = k + 1 := by
    rcases Nat.lt_trichotomy p (k + 1) with h | h | h
    · have := h5 k a ha (by omega); omega
    · exact h
    · have := h4 (k + 1) b hb h; omega
  subst hpk
  unfold eqcOfE
  rw [hp]

theorem offsets_le {disp : List ℕ} (hs : Offsets disp) {i j a b : ℕ} (hij : i ≤ j) (ha : disp[i]? = some a) (hb : disp[j]? = some b) :
    a ≤ b := by
  rcases Nat.eq_or_lt_of_le hij with rfl | h
  · rw [ha] at hb; cases hb; rfl
  · obtain ⟨h1, rfl⟩ := List.getElem?_eq_some_iff.mp ha
    obtain ⟨h2, rfl⟩ := List.getElem?_eq_some_iff.mp hb
    exact List.pairwise_iff_getElem.mp hs i j h1 h2 h

theorem offsets_block_inj {disp : List ℕ} (hs : Offsets disp) {k l n a b a' b' : ℕ} (ha : disp[k]? = some a) (hb : disp[k + 1]? = some b)
    (ha' : disp[l]? = some a') (hb' : disp[l + 1]? = some b') (h1 : a ≤ n) (h2 : n < b) (h3 : a' ≤ n) (h4 : n < b') : k = l := by
  have := (eqcOfE_eq hs ha hb h1 h2).symm.trans (eqcOfE_eq hs ha' hb' h3 h4)
  simpa using this

theorem getLastD_of_get {l : List ℕ} {n x : ℕ} (hl : l.length = n + 1) (h : l[n]? = some x) : l.getLastD 0 = x := by
  rw [List.getLastD_eq_getLast?, List.getLast?_eq_getElem?, hl, Nat.add_sub_cancel, h]; rfl

/-! ### one process -/

theorem countP_lt_le (cls : List ℕ) {a b : ℕ} (h : a ≤ b) : cls.countP (fun c => decide (c < a)) ≤ cls.countP fun c => decide (c < b) := by
  apply List.countP_mono_left
  intro x _ hx
  simp only [decide_eq_true_eq] at *; omega

theorem dispOf_offsets (n : ℕ) (cls : List ℕ) (hc : ∀ c ∈ cls, c < n) : Offsets (dispOf n cls) := by
  unfold Offsets
  rw [List.pairwise_iff_getElem]
  intro i j hi hj hij
  have hl := dispOf_length n cls hc
  have h1 := dispOf_get n cls hc i (by omega)
  have h2 := dispOf_get n cls hc j (by omega)
  rw [List.getElem?_eq_getElem hi, Option.some.injEq] at h1
  rw [List.getElem?_eq_getElem hj, Option.some.injEq] at h2
  rw [h1, h2]
  exact countP_lt_le cls hij.le

theorem countP_lt_succ (cls : List ℕ) (k : ℕ) :
    cls.countP (fun c => decide (c < k + 1)) = cls.countP (fun c => decide (c < k)) + cls.count k := by
  induction cls with
  | nil => rfl
  | cons c cs ih =>
    simp only [List.countP_cons, List.count_cons, ih]
    by_cases h1 : c < k
    · have h2 : c < k + 1 := by omega
      have h3 : c ≠ k := by omega
      simp [h1, h2, h3]; omega
    · by_cases h2 : c = k
      · simp [h2]; omega
      · have h3 : ¬ c < k + 1 := by omega
        simp [h1, h2, h3]

theorem count_take_lt {α : Type*} [BEq α] [LawfulBEq α] (l : List α) (v : ℕ) (c : α) (hv : l[v]? = some c) : (l.take v).count c < l.count c := by
  obtain ⟨h1, h2⟩ := List.getElem?_eq_some_iff.mp hv
  calc (l.take v).count c < (l.take (v + 1)).count c := by
        rw [List.take_add_one, hv]; simp
    _ ≤ l.count c := (List.take_sublist _ _).count_le _

theorem count_take_mono {α : Type*} [BEq α] [LawfulBEq α] (l : List α) {u v : ℕ} (c : α) (hu : l[u]? = some c) (huv : u < v) :
    (l.take u).count c < (l.take v).count c := by
  calc (l.take u).count c < (l.take (u + 1)).count c := by
        rw [List.take_add_one, hu]; simp
    _ ≤ (l.take v).count c := (List.take_sublist_take_left (by omega)).count_le _

/-- the new number of a vertex `v` of class `c` -/
def newNr (cls : List ℕ) (v c : ℕ) : ℕ := (cls.countP fun x => decide (x < c)) + (cls.take v).count c

theorem newNr_block (cls : List ℕ) {v c : ℕ} (hv : cls[v]? = some c) :
    (cls.countP fun x => decide (x < c)) ≤ newNr cls v c ∧ newNr cls v c < cls.countP fun x => decide (x < c + 1) := by
  have := count_take_lt cls v c hv
  rw [countP_lt_succ]; unfold newNr; omega

theorem newNr_lt (cls : List ℕ) {u v c d : ℕ} (hu : cls[u]? = some c) (hv : cls[v]? = some d) :
    newNr cls u c < newNr cls v d ↔ c < d ∨ (c = d ∧ u < v) := by
  have key : ∀ {u v c d : ℕ}, cls[u]? = some c → cls[v]? = some d → (c < d ∨ (c = d ∧ u < v)) → newNr cls u c < newNr cls v d := by
    intro u v c d hu hv h
    rcases h with h | ⟨rfl, h⟩
    · have h1 := (newNr_block cls hu).2
      have h2 := (newNr_block cls hv).1
      have h3 := countP_lt_le cls (show c + 1 ≤ d by omega)
      omega
    · unfold newNr
      have := count_take_mono cls c hu h
      omega
  refine ⟨fun h => ?_, key hu hv⟩
  by_contra hc
  have : (d < c ∨ (d = c ∧ v < u)) ∨ (c = d ∧ u = v) := by omega
  rcases this with h1 | ⟨rfl, rfl⟩
  · have := key hv hu h1; omega
  · exact Nat.lt_irrefl _ h

theorem mapM_findEQC {np p : ℕ} {T : List (List ℕ)} (hT : FamOK np p T) (dps : List (List ℕ)) (hd : ∀ d ∈ dps, d ∈ T) :
    ∃ cls, dps.mapM (findEQC T) = some cls ∧ cls.length = dps.length ∧
      ∀ (v c : ℕ), cls[v]? = some c ↔ ∃ d, dps[v]? = some d ∧ T[c]? = some d := by
  induction dps with
  | nil => exact ⟨[], rfl, rfl, by simp⟩
  | cons d ds ih =>
    obtain ⟨cls, h1, h2, h3⟩ := ih (fun e he => hd e (by simp [he]))
    obtain ⟨k, hk, hkd⟩ := List.mem_iff_getElem.mp (hd d (by simp))
    have hk' : T[k]? = some d := by rw [List.getElem?_eq_getElem hk, hkd]
    refine ⟨k :: cls, ?_, by simp [h2], ?_⟩
    · rw [List.mapM_cons, (findEQC_iff hT d k).mpr hk', h1]; rfl
    · intro v c
      cases v with
      | zero =>
        simp only [List.getElem?_cons_zero, Option.some.injEq, exists_eq_left']
        constructor
        · rintro rfl; exact hk'
        · intro h
          exact Option.some.inj (((findEQC_iff hT d k).mpr hk').symm.trans ((findEQC_iff hT d c).mpr h))
      | succ v => simpa using h3 v c

/-- no cross vertices -/
def noCross (T : List (List ℕ)) : List ℕ := List.replicate (T.length + 1) 0

/-- specification of the numbering of vertices with distant processes `dps` on one process with the classes `T`: the new numbers
are a permutation; vertices are ordered by class, and within a class as before; the queries give back the class of the vertex (the
class with its distant processes), and its number within the class -/
structure Numbered (T dps : List (List ℕ)) (M : Verts) : Prop where
  nv : M.nv = dps.length
  perm : M.sort.Perm (List.range dps.length)
  order : ∀ (u v m n k l : ℕ), M.sort[u]? = some m → M.sort[v]? = some n → T[k]? = dps[u]? → T[l]? = dps[v]? →
    (m < n ↔ k < l ∨ (k = l ∧ u < v))
  query : ∀ (v : ℕ) (d : List ℕ), dps[v]? = some d → ∃ k n, T[k]? = some d ∧ M.sort[v]? = some n ∧
    eqcOf M.disp (noCross T) n = some k ∧ toEQC M.disp (noCross T) n = some ((dps.take v).count d) ∧
    eFromEQC M.disp ((dps.take v).count d) k = some n
  sizes : ∀ (k : ℕ) (d : List ℕ), T[k]? = some d → ∃ a b, M.disp[k]? = some a ∧ M.disp[k + 1]? = some b ∧ a + dps.count d = b

theorem count_eq_of_map {dps T : List (List ℕ)} {cls : List ℕ} (hT : T.Nodup) (hl : cls.length = dps.length)
    (h : ∀ (v c : ℕ), cls[v]? = some c ↔ ∃ d, dps[v]? = some d ∧ T[c]? = some d) {k : ℕ} {d : List ℕ} (hk : T[k]? = some d) (v : ℕ) :
    (cls.take v).count k = (dps.take v).count d := by
  induction v with
  | zero => simp
  | succ v ih =>
    rw [List.take_add_one, List.take_add_one, List.count_append, List.count_append, ih]
    congr 1
    rcases hc : cls[v]? with _ | c
    · have : dps[v]? = none := by
        rw [List.getElem?_eq_none_iff] at hc ⊢; omega
      simp [this]
    · obtain ⟨e, h1, h2⟩ := (h v c).mp hc
      rw [h1]
      simp only [Option.toList_some, List.count_singleton]
      by_cases hck : c = k
      · subst hck
        rw [hk] at h2; cases h2; simp
      · have : e ≠ d := by
          rintro rfl
          obtain ⟨a1, a2⟩ := List.getElem?_eq_some_iff.mp h2
          obtain ⟨b1, b2⟩ := List.getElem?_eq_some_iff.mp hk
          exact hck ((List.Nodup.getElem_inj_iff hT).mp (a2.trans b2.symm))
        simp [hck, this]

theorem count_full {dps T : List (List ℕ)} {cls : List ℕ} (hT : T.Nodup) (hl : cls.length = dps.length)
    (h : ∀ (v c : ℕ), cls[v]? = some c ↔ ∃ d, dps[v]? = some d ∧ T[c]? = some d) {k : ℕ} {d : List ℕ} (hk : T[k]? = some d) :
    cls.count k = dps.count d := by
  have := count_eq_of_map hT hl h hk dps.length
  rwa [List.take_length, ← hl, List.take_length] at this

/-- **C71 (numbering on one process).** `SetVs` sorts the vertices by class, without changing their order within a class. -/
theorem setVs_correct {np p : ℕ} {T : List (List ℕ)} (hT : FamOK np p T) (hne : T ≠ []) (dps : List (List ℕ)) (hd : ∀ d ∈ dps, d ∈ T) :
    ∃ M, setVs T false dps = some M ∧ Numbered T dps M := by
  obtain ⟨cls, h1, h2, h3⟩ := mapM_findEQC hT dps hd
  have hcT : ∀ c ∈ cls, c < T.length := by
    intro c hc
    obtain ⟨v, hv⟩ := List.mem_iff_getElem?.mp hc
    obtain ⟨d, -, hd⟩ := (h3 v c).mp hv
    exact (List.getElem?_eq_some_iff.mp hd).1
  have hdl := dispOf_length T.length cls hcT
  have hsort : ∀ (v c : ℕ), cls[v]? = some c → (sortPass cls (dispOf T.length cls))[v]? = some (newNr cls v c) := by
    intro v c hv
    rw [sortPass_get cls _ (fun x hx => by rw [hdl]; have := hcT x hx; omega) v c hv, List.getD_eq_getElem?_getD,
      dispOf_get _ _ hcT c (by have := hcT c (List.mem_of_getElem? hv); omega)]
    rfl
  have hlast : (dispOf T.length cls).getLastD 0 = cls.length := by
    rw [getLastD_of_get hdl (dispOf_get _ _ hcT _ le_rfl), List.countP_eq_length]
    intro c hc; simpa using hcT c hc
  have hlen : T.length ≠ 0 := by simpa using hne
  refine ⟨⟨dps.length, dispOf T.length cls, sortPass cls (dispOf T.length cls)⟩, ?_, rfl, ?_, ?_, ?_, ?_⟩
  · unfold setVs
    rw [if_neg hlen, h1]; rfl
  · -- permutation
    have hsl : (sortPass cls (dispOf T.length cls)).length = dps.length := by rw [sortPass_length, h2]
    have hget : ∀ (v : ℕ) (hv : v < (sortPass cls (dispOf T.length cls)).length), ∃ c, cls[v]? = some c ∧
        (sortPass cls (dispOf T.length cls))[v] = newNr cls v c := by
      intro v hv
      rw [sortPass_length] at hv
      refine ⟨cls[v], List.getElem?_eq_getElem hv, ?_⟩
      have := hsort v _ (List.getElem?_eq_getElem hv)
      rw [List.getElem?_eq_some_iff] at this
      exact this.2
    have hnd : (sortPass cls (dispOf T.length cls)).Nodup := by
      rw [List.Nodup, List.pairwise_iff_getElem]
      intro i j hi hj hij heq
      obtain ⟨c, c1, c2⟩ := hget i hi
      obtain ⟨d, d1, d2⟩ := hget j hj
      rw [c2, d2] at heq
      have h1 := newNr_lt cls c1 d1
      have h2 := newNr_lt cls d1 c1
      omega
    have hsub : (sortPass cls (dispOf T.length cls)) ⊆ List.range dps.length := by
      intro n hn
      obtain ⟨v, hv, rfl⟩ := List.mem_iff_getElem.mp hn
      obtain ⟨c, c1, c2⟩ := hget v hv
      rw [c2, List.mem_range]
      have h1 := (newNr_block cls c1).2
      have h4 := List.countP_le_length (p := fun x => decide (x < c + 1)) (l := cls)
      omega
    exact (List.subperm_of_subset hnd hsub).perm_of_length_le (by rw [hsl]; simp)
  · intro u v m n k l hm hn hk hl
    have hu : u < cls.length := by
      have := (List.getElem?_eq_some_iff.mp hm).1; rwa [sortPass_length] at this
    have hv : v < cls.length := by
      have := (List.getElem?_eq_some_iff.mp hn).1; rwa [sortPass_length] at this
    have hu' : dps[u]? = some dps[u] := List.getElem?_eq_getElem (by omega)
    have hv' : dps[v]? = some dps[v] := List.getElem?_eq_getElem (by omega)
    have hck := (h3 u k).mpr ⟨_, hu', hk.trans hu'⟩
    have hcl := (h3 v l).mpr ⟨_, hv', hl.trans hv'⟩
    have e1 : some m = some (newNr cls u k) := hm.symm.trans (hsort u k hck)
    have e2 : some n = some (newNr cls v l) := hn.symm.trans (hsort v l hcl)
    cases e1; cases e2
    exact newNr_lt cls hck hcl
  · intro v d hv
    obtain ⟨k, hk, hkd⟩ := List.mem_iff_getElem.mp (hd d (List.mem_of_getElem? hv))
    have hk' : T[k]? = some d := by rw [List.getElem?_eq_getElem hk, hkd]
    have hck := (h3 v k).mpr ⟨d, hv, hk'⟩
    obtain ⟨b1, b2⟩ := newNr_block cls hck
    have hcnt := count_eq_of_map hT.1 h2 h3 hk' v
    have hlt : newNr cls v k < (dispOf T.length cls).getLastD 0 := by
      rw [hlast]
      have := List.countP_le_length (p := fun x => decide (x < k + 1)) (l := cls)
      omega
    have heq : eqcOf (dispOf T.length cls) (noCross T) (newNr cls v k) = some k := by
      unfold eqcOf
      rw [if_pos hlt]
      exact eqcOfE_eq (dispOf_offsets _ _ hcT) (dispOf_get _ _ hcT k (by omega)) (dispOf_get _ _ hcT (k + 1) (by omega)) b1 b2
    refine ⟨k, newNr cls v k, hk', hsort v k hck, heq, ?_, ?_⟩
    · unfold toEQC
      rw [heq, Option.bind_some, if_pos hlt]
      show Option.map _ (dispOf T.length cls)[k]? = _
      rw [dispOf_get _ _ hcT k (by omega), Option.map_some, ← hcnt]
      unfold newNr; congr 1; omega
    · unfold eFromEQC
      show Option.map _ (dispOf T.length cls)[k]? = _
      rw [dispOf_get _ _ hcT k (by omega), Option.map_some, ← hcnt]
      unfold newNr; congr 1; omega
  · intro k d hk
    have hkT := (List.getElem?_eq_some_iff.mp hk).1
    refine ⟨_, _, dispOf_get _ _ hcT k (by omega), dispOf_get _ _ hcT (k + 1) (by omega), ?_⟩
    rw [countP_lt_succ, count_full hT.1 h2 h3 hk]

/-- C71 for all processes, also for those without classes (and hence without vertices) -/
theorem setVs_numbered {np p : ℕ} {T : List (List ℕ)} (hT : FamOK np p T) (dps : List (List ℕ)) (hd : ∀ d ∈ dps, d ∈ T) :
    ∃ M, setVs T false dps = some M ∧ Numbered T dps M := by
  by_cases hne : T = []
  · subst hne
    have : dps = [] := List.eq_nil_iff_forall_not_mem.mpr fun d h => by simpa using hd d h
    subst this
    exact ⟨⟨0, [0], []⟩, rfl, rfl, by simp, by simp, by simp, by simp⟩
  · exact setVs_correct hT hne dps hd

/-- C71, no parallel communicator: nothing is changed -/
theorem setVs_dummy {T : List (List ℕ)} (hne : T ≠ []) (dps : List (List ℕ)) :
    setVs T true dps = some ⟨dps.length, [0, dps.length], List.range dps.length⟩ ∧
    ∀ n < dps.length, eqcOf [0, dps.length] (noCross T) n = some 0 ∧ toEQC [0, dps.length] (noCross T) n = some n := by
  have hlen : T.length ≠ 0 := by simpa using hne
  refine ⟨by unfold setVs; rw [if_neg hlen]; rfl, ?_⟩
  intro n hn
  have h : eqcOf [0, dps.length] (noCross T) n = some 0 := by
    unfold eqcOf
    rw [if_pos (by simpa using hn)]
    exact eqcOfE_eq (by simp [Offsets]) (k := 0) rfl rfl (Nat.zero_le _) hn
  refine ⟨h, ?_⟩
  unfold toEQC
  rw [h, Option.bind_some, if_pos (by simpa using hn)]
  rfl

end NgsAMG.BTM
