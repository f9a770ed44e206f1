import Verif.Props.DofMaps1

/-!
# C94: the loops of `SetUpMaps`
-/

namespace NgsAMG.DofM
open NgsAMG.Spec

/-! ### loops -/

theorem foldlM_inv {α β : Type*} {f : β → α → Option β} {I : ℕ → β → Prop} {D : List α} (hstep : ∀ (k : ℕ) (d : α) (s : β), D[k]? = some d → I k s → ∃ s', f s d = some s' ∧ I (k + 1) s')
    {s : β} (h0 : I 0 s) : ∃ s', D.foldlM f s = some s' ∧ I D.length s' := by
  induction D generalizing s I with
  | nil => exact ⟨s, rfl, h0⟩
  | cons d D ih =>
    obtain ⟨s1, h1, h2⟩ := hstep 0 d s rfl h0
    obtain ⟨s2, h3, h4⟩ := ih (I := fun k s => I (k + 1) s) (fun k d s hd hI => hstep (k + 1) d s (by simpa using hd) hI) h2
    refine ⟨s2, ?_, by simpa using h4⟩
    rw [List.foldlM_cons, h1]
    exact h3

theorem inSS_eq (ranges : List (ℕ × ℕ)) : inSS ranges = (dofsOf ranges).length := by
  unfold inSS dofsOf
  rw [List.length_flatMap]
  congr 1
  exact List.map_congr_left fun r _ => (List.length_range').symm

/-! ### one block size, ranges -/

theorem slot_single {nv dpv k : ℕ} (h : k < nv * dpv) : slot nv [dpv] k = some (k / dpv, k % dpv) := by
  simp [slot, h]

/-- the numbering with one block size, from ranges -/
theorem rangeSingle_correct {ndof dpv nv : ℕ} {ranges : List (ℕ × ℕ)} (hp : 0 < dpv) (hnd : (dofsOf ranges).Nodup) (hlt : ∀ d ∈ dofsOf ranges, d < ndof)
    (hl : (dofsOf ranges).length = nv * dpv) : ∃ m, rangeSingle ndof dpv ranges = some m ∧ Numbering ndof nv [dpv] (dofsOf ranges) id m.d2v m.v2d := by
  have hs : ([dpv] : List ℕ).sum = dpv := by simp
  have hnv : inSS ranges / dpv = nv := by rw [inSS_eq, hl, Nat.mul_div_cancel _ hp]
  obtain ⟨⟨m, c⟩, h1, h2, h3⟩ := foldlM_inv (D := dofsOf ranges) (f := fun (s : Maps × ℕ) d => (putMaps s.1 d (s.2 / dpv) s.2).map fun m => (m, s.2 + 1))
    (I := fun k s => s.2 = k ∧ After ndof nv [dpv] (dofsOf ranges) k s.1) (s := (initMaps ndof (nv * dpv), 0))
    (by
      rintro k d ⟨m, c⟩ hd ⟨rfl, ha⟩
      dsimp only at ha ⊢
      have hk : c < nv * dpv := by rw [← hl]; exact (List.getElem?_eq_some_iff.mp hd).1
      obtain ⟨m', g1, g2⟩ := after_succ hnd hlt ha hd (slot_single hk)
      rw [hs, Nat.div_add_mod'] at g1
      exact ⟨(m', c + 1), by rw [g1]; rfl, rfl, g2⟩)
    ⟨rfl, by have := after_zero ndof nv [dpv] (dofsOf ranges); rwa [hs] at this⟩
  dsimp only at h2 h3
  refine ⟨m, ?_, after_end (by rw [hs]; exact hl) h3⟩
  unfold rangeSingle fillFlat
  rw [if_neg (by omega), hnv, h1]
  rfl

/-! ### chosen bits, one degree of freedom per vertex -/

/-- the chosen numbers, from a position on -/
def setFrom : ℕ → List Bool → List ℕ
  | _, [] => []
  | j, b :: bits => if b then j :: setFrom (j + 1) bits else setFrom (j + 1) bits

theorem setFrom_eq (j : ℕ) (bits : List Bool) : setFrom j bits = (List.range' j bits.length).filter fun k => bits.getD (k - j) false := by
  induction bits generalizing j with
  | nil => rfl
  | cons b bits ih =>
    have e : (List.range' (j + 1) bits.length).filter (fun k => (b :: bits).getD (k - j) false) = (List.range' (j + 1) bits.length).filter fun k => bits.getD (k - (j + 1)) false := by
      refine List.filter_congr fun k hk => ?_
      rw [List.mem_range'_1] at hk
      have : k - j = k - (j + 1) + 1 := by omega
      rw [this, List.getD_cons_succ]
    rw [List.length_cons, List.range'_succ, List.filter_cons, e, ← ih]
    simp only [Nat.sub_self, List.getD_cons_zero, setFrom]

theorem setBits_eq (bits : List Bool) : setBits bits = setFrom 0 bits := by
  rw [setFrom_eq, setBits, List.range_eq_range']
  rfl

theorem setBits_nodup (bits : List Bool) : (setBits bits).Nodup := List.nodup_range.filter _

theorem setBits_lt {bits : List Bool} {d : ℕ} (h : d ∈ setBits bits) : d < bits.length := List.mem_range.mp (List.mem_filter.mp h).1

theorem mem_setBits {bits : List Bool} {d : ℕ} : d ∈ setBits bits ↔ bits[d]? = some true := by
  unfold setBits
  rw [List.mem_filter, List.mem_range, List.getD_eq_getElem?_getD]
  constructor
  · rintro ⟨h, h2⟩
    rw [List.getElem?_eq_getElem h] at h2 ⊢
    simpa using h2
  · intro h
    exact ⟨(List.getElem?_eq_some_iff.mp h).1, by simp [h]⟩

theorem selLoop_spec {ndof : ℕ} {D : List ℕ} (hnd : D.Nodup) (hlt : ∀ d ∈ D, d < ndof) (bits : List Bool) (j k : ℕ) (m : Maps) (hD : D.drop k = setFrom j bits) (hk : k ≤ D.length)
    (ha : After ndof D.length [1] D k m) : ∃ m', selLoop D.length bits j k m = some m' ∧ After ndof D.length [1] D D.length m' := by
  induction bits generalizing j k m with
  | nil =>
    have : D.length ≤ k := by simpa [setFrom] using hD
    have e : k = D.length := by omega
    subst e
    exact ⟨m, by simp [selLoop], ha⟩
  | cons b bits ih =>
    unfold selLoop
    split
    · rename_i hkl
      cases b with
      | true =>
        simp only [setFrom, if_true] at hD
        have hd : D[k]? = some j := by
          have := congrArg (fun l => l[0]?) hD
          simpa using this
        obtain ⟨m', g1, g2⟩ := after_succ hnd hlt ha hd (slot_single (by omega))
        simp only [List.sum_cons, List.sum_nil, Nat.add_zero, Nat.div_one, Nat.mod_one, Nat.mul_one] at g1
        obtain ⟨m2, g3, g4⟩ := ih (j + 1) (k + 1) m' (by rw [← List.drop_drop, hD]; rfl) hkl g2
        exact ⟨m2, by rw [if_pos rfl, g1]; exact g3, g4⟩
      | false =>
        obtain ⟨m2, g3, g4⟩ := ih (j + 1) k m (by rw [hD]; simp [setFrom]) hk ha
        exact ⟨m2, by rw [if_neg (by simp)]; exact g3, g4⟩
    · have e : k = D.length := by omega
      subst e
      exact ⟨m, rfl, ha⟩

theorem selectOne_correct {ndof : ℕ} {bits : List Bool} (hb : bits.length ≤ ndof) :
    ∃ m, selectOne ndof bits = some m ∧ Numbering ndof (setBits bits).length [1] (setBits bits) id m.d2v m.v2d := by
  obtain ⟨m, h1, h2⟩ := selLoop_spec (ndof := ndof) (setBits_nodup bits) (fun d hd => lt_of_lt_of_le (setBits_lt hd) hb) bits 0 0 (initMaps ndof (setBits bits).length)
    (by rw [List.drop_zero, setBits_eq]) (by omega) (by have := after_zero ndof (setBits bits).length [1] (setBits bits); simpa using this)
  exact ⟨m, h1, after_end (by simp) h2⟩

/-! ### chosen bits, several degrees of freedom per vertex -/

/-- the state of the loop before the `k`-th chosen degree of freedom -/
def SPos (nv : ℕ) (sizes : List ℕ) (k : ℕ) (s : SSt) : Prop :=
  k < nv * sizes.sum → sizes[s.bt]? = some s.bs ∧ s.j < s.bs ∧ s.cnt < nv ∧ s.os = (sizes.take s.bt).sum ∧ k = nv * s.os + s.cnt * s.bs + s.j

theorem selStep_spec {ndof nv : ℕ} {sizes D : List ℕ} (hnd : D.Nodup) (hlt : ∀ d ∈ D, d < ndof) (hl : D.length = nv * sizes.sum) (hpos : ∀ b ∈ sizes, 0 < b)
    (hlast : ∀ t, t + 2 = sizes.length → sizes[t + 1]? = sizes[t]?) {k d : ℕ} {s : SSt} (hd : D[k]? = some d)
    (h : SPos nv sizes k s ∧ After ndof nv sizes D k s.maps) : ∃ s', selStep nv sizes.sum sizes s d = some s' ∧ SPos nv sizes (k + 1) s' ∧ After ndof nv sizes D (k + 1) s'.maps := by
  obtain ⟨hp, ha⟩ := h
  have hk : k < nv * sizes.sum := by rw [← hl]; exact (List.getElem?_eq_some_iff.mp hd).1
  obtain ⟨p1, p2, p3, p4, p5⟩ := hp hk
  obtain ⟨m, bt, cnt, bs, j, os⟩ := s
  dsimp only at *
  have hsl : slot nv sizes k = some (cnt, (sizes.take bt).sum + j) := by rw [p5, p4]; exact slot_at p1 p3 p2
  obtain ⟨m', g1, g2⟩ := after_succ hnd hlt ha hd hsl
  rw [← p4] at g1
  refine ⟨endType nv sizes (endBlock ⟨m', bt, cnt, bs, j + 1, os⟩), by unfold selStep; dsimp only; rw [g1]; rfl, ?_, ?_⟩
  · intro hk1
    have hnext := sum_take_succ p1
    by_cases hj : j + 1 = bs
    · have e1 : endBlock ⟨m', bt, cnt, bs, j + 1, os⟩ = ⟨m', bt, cnt + 1, bs, 0, os⟩ := by simp [endBlock, hj]
      rw [e1]
      by_cases hc : cnt + 1 = nv
      · -- all vertices have a block of this size
        have hk2 : k + 1 = nv * (sizes.take (bt + 1)).sum := by rw [hnext, p5, p4, ← hc, ← hj]; ring
        have hbt : bt + 1 < sizes.length := by
          by_contra hge
          rw [List.take_of_length_le (by omega)] at hk2
          omega
        have hbs : (if bt + 1 + 1 < sizes.length then sizes.getD (bt + 1) 0 else bs) = sizes[bt + 1] := by
          by_cases h2 : bt + 1 + 1 < sizes.length
          · rw [if_pos h2, List.getD_eq_getElem?_getD, List.getElem?_eq_getElem hbt, Option.getD_some]
          · rw [if_neg h2]
            have := hlast bt (by omega)
            rw [p1, List.getElem?_eq_getElem hbt] at this
            exact (Option.some.inj this).symm
        have e2 : endType nv sizes ⟨m', bt, cnt + 1, bs, 0, os⟩ = ⟨m', bt + 1, 0, sizes[bt + 1], 0, os + bs⟩ := by
          unfold endType; dsimp only; rw [if_pos hc, hbs]
        rw [e2]
        refine ⟨List.getElem?_eq_getElem hbt, hpos _ (List.getElem_mem hbt), by dsimp only; omega, ?_, ?_⟩
        · dsimp only; rw [hnext, p4]
        · dsimp only; rw [hk2, hnext, p4]; ring
      · have e2 : endType nv sizes ⟨m', bt, cnt + 1, bs, 0, os⟩ = ⟨m', bt, cnt + 1, bs, 0, os⟩ := by unfold endType; dsimp only; rw [if_neg hc]
        rw [e2]
        refine ⟨p1, by dsimp only; omega, by dsimp only; omega, p4, ?_⟩
        dsimp only; rw [p5, ← hj]; ring
    · have e1 : endBlock ⟨m', bt, cnt, bs, j + 1, os⟩ = ⟨m', bt, cnt, bs, j + 1, os⟩ := by simp [endBlock, hj]
      have e2 : endType nv sizes ⟨m', bt, cnt, bs, j + 1, os⟩ = ⟨m', bt, cnt, bs, j + 1, os⟩ := by unfold endType; dsimp only; rw [if_neg (by omega)]
      rw [e1, e2]
      refine ⟨p1, by dsimp only; omega, p3, p4, by dsimp only; omega⟩
  · have : (endType nv sizes (endBlock ⟨m', bt, cnt, bs, j + 1, os⟩)).maps = m' := by
      unfold endType endBlock
      split_ifs <;> rfl
    rw [this]
    exact g2

theorem selectMulti_correct {ndof nv : ℕ} {sizes : List ℕ} {bits : List Bool} (hb : bits.length ≤ ndof) (hne : sizes ≠ []) (hpos : ∀ b ∈ sizes, 0 < b)
    (hlast : ∀ t, t + 2 = sizes.length → sizes[t + 1]? = sizes[t]?) (hl : (setBits bits).length = nv * sizes.sum) :
    ∃ m, selectMulti ndof sizes bits = some m ∧ Numbering ndof nv sizes (setBits bits) id m.d2v m.v2d := by
  obtain ⟨b, bs, rfl⟩ := List.exists_cons_of_ne_nil hne
  have hb0 : 0 < b := hpos b (by simp)
  have hsum : (b :: bs).sum ≠ 0 := by rw [List.sum_cons]; omega
  have hnv : (setBits bits).length / (b :: bs).sum = nv := by rw [hl, Nat.mul_div_cancel _ (by omega)]
  obtain ⟨s, h1, h2, h3⟩ := foldlM_inv (D := setBits bits) (f := selStep nv (b :: bs).sum (b :: bs))
    (I := fun k s => SPos nv (b :: bs) k s ∧ After ndof nv (b :: bs) (setBits bits) k s.maps) (s := ⟨initMaps ndof (nv * (b :: bs).sum), 0, 0, b, 0, 0⟩)
    (fun k d s hd hI => selStep_spec (setBits_nodup bits) (fun d hd => lt_of_lt_of_le (setBits_lt hd) hb) hl hpos hlast hd hI)
    ⟨fun hk => ⟨rfl, hb0, Nat.pos_of_mul_pos_right hk, by simp, by simp⟩, after_zero _ _ _ _⟩
  refine ⟨s.maps, ?_, after_end hl h3⟩
  unfold selectMulti
  rw [if_neg hsum, hnv]
  simp only [List.headD_cons]
  rw [h1]
  rfl

/-! ### ranges, several block sizes -/

theorem mapBlock_spec {ndof nv : ℕ} {sizes D : List ℕ} (hnd : D.Nodup) (hlt : ∀ d ∈ D, d < ndof) {t b k lo cnt : ℕ} {m : Maps} (ht : sizes[t]? = some b) (hc : cnt < nv)
    (hk : k = nv * (sizes.take t).sum + cnt * b) (hD : ∀ i < b, D[k + i]? = some (lo + i)) (ha : After ndof nv sizes D k m) :
    ∃ m', mapBlock sizes.sum b (sizes.take t).sum m lo cnt = some m' ∧ After ndof nv sizes D (k + b) m' := by
  obtain ⟨m', h1, h2⟩ := foldlM_inv (D := List.range b) (f := fun m j => putMaps m (lo + j) cnt (cnt * sizes.sum + ((sizes.take t).sum + j)))
    (I := fun i m => After ndof nv sizes D (k + i) m) (s := m)
    (by
      intro i j m hj hI
      obtain ⟨hi, hj⟩ := List.getElem?_eq_some_iff.mp hj
      rw [List.getElem_range] at hj
      subst hj
      rw [List.length_range] at hi
      exact after_succ hnd hlt hI (hD i hi) (by rw [hk]; exact slot_at ht hc hi))
    (by simpa using ha)
  rw [List.length_range] at h2
  exact ⟨m', h1, h2⟩

theorem mapBlocks_spec {ndof nv : ℕ} {sizes D : List ℕ} (hnd : D.Nodup) (hlt : ∀ d ∈ D, d < ndof) {t b k lo cnt n : ℕ} {m : Maps} (ht : sizes[t]? = some b) (hc : cnt + n ≤ nv)
    (hk : k = nv * (sizes.take t).sum + cnt * b) (hD : ∀ i < n * b, D[k + i]? = some (lo + i)) (ha : After ndof nv sizes D k m) :
    ∃ m', mapBlocks sizes.sum b (sizes.take t).sum m lo cnt n = some m' ∧ After ndof nv sizes D (k + n * b) m' := by
  obtain ⟨m', h1, h2⟩ := foldlM_inv (D := List.range n) (f := fun m l => mapBlock sizes.sum b (sizes.take t).sum m (lo + l * b) (cnt + l))
    (I := fun i m => After ndof nv sizes D (k + i * b) m) (s := m)
    (by
      intro i j m hj hI
      obtain ⟨hi, hj⟩ := List.getElem?_eq_some_iff.mp hj
      rw [List.getElem_range] at hj
      subst hj
      rw [List.length_range] at hi
      obtain ⟨m', g1, g2⟩ := mapBlock_spec hnd hlt (k := k + i * b) (lo := lo + i * b) (cnt := cnt + i) ht (by omega) (by rw [hk]; ring)
        (by
          intro q hq
          have hle : (i + 1) * b ≤ n * b := Nat.mul_le_mul_right b hi
          rw [Nat.add_mul, Nat.one_mul] at hle
          have := hD (i * b + q) (by omega)
          rw [← Nat.add_assoc, ← Nat.add_assoc] at this
          exact this) hI
      exact ⟨m', g1, by rw [Nat.add_mul, Nat.one_mul, ← Nat.add_assoc]; exact g2⟩)
    (by simpa using ha)
  rw [List.length_range] at h2
  exact ⟨m', h1, h2⟩

/-- the state of the loops when the first `k` chosen degrees of freedom are done -/
structure RPos (ndof nv : ℕ) (sizes D : List ℕ) (k : ℕ) (rest : List (ℕ × ℕ)) (s : BSt) : Prop where
  after : After ndof nv sizes D k s.maps
  pos : k < nv * sizes.sum → sizes[s.bt]? = some s.bs ∧ s.bos = (sizes.take s.bt).sum ∧ s.cnt < nv ∧ k = nv * s.bos + s.cnt * s.bs
  drop : D.drop k = List.range' s.lo (s.hi - s.lo) ++ dofsOf rest

/-- the degrees of freedom in front of the place `k` are whole blocks -/
def WholeBlocks (nv : ℕ) (sizes : List ℕ) (k : ℕ) : Prop := ∃ t b c, sizes[t]? = some b ∧ c ≤ nv ∧ k = nv * (sizes.take t).sum + c * b

theorem whole_gap {nv : ℕ} {sizes : List ℕ} {k e t b c : ℕ} (he : WholeBlocks nv sizes e) (ht : sizes[t]? = some b) (hc : c < nv) (hk : k = nv * (sizes.take t).sum + c * b) (hlt : k < e) :
    k + b ≤ e := by
  obtain ⟨t', b', c', h1, h2, rfl⟩ := he
  subst hk
  rcases Nat.lt_trichotomy t t' with h | rfl | h
  · have e1 := sum_take_succ ht
    have m := Nat.mul_le_mul_left nv (sum_take_mono sizes (show t + 1 ≤ t' by omega))
    rw [e1, Nat.mul_add] at m
    have : (c + 1) * b ≤ nv * b := Nat.mul_le_mul_right b hc
    rw [Nat.add_mul, Nat.one_mul] at this
    omega
  · rw [ht] at h1; cases h1
    have : c < c' := by
      by_contra hge
      have := Nat.mul_le_mul_right b (show c' ≤ c by omega)
      omega
    have := Nat.mul_le_mul_right b (show c + 1 ≤ c' by omega)
    rw [Nat.add_mul, Nat.one_mul] at this
    omega
  · exfalso
    have e1 := sum_take_succ h1
    have m := Nat.mul_le_mul_left nv (sum_take_mono sizes (show t' + 1 ≤ t by omega))
    rw [e1, Nat.mul_add] at m
    have := Nat.mul_le_mul_right b' h2
    omega

theorem drop_get {D : List ℕ} {k lo n : ℕ} {R : List ℕ} (h : D.drop k = List.range' lo n ++ R) {i : ℕ} (hi : i < n) : D[k + i]? = some (lo + i) := by
  rw [← List.getElem?_drop, h, List.getElem?_append_left (by simpa using hi), List.getElem?_range' hi]
  simp

theorem blockBody_spec {ndof nv : ℕ} {sizes D : List ℕ} (hnd : D.Nodup) (hlt : ∀ d ∈ D, d < ndof) (hl : D.length = nv * sizes.sum) (hpos : ∀ b ∈ sizes, 0 < b) {k : ℕ}
    {rest : List (ℕ × ℕ)} {s : BSt} (h : RPos ndof nv sizes D k rest s) (hlo : s.lo < s.hi) (hw : WholeBlocks nv sizes (k + (s.hi - s.lo))) :
    ∃ s' n, 0 < n ∧ n ≤ s.hi - s.lo ∧ blockBody nv sizes.sum sizes s = some s' ∧ s'.lo = s.lo + n ∧ s'.hi = s.hi ∧ RPos ndof nv sizes D (k + n) rest s' := by
  have hk : k < nv * sizes.sum := by
    rw [← hl]
    by_contra hge
    have := h.drop
    rw [List.drop_eq_nil_of_le (by omega)] at this
    have := congrArg List.length this
    simp at this
    omega
  obtain ⟨p1, p2, p3, p4⟩ := h.pos hk
  have hbs : 0 < s.bs := hpos _ (List.mem_of_getElem? p1)
  obtain ⟨n, hn⟩ : ∃ n, n = nBlocks nv s := ⟨_, rfl⟩
  have hge : s.bs ≤ s.hi - s.lo := by
    have := whole_gap (k := k) hw p1 p3 (by rw [p4, p2]) (by omega)
    omega
  have hn1 : 0 < n := by
    rw [hn]; unfold nBlocks
    have := Nat.div_pos hge hbs
    omega
  have hn2 : n * s.bs ≤ s.hi - s.lo := by
    have : n ≤ (s.hi - s.lo) / s.bs := by rw [hn]; unfold nBlocks; omega
    exact (Nat.mul_le_mul_right s.bs this).trans (Nat.div_mul_le_self _ _)
  have hn3 : s.cnt + n ≤ nv := by
    have : n ≤ nv - s.cnt := by rw [hn]; unfold nBlocks; omega
    omega
  obtain ⟨m', g1, g2⟩ := mapBlocks_spec hnd hlt (n := n) (lo := s.lo) (m := s.maps) p1 hn3 (by rw [p4, p2]) (fun i hi => drop_get h.drop (by omega)) h.after
  rw [← p2] at g1
  have hdrop : D.drop (k + n * s.bs) = List.range' (s.lo + n * s.bs) (s.hi - (s.lo + n * s.bs)) ++ dofsOf rest := by
    rw [← List.drop_drop, h.drop]
    rw [List.drop_append_of_le_length (by simpa using hn2), List.drop_range']
    congr 2
    · omega
    · omega
  refine ⟨nextType nv sizes ⟨m', s.bt, s.cnt + n, s.bs, s.bos, s.lo + n * s.bs, s.hi⟩, n * s.bs, Nat.mul_pos hn1 hbs, hn2, ?_, ?_, ?_, ?_⟩
  · unfold blockBody
    rw [if_neg (by omega), ← hn, g1]
    rfl
  · unfold nextType; split_ifs <;> rfl
  · unfold nextType; split_ifs <;> rfl
  · by_cases hc : s.cnt + n = nv
    · have e : nextType nv sizes ⟨m', s.bt, s.cnt + n, s.bs, s.bos, s.lo + n * s.bs, s.hi⟩ =
          ⟨m', s.bt + 1, 0, if s.bt + 1 < sizes.length then sizes.getD (s.bt + 1) 0 else s.bs, s.bos + s.bs, s.lo + n * s.bs, s.hi⟩ := by
        unfold nextType; dsimp only; rw [if_pos hc]
      rw [e]
      refine ⟨g2, ?_, hdrop⟩
      intro hk1
      dsimp only
      have hnext := sum_take_succ p1
      have hk2 : k + n * s.bs = nv * (sizes.take (s.bt + 1)).sum := by
        rw [hnext, p4, ← p2, Nat.mul_add, Nat.add_assoc, ← Nat.add_mul, hc]
      have hbt : s.bt + 1 < sizes.length := by
        by_contra hge
        rw [List.take_of_length_le (by omega)] at hk2
        omega
      rw [if_pos hbt, List.getD_eq_getElem?_getD, List.getElem?_eq_getElem hbt, Option.getD_some]
      exact ⟨rfl, by rw [hnext, p2], by omega, by rw [hk2, hnext, p2]; ring⟩
    · have e : nextType nv sizes ⟨m', s.bt, s.cnt + n, s.bs, s.bos, s.lo + n * s.bs, s.hi⟩ = ⟨m', s.bt, s.cnt + n, s.bs, s.bos, s.lo + n * s.bs, s.hi⟩ := by
        unfold nextType; dsimp only; rw [if_neg hc]
      rw [e]
      refine ⟨g2, ?_, hdrop⟩
      intro hk1
      dsimp only
      exact ⟨p1, p2, by omega, by rw [p4]; ring⟩

theorem runWhile_spec {ndof nv : ℕ} {sizes D : List ℕ} (hnd : D.Nodup) (hlt : ∀ d ∈ D, d < ndof) (hl : D.length = nv * sizes.sum) (hpos : ∀ b ∈ sizes, 0 < b) {rest : List (ℕ × ℕ)}
    (fuel : ℕ) {k : ℕ} {s : BSt} (h : RPos ndof nv sizes D k rest s) (hf : s.hi - s.lo ≤ fuel) (hw : WholeBlocks nv sizes (k + (s.hi - s.lo))) :
    ∃ s', runWhile nv sizes.sum sizes fuel s = .done s' ∧ s'.hi - s'.lo = 0 ∧ RPos ndof nv sizes D (k + (s.hi - s.lo)) rest s' := by
  induction fuel generalizing k s with
  | zero =>
    have e : s.hi - s.lo = 0 := by omega
    refine ⟨s, ?_, e, by rw [e]; exact h⟩
    unfold runWhile
    rw [if_neg (by omega)]
  | succ fuel ih =>
    unfold runWhile
    by_cases hlo : s.lo < s.hi
    · have hk : k < nv * sizes.sum := by
        rw [← hl]
        by_contra hge
        have := h.drop
        rw [List.drop_eq_nil_of_le (by omega)] at this
        have := congrArg List.length this
        simp at this
        omega
      have hbt : s.bt < sizes.length := (List.getElem?_eq_some_iff.mp (h.pos hk).1).1
      obtain ⟨s1, n, h1, h2, h3, h4, h5, h6⟩ := blockBody_spec hnd hlt hl hpos h hlo hw
      have e : k + n + (s1.hi - s1.lo) = k + (s.hi - s.lo) := by rw [h4, h5]; omega
      obtain ⟨s2, g1, g2, g3⟩ := ih h6 (by rw [h4, h5]; omega) (by rw [e]; exact hw)
      rw [e] at g3
      refine ⟨s2, ?_, g2, g3⟩
      rw [if_pos ⟨hlo, hbt⟩, h3]
      exact g1
    · have e : s.hi - s.lo = 0 := by omega
      exact ⟨s, by rw [if_neg (fun h => hlo h.1)], e, by rw [e]; exact h⟩

theorem inSS_take_succ (r : ℕ × ℕ) (rs : List (ℕ × ℕ)) (i : ℕ) : inSS ((r :: rs).take (i + 1)) = r.2 - r.1 + inSS (rs.take i) := by
  simp [inSS]

theorem runRanges_spec {ndof nv : ℕ} {sizes D : List ℕ} (hnd : D.Nodup) (hlt : ∀ d ∈ D, d < ndof) (hl : D.length = nv * sizes.sum) (hpos : ∀ b ∈ sizes, 0 < b) {fuel : ℕ}
    (ranges : List (ℕ × ℕ)) {k : ℕ} {s : BSt} (h : RPos ndof nv sizes D k ranges s) (he : s.hi - s.lo = 0) (hf : ∀ r ∈ ranges, r.2 - r.1 ≤ fuel)
    (hw : ∀ i, 0 < i → i ≤ ranges.length → WholeBlocks nv sizes (k + inSS (ranges.take i))) :
    ∃ s', runRanges nv sizes.sum sizes fuel ranges s = .done s' ∧ After ndof nv sizes D D.length s'.maps := by
  induction ranges generalizing k s with
  | nil =>
    refine ⟨s, rfl, ?_⟩
    have h1 := h.after
    have h2 := h.drop
    rw [he] at h2
    have h3 : D.length ≤ k := by simpa [dofsOf] using h2
    refine ⟨h1.len, h1.size, fun i d v c hi => h1.on i d v c (by omega), fun d hd hno => h1.off d hd fun i hi heq => ?_⟩
    have := (List.getElem?_eq_some_iff.mp heq).1
    exact hno i this heq
  | cons r rs ih =>
    have hpos1 : RPos ndof nv sizes D k rs { s with lo := r.1, hi := r.2 } := by
      refine ⟨h.after, h.pos, ?_⟩
      rw [h.drop, he]
      simp [dofsOf]
    have hw1 : WholeBlocks nv sizes (k + (r.2 - r.1)) := by
      have := hw 1 (by omega) (by simp)
      rw [inSS_take_succ] at this
      simpa [inSS] using this
    obtain ⟨s1, g1, g2, g3⟩ := runWhile_spec hnd hlt hl hpos fuel hpos1 (hf r (by simp)) hw1
    dsimp only at g3
    obtain ⟨s2, g4, g5⟩ := ih g3 g2 (fun r hr => hf r (by simp [hr])) (fun i hi hi2 => by
      have := hw (i + 1) (by omega) (by simp; omega)
      rw [inSS_take_succ] at this
      rw [Nat.add_assoc]
      exact this)
    exact ⟨s2, by unfold runRanges; rw [g1]; exact g4, g5⟩

/-- the numbering with several block sizes, from ranges that end behind whole blocks -/
theorem rangeMulti_correct {ndof nv fuel : ℕ} {sizes : List ℕ} {ranges : List (ℕ × ℕ)} (hne : sizes ≠ []) (hpos : ∀ b ∈ sizes, 0 < b) (hnd : (dofsOf ranges).Nodup)
    (hlt : ∀ d ∈ dofsOf ranges, d < ndof) (hl : (dofsOf ranges).length = nv * sizes.sum) (hw : ∀ i ≤ ranges.length, WholeBlocks nv sizes (inSS (ranges.take i)))
    (hf : ∀ r ∈ ranges, r.2 - r.1 ≤ fuel) : ∃ s, rangeMulti ndof sizes ranges fuel = .done s ∧ Numbering ndof nv sizes (dofsOf ranges) id s.maps.d2v s.maps.v2d := by
  obtain ⟨b, bs, rfl⟩ := List.exists_cons_of_ne_nil hne
  have hb0 : 0 < b := hpos b (by simp)
  have hsum : 0 < (b :: bs).sum := by rw [List.sum_cons]; omega
  have hnv : inSS ranges / (b :: bs).sum = nv := by rw [inSS_eq, hl, Nat.mul_div_cancel _ hsum]
  obtain ⟨s, h1, h2⟩ := runRanges_spec (ndof := ndof) (k := 0) (s := ⟨initMaps ndof (nv * (b :: bs).sum), 0, 0, b, 0, 0, 0⟩) hnd hlt hl hpos ranges
    ⟨after_zero _ _ _ _, fun hk => ⟨rfl, by simp, Nat.pos_of_mul_pos_right hk, by simp⟩, by simp⟩ rfl hf
    (fun i _ hi => by rw [Nat.zero_add]; exact hw i hi)
  exact ⟨s, by unfold rangeMulti; rw [hnv]; exact h1, after_end hl h2⟩

end NgsAMG.DofM
