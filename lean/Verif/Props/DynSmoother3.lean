import Verif.Props.DynSmoother2

/-! The update of a row-block in `DynBlockSmoother` is the textbook correction of a block. -/

namespace NgsAMG.DynBlock
open Matrix NgsAMG.GS NgsAMG.Spec NgsAMG.BlkGS

/-- a scalar sparse matrix as a matrix with blocks of size one -/
def lift (A : CSR ℝ) : CSR (Blk 1) := ⟨A.height, A.width, fun i => (A.row i).map fun e => (e.1, sc e.2)⟩

theorem lift_wf {A : CSR ℝ} (hA : A.WF) : (lift A).WF where
  sorted i := by
    have := hA.sorted i
    simpa only [lift, List.map_map, Function.comp_def] using this
  inRange i e he := by
    obtain ⟨a, ha, rfl⟩ := List.mem_map.1 he
    exact hA.inRange i a ha
  outside i hi := by rw [lift]; simp only [hA.outside i hi, List.map_nil]

theorem lift_entry (A : CSR ℝ) : (lift A).entry = dense A := by
  funext i j
  simp only [dense, CSR.entry, lift]
  induction A.row i with
  | nil => funext c d; rfl
  | cons e l ih =>
    by_cases he : e.1 = j
    · rw [List.map_cons, List.filter_cons_of_pos (by simpa using he), List.filter_cons_of_pos (by simpa using he), List.map_cons, List.map_cons, List.sum_cons,
        List.sum_cons, ih]
      rfl
    · rw [List.map_cons, List.filter_cons_of_neg (by simpa using he), List.filter_cons_of_neg (by simpa using he), ih]

/-- symmetric matrix -/
def SymmR (A : CSR ℝ) : Prop := A.height = A.width ∧ ∀ i j, A.entry i j = A.entry j i

theorem lift_symm {A : CSR ℝ} (h : SymmR A) : Symm (lift A) := by
  refine ⟨h.1, fun i j => ?_⟩
  rw [lift_entry]
  funext c d
  exact h.2 i j

theorem mulBlock_up1 (n : ℕ) (A : CSR ℝ) (hn : A.width = n) (x : ℕ → ℝ) : mulBlock n (dense A) (up1 x) = up1 (matVec A x) := by
  funext i c
  subst hn
  simp only [mulBlock, up1, matVec, Finset.sum_apply]
  refine Finset.sum_congr rfl fun j _ => ?_
  simp [mulVec, dotProduct, dense, sc, up1]

theorem multRow_up1 {A : CSR ℝ} (hA : A.WF) (x : ℕ → ℝ) : multRow (lift A) (up1 x) = up1 (matVec A x) := by
  rw [multRow_eq _ (lift_wf hA), lift_entry]
  exact mulBlock_up1 _ A rfl x

/-- textbook block: the unknowns `F`, the scaled inverse of their diagonal block -/
noncomputable def dynBlock (A : CSR ℝ) (md : Option (ℕ → ℝ)) (omega : ℝ) (F : List ℕ) : SBlock 1 := ⟨F, omega • (diagBlock (denseMd A md) F)⁻¹⟩

/-- see `dynBlock` -/
noncomputable def dynB (A : CSR ℝ) (md : Option (ℕ → ℝ)) (omega : ℝ) (F : List ℕ) : BBlock 1 := ⟨F, omega • (diagBlock (denseMd A md) F)⁻¹⟩

/-- correction of the unknown `j` -/
noncomputable def corrNum (A : CSR ℝ) (md : Option (ℕ → ℝ)) (omega : ℝ) (F : List ℕ) (r : ℕ → ℝ) (j : ℕ) : ℝ := omega * ∑ t : Fin F.length, invNum A md F j F[t] * r F[t]

theorem corrNum_out (A : CSR ℝ) (md : Option (ℕ → ℝ)) (omega : ℝ) (F : List ℕ) (r : ℕ → ℝ) {j : ℕ} (hj : j ∉ F) : corrNum A md omega F r j = 0 := by
  rw [corrNum, Finset.sum_eq_zero, mul_zero]
  intro t _
  rw [invNum_out _ _ _ (.inl hj), zero_mul]

theorem dinv_apply (A : CSR ℝ) (md : Option (ℕ → ℝ)) (omega : ℝ) {F : List ℕ} (hn : F.Nodup) (r : ℕ → ℝ) (p : Fin F.length) (c : Fin 1) :
    ((omega • (diagBlock (denseMd A md) F)⁻¹ : Matrix (Fin F.length × Fin 1) (Fin F.length × Fin 1) ℝ) *ᵥ fun q : Fin F.length × Fin 1 => r F[q.1]) (p, c) = corrNum A md omega F r F[p] := by
  rw [corrNum, mulVec, dotProduct, Fintype.sum_prod_type, Finset.mul_sum]
  refine Finset.sum_congr rfl fun t _ => ?_
  rw [Fin.sum_univ_one]
  show omega * _ * _ = _
  rw [← invNum_get A md hn p t c 0, mul_assoc]

theorem addAt_num {F : List ℕ} (hn : F.Nodup) (g : ℕ → ℝ) (hg : ∀ j, j ∉ F → g j = 0) (u : Fin F.length × Fin 1 → ℝ) (hu : ∀ p c, u (p, c) = g F[p]) (x : ℕ → ℝ) :
    addAt F u (up1 x) = up1 fun j => x j + g j := by
  funext j c
  by_cases hj : j ∈ F
  · obtain ⟨p, hp, rfl⟩ := List.getElem_of_mem hj
    have := congrFun (addAt_self hn u (up1 x) ⟨p, hp⟩) c
    refine this.trans ?_
    show x F[p] + u (⟨p, hp⟩, c) = _
    rw [hu]
    rfl
  · rw [addAt_outside F u (up1 x) hj]
    show x j = x j + g j
    rw [hg j hj, add_zero]

theorem stepRHS_num {A : CSR ℝ} (hA : A.WF) (md : Option (ℕ → ℝ)) (omega : ℝ) {F : List ℕ} (hn : F.Nodup) (b x : ℕ → ℝ) :
    stepRHS (lift A) (up1 b) (up1 x) (dynB A md omega F) = up1 fun j => x j + corrNum A md omega F (fun i => b i - matVec A x i) j := by
  rw [stepRHS]
  refine addAt_num hn _ (fun j hj => corrNum_out A md omega F _ hj) _ ?_ x
  intro p c
  rw [hupRHS]
  have hm := multRow_up1 hA x
  have e : (fun p : Fin (dynB A md omega F).dofs.length × Fin 1 => (up1 b (dynB A md omega F).dofs[p.1] - rowTimesVector (lift A) (dynB A md omega F).dofs[p.1] (up1 x)) p.2) =
      fun q => (fun i => b i - matVec A x i) F[q.1] := by
    funext q
    have := congrFun (congrFun hm F[q.1]) q.2
    show b F[q.1] - rowTimesVector (lift A) F[q.1] (up1 x) q.2 = _
    rw [show rowTimesVector (lift A) F[q.1] (up1 x) q.2 = matVec A x F[q.1] from this]
  rw [e]
  exact dinv_apply A md omega hn (fun i => b i - matVec A x i) p c

theorem stepRES_num {A : CSR ℝ} (md : Option (ℕ → ℝ)) (omega : ℝ) {F : List ℕ} (hn : F.Nodup) (x r : ℕ → ℝ) :
    stepRES (lift A) (up1 x, up1 r) (dynB A md omega F) = (up1 fun j => x j + corrNum A md omega F r j,
      up1 fun j => r j - ∑ t : Fin F.length, A.entry F[t] j * corrNum A md omega F r F[t]) := by
  rw [stepRES]
  dsimp only
  have hd := fun p c => dinv_apply A md omega hn r p c
  congr 1
  · exact addAt_num hn _ (fun j hj => corrNum_out A md omega F _ hj) _ hd x
  · funext j
    rw [addRows_apply]
    funext c
    show r j - _ = r j - _
    congr 1
    rw [← List.map_congr_left (fun p _ => rfl), ← Fin.sum_univ_def, Finset.sum_apply]
    refine Finset.sum_congr rfl fun t _ => ?_
    rw [lift_entry]
    show ((dense A F[t] j)ᵀ *ᵥ fun c => ((dynB A md omega F).dinv *ᵥ fun q => r F[q.1]) (t, c)) c = _
    rw [mulVec, dotProduct, Fin.sum_univ_one]
    exact congrArg (A.entry F[t] j * ·) (hd t 0)

/-! ### the kernels -/

theorem sum_filter' (rows : List ℕ) (fr : ℕ → Bool) {F : List ℕ} (hF : F = rows.filter fr) (g : ℕ → ℝ) (hg : ∀ r ∈ rows, fr r = false → g r = 0) :
    ∑ s : Fin rows.length, g rows[s] = ∑ t : Fin F.length, g F[t] := by
  subst hF
  exact sum_filter rows fr g hg

theorem addList_aux (idx : List ℕ) (hn : idx.Nodup) (w : ℕ → ℝ) (g : ℕ → ℝ) (n : ℕ) (hg : ∀ l r, idx[l]? = some r → w (n + l) = g r) (v : ℕ → ℝ) :
    (idx.zipIdx n).foldl (fun v e => Function.update v e.1 (v e.1 + w e.2)) v = fun j => if j ∈ idx then v j + g j else v j := by
  induction idx generalizing n v with
  | nil => simp
  | cons a l ih =>
    have hn' := List.nodup_cons.1 hn
    rw [List.zipIdx_cons, List.foldl_cons, ih hn'.2 (n + 1) fun m r hr => by rw [← hg (m + 1) r (by simpa using hr)]; congr 1; omega]
    funext j
    by_cases hj : j = a
    · subst hj
      rw [if_neg hn'.1, if_pos List.mem_cons_self, Function.update_self]
      have := hg 0 j (by simp)
      rw [← this, Nat.add_zero]
    · rw [Function.update_of_ne hj]
      simp only [List.mem_cons, hj, false_or]

theorem addList_num (idx : List ℕ) (hn : idx.Nodup) (w : ℕ → ℝ) (g : ℕ → ℝ) (hg : ∀ l r, idx[l]? = some r → w l = g r) (v : ℕ → ℝ) :
    addList idx w v = fun j => if j ∈ idx then v j + g j else v j :=
  addList_aux idx hn w g 0 (fun l r h => by rw [Nat.zero_add]; exact hg l r h) v

theorem StoredOK.times {A : CSR ℝ} {D : Dyn ℝ} {md : Option (ℕ → ℝ)} {fr : Option (ℕ → Bool)} {blk : RowBlock ℝ} {r : Bool × DBlk} (h : StoredOK A D md fr blk r)
    (hne : freeOf D fr blk ≠ []) (g : ℕ → ℝ) (v : ℕ → ℝ) (hv : ∀ l a, (D.srows blk)[l]? = some a → v l = g a) {l a : ℕ} (hl : (D.srows blk)[l]? = some a) :
    r.2.times v l = ∑ t : Fin (freeOf D fr blk).length, invNum A md (freeOf D fr blk) a (freeOf D fr blk)[t] * g (freeOf D fr blk)[t] := by
  have hcols : D.scols blk ≠ [] := by
    intro h0
    rw [freeOf, if_pos h0] at hne
    exact hne rfl
  have hF : freeOf D fr blk = (D.srows blk).filter fun i => (fr.map fun f => f i).getD true := by rw [freeOf, if_neg hcols]
  have hs := h.size hcols
  have hm := h.mat hne
  obtain ⟨bit, B⟩ := r
  obtain ⟨n, mat⟩ := B
  dsimp only at hs hm ⊢
  subst hs
  have hll : l < (D.srows blk).length := (List.getElem?_eq_some_iff.1 hl).1
  rw [DBlk.times, dif_pos hll, mulVec, dotProduct]
  have hterm : ∀ q : Fin (D.srows blk).length, mat ⟨l, hll⟩ q * v q = (fun s => invNum A md (freeOf D fr blk) a s * g s) (D.srows blk)[q] := by
    intro q
    rw [hm ⟨l, hll⟩ q a _ hl (List.getElem?_eq_getElem q.2), hv q _ (List.getElem?_eq_getElem q.2)]
    rfl
  rw [Finset.sum_congr rfl fun q _ => hterm q]
  · refine sum_filter' (D.srows blk) (fun i => (fr.map fun f => f i).getD true) hF (fun s => invNum A md (freeOf D fr blk) a s * g s) ?_
    intro s _ hs
    rw [invNum_out _ _ _ (.inr ?_), zero_mul]
    rw [hF, List.mem_filter]
    rintro ⟨-, h⟩
    rw [hs] at h
    cases h

/-- the object made by `SetUp` -/
structure ObjOK (A : CSR ℝ) (md : Option (ℕ → ℝ)) (fr : Option (ℕ → Bool)) (omega : ℝ) (S : DSm) : Prop where
  omega : S.omega = omega
  blocks : ∀ blk ∈ S.A.blocks, BlockOK A S.A blk
  free : S.free = none ↔ fr = none
  stored : ∀ k blk, S.A.blocks[k]? = some blk → ∃ bit B, S.dinv[k]? = some B ∧ StoredOK A S.A md fr blk (bit, B) ∧ ∀ fb, S.free = some fb → fb.getD k false = bit

theorem matVec_row {A : CSR ℝ} (hA : A.WF) {D : Dyn ℝ} {blk : RowBlock ℝ} (h : BlockOK A D blk) (x : ℕ → ℝ) {l a : ℕ} (hl : (D.srows blk)[l]? = some a) :
    denseRow blk.data ((D.scols blk).map x) l = matVec A x a := by
  have hlen : ∀ r ∈ D.srows blk, ((A.row r).map Prod.snd).length = ((D.scols blk).map x).length := by
    intro r hr
    rw [List.length_map, List.length_map, show D.scols blk = D.colB.scalNums blk.cols from rfl, ← h.same r hr, cols, List.length_map]
  rw [h.data]
  refine (denseRow_flatMap _ _ _ hlen l a hl).trans ?_
  rw [← rowSum_eq A x a (hA.inRange a), h.same a (List.mem_of_getElem? hl)]
  rfl

theorem updRHS_num {A : CSR ℝ} (hA : A.WF) {md : Option (ℕ → ℝ)} {fr : Option (ℕ → Bool)} {omega : ℝ} {S : DSm} (hS : ObjOK A md fr omega S) {k : ℕ} {blk : RowBlock ℝ}
    (hk : S.A.blocks[k]? = some blk) (hact : fr = none ∨ freeOf S.A fr blk ≠ []) (b x : ℕ → ℝ) :
    updRHS S b k x = some fun j => x j + corrNum A md omega (freeOf S.A fr blk) (fun i => b i - matVec A x i) j := by
  have hok := hS.blocks blk (List.mem_of_getElem? hk)
  obtain ⟨bit, B, hB, hst, -⟩ := hS.stored k blk hk
  have hn : (S.A.srows blk).Nodup := hok.sorted.imp fun h => ne_of_lt h
  rw [updRHS, hk, Option.bind_some, hB, Option.bind_some]
  dsimp only
  rw [if_neg (by rw [List.length_map]; have := hok.mc; unfold Dyn.scols; omega)]
  by_cases hcols : S.A.scols blk = []
  · rw [if_pos (by rw [hcols]; rfl)]
    congr 1
    funext j
    rw [corrNum_out, add_zero]
    rw [freeOf, if_pos hcols]
    exact List.not_mem_nil
  · rw [if_neg (by rw [List.length_map]; exact fun h0 => hcols (List.eq_nil_of_length_eq_zero h0))]
    have hne : freeOf S.A fr blk ≠ [] := by
      rcases hact with rfl | h
      · rw [freeOf, if_neg hcols]
        rw [show (S.A.srows blk).filter (fun i => (Option.map (fun f : ℕ → Bool => f i) none).getD true) = S.A.srows blk from List.filter_eq_self.2 fun _ _ => rfl]
        exact hok.ne
      · exact h
    have hsz : B.size = (S.A.srows blk).length := hst.size hcols
    rw [if_neg (by have := hok.mr; unfold Dyn.srows at hsz ⊢; omega)]
    congr 1
    rw [addList_num (S.A.srows blk) hn _ (fun j => corrNum A md omega (freeOf S.A fr blk) (fun i => b i - matVec A x i) j) ?_ x]
    · funext j
      split
      · rfl
      · rename_i hj
        rw [corrNum_out, add_zero]
        intro hm
        rw [freeOf, if_neg hcols] at hm
        exact hj (List.mem_filter.1 hm).1
    · intro l a hl
      rw [hS.omega, corrNum]
      congr 1
      refine hst.times hne (fun i => b i - matVec A x i) _ ?_ hl
      intro l a hl
      rw [matVec_row hA hok x hl]
      have : ((S.A.srows blk).map b).getD l 0 = b a := by
        rw [List.getD_eq_getElem?_getD, List.getElem?_map, hl]
        rfl
      rw [this]

theorem updRes_num {A : CSR ℝ} (hA : A.WF) {md : Option (ℕ → ℝ)} {fr : Option (ℕ → Bool)} {omega : ℝ} {S : DSm} (hS : ObjOK A md fr omega S) {k : ℕ} {blk : RowBlock ℝ}
    (hk : S.A.blocks[k]? = some blk) (hne : freeOf S.A fr blk ≠ []) (x r : ℕ → ℝ) :
    updRes S k (x, r) = some (fun j => x j + corrNum A md omega (freeOf S.A fr blk) r j,
      fun j => r j - ∑ t : Fin (freeOf S.A fr blk).length, A.entry (freeOf S.A fr blk)[t] j * corrNum A md omega (freeOf S.A fr blk) r (freeOf S.A fr blk)[t]) := by
  have hok := hS.blocks blk (List.mem_of_getElem? hk)
  obtain ⟨bit, B, hB, hst, -⟩ := hS.stored k blk hk
  have hn : (S.A.srows blk).Nodup := hok.sorted.imp fun h => ne_of_lt h
  have hcols : S.A.scols blk ≠ [] := by
    intro h0
    rw [freeOf, if_pos h0] at hne
    exact hne rfl
  have hF : freeOf S.A fr blk = (S.A.srows blk).filter fun i => (fr.map fun f => f i).getD true := by rw [freeOf, if_neg hcols]
  have hsz : B.size = (S.A.srows blk).length := hst.size hcols
  have hrl : 0 < (S.A.srows blk).length := List.length_pos_iff.2 hok.ne
  have hdl : blk.data.length = (S.A.srows blk).length * (S.A.scols blk).length := by
    have hlen : ∀ r ∈ S.A.srows blk, ((A.row r).map Prod.snd).length = (S.A.scols blk).length := by
      intro r hr
      rw [List.length_map, show S.A.scols blk = S.A.colB.scalNums blk.cols from rfl, ← hok.same r hr, cols, List.length_map]
    rw [hok.data]
    show ((S.A.srows blk).flatMap fun r => (A.row r).map Prod.snd).length = _
    rw [List.length_flatMap, List.map_congr_left hlen]
    simp
  have hnc : blk.data.length / (S.A.srows blk).length = (S.A.scols blk).length := by rw [hdl, Nat.mul_div_cancel_left _ hrl]
  obtain ⟨r0, hr0⟩ := List.exists_mem_of_ne_nil _ hok.ne
  have hcn : (S.A.scols blk).Nodup := by
    have := hA.sorted r0
    rw [show (A.row r0).map Prod.fst = cols A r0 from rfl, hok.same r0 hr0] at this
    exact this.imp fun h => ne_of_lt h
  rw [updRes, hk, Option.bind_some, hB, Option.bind_some]
  dsimp only
  rw [if_neg (by have := hok.mr; unfold Dyn.srows at hsz hrl ⊢; omega), hnc, if_neg (by have := hok.mc; unfold Dyn.scols; omega)]
  have hup : ∀ l a, (S.A.srows blk)[l]? = some a → S.omega * B.times (fun l => ((S.A.srows blk).map r).getD l 0) l = corrNum A md omega (freeOf S.A fr blk) r a := by
    intro l a hl
    rw [hS.omega, corrNum]
    congr 1
    refine hst.times hne r _ ?_ hl
    intro l a hl
    rw [List.getD_eq_getElem?_getD, List.getElem?_map, hl]
    rfl
  congr 2
  · rw [addList_num (S.A.srows blk) hn _ (fun j => corrNum A md omega (freeOf S.A fr blk) r j) hup x]
    funext j
    split
    · rfl
    · rename_i hj
      rw [corrNum_out, add_zero]
      intro hm
      rw [hF] at hm
      exact hj (List.mem_filter.1 hm).1
  · have hsum : ∀ j, ∑ t : Fin (freeOf S.A fr blk).length, A.entry (freeOf S.A fr blk)[t] j * corrNum A md omega (freeOf S.A fr blk) r (freeOf S.A fr blk)[t] =
        ∑ l : Fin (S.A.srows blk).length, A.entry (S.A.srows blk)[l] j * corrNum A md omega (freeOf S.A fr blk) r (S.A.srows blk)[l] := by
      intro j
      · refine (sum_filter' (S.A.srows blk) (fun i => (fr.map fun f => f i).getD true) hF (fun i => A.entry i j * corrNum A md omega (freeOf S.A fr blk) r i) ?_).symm
        intro s _ hs
        rw [corrNum_out, mul_zero]
        rw [hF, List.mem_filter]
        rintro ⟨-, h⟩
        rw [hs] at h
        cases h
    rw [addList_num (S.A.scols blk) hcn _ (fun j => -∑ l : Fin (S.A.srows blk).length, A.entry (S.A.srows blk)[l] j * corrNum A md omega (freeOf S.A fr blk) r (S.A.srows blk)[l]) ?_ r]
    · funext j
      rw [hsum j]
      split
      · ring
      · rename_i hj
        rw [Finset.sum_eq_zero, sub_zero]
        intro l _
        rw [entry_notmem, zero_mul]
        have := hok.same (S.A.srows blk)[l] (List.getElem_mem _)
        rw [this]
        exact hj
    · intro c j hc
      rw [denseCol]
      congr 1
      have e : ∀ f : ℕ → ℝ, ((List.range (S.A.srows blk).length).map f).sum = ∑ l : Fin (S.A.srows blk).length, f l := fun f => by
        rw [← Finset.sum_range]
        rfl
      rw [e]
      refine Finset.sum_congr rfl fun l _ => ?_
      have hl : (S.A.srows blk)[(l : ℕ)]? = some (S.A.srows blk)[l] := List.getElem?_eq_getElem l.2
      rw [hok.value hA hl hc, hup l _ hl]

end NgsAMG.DynBlock
