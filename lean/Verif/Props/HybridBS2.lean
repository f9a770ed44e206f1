import Verif.Props.HybridBS
import Verif.Props.HybridEnergy

/-! C82: `HybridBS`. Second part: the parallel smoother. -/

namespace NgsAMG.HybSm
open NgsAMG.DCC NgsAMG.Hybrid NgsAMG.Exch NgsAMG.GS NgsAMG.Spec NgsAMG.BlkGS Matrix

variable {k : ℕ}

/-! ### specification -/

/-- the blocks of the rounds between the first two stages and the last one -/
def loopList {β : Type} (ord : ℕ → List β) (symmLoc bw : Bool) : ℕ → List β
  | 0 => []
  | n + 1 => stageList ord symmLoc (p2 bw) bw ++ stageList ord symmLoc .ex bw ++ stageList ord symmLoc (p1 bw) bw ++ loopList ord symmLoc bw n

/-- all blocks that a process visits during a call, in this order; `ord i` are the blocks of group `i` -/
def allBlocks {β : Type} (ord : ℕ → List β) (symmLoc bw : Bool) (nls : ℤ) : List β :=
  stageList ord symmLoc (p1 bw) bw ++ stageList ord symmLoc .ex bw ++ loopList ord symmLoc bw (rounds nls) ++ stageList ord symmLoc (p2 bw) bw

/-- a block of the process, with the inverse of its diagonal block of the *global* operator, whose diagonal is replaced by `md` if there is one -/
def globalBlock (P : PD) (A : ℕ → CSR (Blk k)) (inv : Inverter k) (md : ℕ → Option (ℕ → Blk k)) (p : ℕ) (b : List ℕ) : SBlock k :=
  ⟨b.insertionSort (· ≤ ·), inv _ (diagBlock (fun i j => match md p with
    | some d => if i = j then d i else gop P A (P.glob p i) (P.glob p j)
    | none => gop P A (P.glob p i) (P.glob p j)) (b.insertionSort (· ≤ ·)))⟩

/-- `ord p i` are the blocks of group `i` of process `p`: in the given order, or in some other order if they are visited by colors -/
def GroupOrder (P : PD) (A : ℕ → CSR (Blk k)) (inv : Inverter k) (md : ℕ → Option (ℕ → Blk k)) (blocks : ℕ → List (List ℕ)) (symmLoc bs2 parallel : Bool)
    (ord : ℕ → ℕ → List (SBlock k)) : Prop :=
  ∀ p < P.np, ∀ i < (if symmLoc then 2 else 3), (ord p i).Perm ((stageGroup P p symmLoc (blocks p) i).map (globalBlock P A inv md p)) ∧
    (bs2 = true ∨ parallel = false → ord p i = (stageGroup P p symmLoc (blocks p) i).map (globalBlock P A inv md p))

/-- the new iterate of the hybrid block smoother on its master: textbook block Gauss-Seidel with the process's part of the *global* operator, in the order
`allBlocks`, for the right hand side `b - (couplings to other processes' unknowns) x_old` -/
noncomputable def bsX (P : PD) (A : ℕ → CSR (Blk k)) (ord : ℕ → ℕ → List (SBlock k)) (symmLoc bw : Bool) (nls : ℤ) (xh bh : ℕ → Fin k → ℝ) (g : ℕ) : Fin k → ℝ :=
  let p := P.owner g
  blockSweep (P.ndof p) (blockOp P A p) (allBlocks (ord p) symmLoc bw nls) (fun d => xh (P.glob p d))
    (fun d => bh (P.glob p d) - ∑ h ∈ allDofs P, if P.owner (P.glob p d) = P.owner h then 0 else gop P A (P.glob p d) h *ᵥ xh h)
    (P.loc p g)

/-! ### the stages are admissible -/

theorem map_stageList {β γ : Type} (f : β → γ) (ord : ℕ → List β) (symmLoc : Bool) (st : Stage) (bw : Bool) :
    (stageList ord symmLoc st bw).map f = stageList (fun i => (ord i).map f) symmLoc st bw := by
  cases symmLoc <;> cases st <;> cases bw <;> simp [stageList]

theorem map_loopList {β γ : Type} (f : β → γ) (ord : ℕ → List β) (symmLoc bw : Bool) (n : ℕ) :
    (loopList ord symmLoc bw n).map f = loopList (fun i => (ord i).map f) symmLoc bw n := by
  induction n with
  | zero => rfl
  | succ n ih => simp only [loopList, List.map_append, ih, map_stageList]

theorem map_allBlocks {β γ : Type} (f : β → γ) (ord : ℕ → List β) (symmLoc bw : Bool) (nls : ℤ) :
    (allBlocks ord symmLoc bw nls).map f = allBlocks (fun i => (ord i).map f) symmLoc bw nls := by
  simp only [allBlocks, List.map_append, map_stageList, map_loopList]

theorem stepRHS_congr (M : CSR (Blk k)) {b b' : BVec k} (L : List (BBlock k)) (h : ∀ B ∈ L, ∀ d ∈ B.dofs, b d = b' d) (x : BVec k) :
    L.foldl (stepRHS M b) x = L.foldl (stepRHS M b') x := by
  induction L generalizing x with
  | nil => rfl
  | cons B L ih =>
    have e : stepRHS M b x B = stepRHS M b' x B := by
      unfold stepRHS hupRHS
      congr 2
      funext p
      rw [h B List.mem_cons_self B.dofs[p.1] (List.getElem_mem _)]
    rw [List.foldl_cons, List.foldl_cons, e]
    exact ih (fun B hB => h B (List.mem_cons_of_mem _ hB)) _

theorem stepRHS_outside (M : CSR (Blk k)) (b : BVec k) (L : List (BBlock k)) {j : ℕ} (hj : ∀ B ∈ L, j ∉ B.dofs) (x : BVec k) :
    L.foldl (stepRHS M b) x j = x j := by
  induction L generalizing x with
  | nil => rfl
  | cons B L ih =>
    rw [List.foldl_cons, ih fun B hB => hj B (List.mem_cons_of_mem _ hB)]
    exact addAt_outside _ _ _ (hj B List.mem_cons_self)

theorem stage_blocks {M : CSR (Blk k)} (L : List (BBlock k)) (S : ℕ → Prop) (hL : ∀ B ∈ L, ∀ d ∈ B.dofs, S d) {rhs : BVec k → BVec k → BVec k}
    {res : BVec k → BVec k → BVec k × BVec k} (h1 : ∀ x b, rhs x b = L.foldl (stepRHS M b) x)
    (h2 : ∀ x r, res x r = (L.foldl (stepRHS M (r + multRow M x)) x, r + multRow M x - multRow M (L.foldl (stepRHS M (r + multRow M x)) x))) :
    StageOK M S rhs res where
  congr x b b' h := by rw [h1, h1]; exact stepRHS_congr M L (fun B hB d hd => h d (hL B hB d hd)) x
  frame x b i hi := by rw [h1]; exact stepRHS_outside M b L (fun B hB hd => hi (hL B hB i hd)) x
  res_eq x r := by rw [h2, h1]

/-- groups that a stage uses -/
theorem mem_stageList {β : Type} {ord : ℕ → List β} {symmLoc : Bool} {st : Stage} {bw : Bool} {B : β} (h : B ∈ stageList ord symmLoc st bw) :
    ∃ i < (if symmLoc then 2 else 3), B ∈ ord i ∧ (st ≠ .ex → i ≠ 1) := by
  cases symmLoc
  · refine ⟨st.idx, by cases st <;> simp [Stage.idx], by cases bw <;> simpa [stageList] using h, by cases st <;> simp [Stage.idx]⟩
  · cases st
    · exact ⟨0, by simp, by simpa [stageList] using h, by simp⟩
    · exact ⟨1, by simp, by simpa [stageList] using h, by simp⟩
    · exact ⟨0, by simp, by simpa [stageList] using h, by simp⟩

theorem mem_allBlocks {β : Type} {ord : ℕ → List β} {symmLoc bw : Bool} {nls : ℤ} {B : β} (h : B ∈ allBlocks ord symmLoc bw nls) :
    ∃ i < (if symmLoc then 2 else 3), B ∈ ord i := by
  have hl : ∀ n, B ∈ loopList ord symmLoc bw n → ∃ i < (if symmLoc then 2 else 3), B ∈ ord i := by
    intro n
    induction n with
    | zero => intro h; simp [loopList] at h
    | succ n ih =>
      intro h
      simp only [loopList, List.mem_append] at h
      rcases h with ((h | h) | h) | h
      · obtain ⟨i, h1, h2, _⟩ := mem_stageList h; exact ⟨i, h1, h2⟩
      · obtain ⟨i, h1, h2, _⟩ := mem_stageList h; exact ⟨i, h1, h2⟩
      · obtain ⟨i, h1, h2, _⟩ := mem_stageList h; exact ⟨i, h1, h2⟩
      · exact ih h
  simp only [allBlocks, List.mem_append] at h
  rcases h with ((h | h) | h) | h
  · obtain ⟨i, h1, h2, _⟩ := mem_stageList h; exact ⟨i, h1, h2⟩
  · obtain ⟨i, h1, h2, _⟩ := mem_stageList h; exact ⟨i, h1, h2⟩
  · exact hl _ h
  · obtain ⟨i, h1, h2, _⟩ := mem_stageList h; exact ⟨i, h1, h2⟩

/-- the object of process `p` with its order of the blocks -/
structure ObjOK (P : PD) (p : ℕ) (M : CSR (Blk k)) (inv : Inverter k) (md : Option (ℕ → Blk k)) (blocks : List (List ℕ)) (symmLoc bs2 parallel : Bool)
    (S : HBS k) (ord : ℕ → List (BBlock k)) : Prop where
  perm : ∀ i < (if symmLoc then 2 else 3), (ord i).Perm (codeBlocks inv M md (stageGroup P p symmLoc blocks i)) ∧
    (bs2 = true ∨ parallel = false → ord i = codeBlocks inv M md (stageGroup P p symmLoc blocks i))
  stages : ∀ st bw, StageEq S M symmLoc ord st bw

theorem obj_exists {P : PD} {p : ℕ} (hp : p < P.np) {M : CSR (Blk k)} (hM : M.WF) (hs : Symm M) (hH : M.height = P.ndof p) (inv : Inverter k)
    (color : List (List ℕ) → ℕ × List ℕ) (hcol : ColoringOK color) {idle : Bool} (h2 : P.np = 2 → idle = true) (blocks : List (List ℕ))
    (hb : ∀ b ∈ blocks, b.Nodup ∧ ∀ d ∈ b, d < P.ndof p) (bs2 parallel symmLoc : Bool) (md : Option (ℕ → Blk k)) :
    ∃ S ord, mkHBS inv color M (fblocks P p idle symmLoc blocks) bs2 parallel md = some S ∧ ObjOK P p M inv md blocks symmLoc bs2 parallel S ord := by
  obtain ⟨m, hm, hf⟩ := fblocks_eq hp h2 symmLoc fun b h => (hb b h).2
  rw [hf]
  obtain ⟨S, ord, h1, h3, h4⟩ := mkHBS_ok hM hs inv color hcol ((List.range m).map (stageGroup P p symmLoc blocks)) (by
    intro g hg b hbg
    obtain ⟨i, _, rfl⟩ := List.mem_map.1 hg
    exact ⟨stageGroup_nodup (fun b h => (hb b h).1) b hbg, fun d hd => by
      rw [hH]; exact (stageGroup_dofs hp (fun b h => (hb b h).2) hbg hd).1.1⟩) bs2 parallel symmLoc md (by simpa using hm)
  refine ⟨S, ord, h1, ⟨fun i hi => h3 i _ ?_, h4⟩⟩
  have him : i < m := by
    rcases hm with rfl | ⟨rfl, rfl⟩
    · split at hi <;> omega
    · simpa using hi
  rw [List.getElem?_map, List.getElem?_range him]; rfl

theorem ObjOK.dofs {P : PD} {p : ℕ} (hp : p < P.np) {M : CSR (Blk k)} {inv : Inverter k} {md : Option (ℕ → Blk k)} {blocks : List (List ℕ)}
    (hb : ∀ b ∈ blocks, ∀ d ∈ b, d < P.ndof p) {symmLoc bs2 parallel : Bool} {S : HBS k} {ord : ℕ → List (BBlock k)} (h : ObjOK P p M inv md blocks symmLoc bs2 parallel S ord)
    {i : ℕ} (hi : i < (if symmLoc then 2 else 3)) {B : BBlock k} (hB : B ∈ ord i) {d : ℕ} (hd : d ∈ B.dofs) : mast P p d ∧ (i ≠ 1 → unshared P p d) := by
  have := (h.perm i hi).1.mem_iff.1 hB
  rw [codeBlocks, List.mem_map] at this
  obtain ⟨b, hbg, rfl⟩ := this
  exact stageGroup_dofs hp hb hbg ((List.mem_insertionSort (r := (· ≤ ·))).1 hd)

theorem bs_kernelsOK {P : PD} {p : ℕ} (hp : p < P.np) {M : CSR (Blk k)} {inv : Inverter k} {md : Option (ℕ → Blk k)} {blocks : List (List ℕ)}
    (hb : ∀ b ∈ blocks, ∀ d ∈ b, d < P.ndof p) {symmLoc bs2 parallel : Bool} {S : ℕ → HBS k} {ord : ℕ → List (BBlock k)}
    (h : ObjOK P p M inv md blocks symmLoc bs2 parallel (S p) ord) : KernelsOK P p M (bsKernels S symmLoc p) := by
  have key : ∀ (st : Stage) (bw xz : Bool) (T : ℕ → Prop), (∀ B ∈ stageList ord symmLoc st bw, ∀ d ∈ B.dofs, T d) →
      StageOK M T ((bsKernels S symmLoc p).rhs st bw xz) ((bsKernels S symmLoc p).res st bw xz) := by
    intro st bw xz T hT
    refine stage_blocks (stageList ord symmLoc st bw) T hT (fun x b => ?_) (fun x r => ?_)
    · show (((S p).rhs symmLoc st bw x b).getD x) = _
      rw [(h.stages st bw).rhs]; rfl
    · show (((S p).res symmLoc st bw x r).getD (x, r)) = _
      rw [(h.stages st bw).res]; rfl
  constructor
  · intro bw xz
    refine key _ _ _ _ fun B hB d hd => ?_
    obtain ⟨i, hi, hBi, hne⟩ := mem_stageList hB
    exact (h.dofs hp hb hi hBi hd).2 (hne (by simp))
  · intro bw xz
    refine key _ _ _ _ fun B hB d hd => ?_
    obtain ⟨i, hi, hBi, hne⟩ := mem_stageList hB
    exact (h.dofs hp hb hi hBi hd).1
  · intro bw xz
    refine key _ _ _ _ fun B hB d hd => ?_
    obtain ⟨i, hi, hBi, hne⟩ := mem_stageList hB
    exact (h.dofs hp hb hi hBi hd).2 (hne (by simp))

theorem fullX_bs {P : PD} {p : ℕ} {M : CSR (Blk k)} {inv : Inverter k} {md : Option (ℕ → Blk k)} {blocks : List (List ℕ)}
    {symmLoc bs2 parallel : Bool} {S : ℕ → HBS k} {ord : ℕ → List (BBlock k)}
    (h : ObjOK P p M inv md blocks symmLoc bs2 parallel (S p) ord) (bw xz : Bool) (nls : ℤ) (x β : BVec k) :
    fullX (bsKernels S symmLoc p) bw xz nls x β = (allBlocks ord symmLoc bw nls).foldl (stepRHS M β) x := by
  have h1 : ∀ st bw xz x, (bsKernels S symmLoc p).rhs st bw xz x β = (stageList ord symmLoc st bw).foldl (stepRHS M β) x := by
    intro st bw xz x
    show (((S p).rhs symmLoc st bw x β).getD x) = _
    rw [(h.stages st bw).rhs]; rfl
  have h2 : ∀ n xz x, loopX (bsKernels S symmLoc p) bw β n xz x = (loopList ord symmLoc bw n).foldl (stepRHS M β) x := by
    intro n
    induction n with
    | zero => intro xz x; rfl
    | succ n ih =>
      intro xz x
      rw [loopX, ih, h1, h1, h1, loopList, List.foldl_append, List.foldl_append, List.foldl_append]
  rw [fullX, preX, h1, h2, h1, h1, allBlocks, List.foldl_append, List.foldl_append, List.foldl_append]

theorem blockSweep_congr {n : ℕ} {A B : ℕ → ℕ → Blk k} (L : List (SBlock k)) (x x' b : BVec k) (hA : ∀ C ∈ L, ∀ i ∈ C.1, ∀ j < n, A i j = B i j)
    (hx : ∀ i < n, x i = x' i) : ∀ i < n, blockSweep n A L x b i = blockSweep n B L x' b i := by
  induction L generalizing x x' with
  | nil => exact hx
  | cons C L ih =>
    refine ih _ _ (fun D hD => hA D (List.mem_cons_of_mem _ hD)) fun i hi => ?_
    funext c
    show blockRow n A C.1 C.2 b x i c = blockRow n B C.1 C.2 b x' i c
    unfold blockRow
    rw [hx i hi]
    congr 1
    refine Finset.sum_congr rfl fun p _ => ?_
    congr 1
    refine Finset.sum_congr rfl fun q _ => ?_
    congr 1
    show b _ _ - mulBlock n A x _ _ = b _ _ - mulBlock n B x' _ _
    have : mulBlock n A x C.1[q.1] = mulBlock n B x' C.1[q.1] :=
      Finset.sum_congr rfl fun j hj => by
        rw [hA C List.mem_cons_self C.1[q.1] (List.getElem_mem _) j (Finset.mem_range.1 hj), hx j (Finset.mem_range.1 hj)]
    rw [this]

/-- the block of the code is the block of the global operator -/
theorem codeBlock_global {P : PD} {A : ℕ → CSR (Blk k)} {p : ℕ} {M : CSR (Blk k)} {G : Option (CSR (Blk k))} (hMG : LocalSpec P A p M G) (inv : Inverter k)
    (md : ℕ → Option (ℕ → Blk k)) {b : List ℕ} (hn : b.Nodup) (hm : ∀ d ∈ b, mast P p d) :
    (⟨b.insertionSort (· ≤ ·), inv _ (diagOf M (md p) (b.insertionSort (· ≤ ·)))⟩ : SBlock k) = globalBlock P A inv md p b := by
  have hn' : (b.insertionSort (· ≤ ·)).Nodup := (List.perm_insertionSort _ _).nodup_iff.2 hn
  have hm' : ∀ d ∈ b.insertionSort (· ≤ ·), mast P p d := fun d hd => hm d ((List.mem_insertionSort (r := (· ≤ ·))).1 hd)
  rw [globalBlock]
  generalize b.insertionSort (· ≤ ·) = c at hn' hm'
  have he : ∀ i ∈ c, ∀ j ∈ c, M.entry i j = gop P A (P.glob p i) (P.glob p j) := by
    intro i hi j hj
    rw [hMG.entryM i (hm' i hi).1 j (hm' j hj).1, if_pos ⟨(hm' i hi).2, (hm' j hj).2⟩]
  congr 2
  cases md p with
  | none =>
    rw [diagOf_none M hMG.wfM]
    funext s t
    simp only [diagBlock]
    rw [he c[s.1] (List.getElem_mem _) c[t.1] (List.getElem_mem _)]
  | some d =>
    rw [diagOf_some M hMG.wfM d _ hn']
    funext s t
    simp only [diagBlock]
    rw [he c[s.1] (List.getElem_mem _) c[t.1] (List.getElem_mem _)]

theorem codeBlocks_global {P : PD} {A : ℕ → CSR (Blk k)} {p : ℕ} (hp : p < P.np) {M : CSR (Blk k)} {G : Option (CSR (Blk k))} (hMG : LocalSpec P A p M G) (inv : Inverter k)
    (md : ℕ → Option (ℕ → Blk k)) {blocks : List (List ℕ)} (hb : ∀ b ∈ blocks, b.Nodup ∧ ∀ d ∈ b, d < P.ndof p) (symmLoc : Bool) (i : ℕ) :
    (codeBlocks inv M (md p) (stageGroup P p symmLoc blocks i)).map BBlock.toSpec = (stageGroup P p symmLoc blocks i).map (globalBlock P A inv md p) := by
  rw [codeBlocks, List.map_map]
  refine List.map_congr_left fun b hbg => ?_
  exact codeBlock_global hMG inv md (stageGroup_nodup (fun b h => (hb b h).1) b hbg) fun d hd => (stageGroup_dofs hp (fun b h => (hb b h).2) hbg hd).1

theorem newX_bs {P : PD} (hP : P.WF) {A M : ℕ → CSR (Blk k)} {G : ℕ → Option (CSR (Blk k))} (hMG : ∀ p < P.np, LocalSpec P A p (M p) (G p)) {inv : Inverter k}
    {md : ℕ → Option (ℕ → Blk k)} {blocks : ℕ → List (List ℕ)} (hb : ∀ p < P.np, ∀ b ∈ blocks p, b.Nodup ∧ ∀ d ∈ b, d < P.ndof p) {symmLoc bs2 parallel : Bool}
    {S : ℕ → HBS k} {ord : ℕ → ℕ → List (BBlock k)} (hO : ∀ p < P.np, ObjOK P p (M p) inv (md p) (blocks p) symmLoc bs2 parallel (S p) (ord p))
    (bw xz : Bool) (nls : ℤ) (x : ℕ → BVec k) (xh bh : ℕ → Fin k → ℝ) (hx : Consistent P x xh) {g : ℕ} (hg : g ∈ allDofs P) :
    newX P G (bsKernels S symmLoc) bw xz nls x xh bh g = bsX P A (fun p i => (ord p i).map BBlock.toSpec) symmLoc bw nls xh bh g := by
  obtain ⟨p, hp, d, hd, rfl⟩ := mem_allDofs.1 hg
  have ho := owner_spec hp (shares_glob hd)
  have hop : P.owner (P.glob p d) < P.np := by omega
  have hl := loc_spec ho.1
  have hs := hMG _ hop
  rw [newX, fullX_bs (hO _ hop), foldl_spec _ hs.wfM, bsX, hs.dimM.2, map_allBlocks]
  simp only [gmulG_eq hP hMG]
  refine blockSweep_congr _ _ _ _ ?_ (fun i hi => hx _ hop i hi) _ hl.1
  intro C hC i hi j hj
  obtain ⟨t, ht, hCt⟩ := mem_allBlocks hC
  obtain ⟨B, hB, rfl⟩ := List.mem_map.1 hCt
  have hm := ((hO _ hop).dofs hop (fun b h => (hb _ hop b h).2) ht hB hi).1
  rw [hs.entryM i hm.1 j hj, blockOp]
  by_cases hj' : P.owner (P.glob (P.owner (P.glob p d)) j) = P.owner (P.glob p d)
  · rw [if_pos ⟨hm.2, hj'⟩, if_pos ⟨hm, hj, hj'⟩]
  · rw [if_neg fun h => hj' h.2, if_neg fun h => hj' h.2.2]

/-- **C82**: the hybrid block smoother. From process-local matrices `A` whose sum is symmetric, split by the code, with any blocks of every process (they may
overlap, and may have unknowns of other processes), any replaced diagonals, any inverses of the blocks, with either implementation of the local smoother: the
constructor succeeds, and every complete run of a call computes `bsX`, and the residual of `bsX`. *Missing*: two processes, process zero not idle (then the claim does not hold,
`hybridBS_refuted`). -/
theorem hybridBS_correct_partial {P : PD} (hP : P.WF) (A : ℕ → CSR (Blk k)) (hA : GSymm P A) {M : ℕ → CSR (Blk k)} {G : ℕ → Option (CSR (Blk k))}
    (hMG : ∀ p < P.np, LocalSpec P A p (M p) (G p)) (inv : Inverter k) (color : List (List ℕ) → ℕ × List ℕ) (hcol : ColoringOK color)
    (md : ℕ → Option (ℕ → Blk k)) (blocks : ℕ → List (List ℕ)) (hb : ∀ p < P.np, ∀ b ∈ blocks p, b.Nodup ∧ ∀ d ∈ b, d < P.ndof p)
    (idle : Bool) (h2 : P.np = 2 → idle = true) (bs2 parallel symmLoc : Bool) :
    ∃ (S : ℕ → HBS k) (ord : ℕ → ℕ → List (SBlock k)),
      (∀ p < P.np, mkHBS inv color (M p) (fblocks P p idle symmLoc (blocks p)) bs2 parallel (md p) = some (S p)) ∧
      GroupOrder P A inv md blocks symmLoc bs2 parallel ord ∧
      ∀ (bw : Bool) (nls : ℤ) (ru ur xz bDist resDist : Bool) (v : ℕ → LS k) (xh bh : ℕ → Fin k → ℝ) (_ : Truthful P A v xh bh ru xz bDist resDist)
        (n : ℕ) (s : St (LS k) (List (Fin k → ℝ)))
        (_ : Reach P.np (smoothImpl P M G (bsKernels S symmLoc) bw nls ru ur xz bDist resDist) v n s)
        (_ : Final P.np (smoothImpl P M G (bsKernels S symmLoc) bw nls ru ur xz bDist resDist) s),
        let X := bsX P A ord symmLoc bw nls xh bh
        Consistent P (fun p => (s.vec p).x) X ∧
          (ur = true → (ru = true → resDist = true) → (ru = false → xz = true → bDist = true) →
            ∀ g ∈ allDofs P, gsum P (fun p => (s.vec p).res) g = bh g - gmul P A X g) := by
  have key : ∀ p, ∃ (S : HBS k) (ord : ℕ → List (BBlock k)), p < P.np →
      mkHBS inv color (M p) (fblocks P p idle symmLoc (blocks p)) bs2 parallel (md p) = some S ∧ ObjOK P p (M p) inv (md p) (blocks p) symmLoc bs2 parallel S ord := by
    intro p
    by_cases hp : p < P.np
    · obtain ⟨S, ord, h⟩ := obj_exists hp (hMG p hp).wfM (symm_M hA (hMG p hp)) (hMG p hp).dimM.1 inv color hcol h2 (blocks p) (hb p hp) bs2 parallel symmLoc (md p)
      exact ⟨S, ord, fun _ => h⟩
    · exact ⟨.one [], fun _ => [], fun h => absurd h hp⟩
  choose S ord hSO using key
  refine ⟨S, fun p i => (ord p i).map BBlock.toSpec, fun p hp => (hSO p hp).1, fun p hp i hi => ?_, ?_⟩
  · have := (hSO p hp).2.perm i hi
    beta_reduce
    rw [← codeBlocks_global hp (hMG p hp) inv md (hb p hp) symmLoc i]
    exact ⟨this.1.map _, fun h => by rw [this.2 h]⟩
  · intro bw nls ru ur xz bDist resDist v xh bh ht n s hr hf X
    have hset : Setup P A M G (bsKernels S symmLoc) := ⟨hP, hMG, fun p hp => bs_kernelsOK hp (fun b h => (hb p hp b h).2) (hSO p hp).2⟩
    obtain ⟨h1, h3, _⟩ := smooth_correct hset bw nls ru ur xz bDist resDist v xh bh ht hr hf
    have e : ∀ g ∈ allDofs P, newX P G (bsKernels S symmLoc) bw xz nls (fun p => (v p).x) xh bh g = X g :=
      fun g hg => newX_bs hP hMG hb (fun p hp => (hSO p hp).2) bw xz nls _ xh bh ht.x hg
    refine ⟨fun p hp d hd => (h1 p hp d hd).trans (e _ (glob_mem hp hd)), fun a b c g hg => ?_⟩
    rw [h3 a b c g hg]
    congr 1
    exact Finset.sum_congr rfl fun h hh => by rw [e h hh]

/-- the hypotheses are met by three processes with overlapping blocks, one of which crosses the boundary of a process, and there are runs -/
example : ∃ (M : ℕ → CSR (Blk 1)) (G : ℕ → Option (CSR (Blk 1))), (∀ p < exPD.np, LocalSpec exPD exS p (M p) (G p)) ∧ GSymm exPD exS ∧
    (∀ p < exPD.np, ∀ b ∈ [[0, 1], [1, 2]], b.Nodup ∧ ∀ d ∈ b, d < exPD.ndof p) ∧ (exPD.np = 2 → false = true) ∧
    Truthful exPD exS (exV true) 0 1 false true true true ∧
    ∀ S : ℕ → HBS 1, ∃ n s, Reach exPD.np (smoothImpl exPD M G (bsKernels S false) false 1 false true true true true) (exV true) n s ∧
      Final exPD.np (smoothImpl exPD M G (bsKernels S false) false 1 false true true true true) s := by
  obtain ⟨M, G, h⟩ := exS_split
  refine ⟨M, G, h, exS_symm, by decide, by decide, exV_truthful true, fun S => ?_⟩
  exact exists_final (matched_smooth (M := M) (G := G) (K := bsKernels S false) exPD_WF false 1 false true true true true) (exV true)

end NgsAMG.HybSm
