import Verif.Props.PresVec4

/-!
# Property C102: the coarse vectors represent the fine ones
-/

namespace NgsAMG.Pres

/-- positions of the fine edges of `E`, with the local number of the degree of freedom -/
def pos (I : Inp) (E : ℕ) : List (ℕ × ℕ) := (I.c2f E).flatMap fun e => (List.range (I.nDof e)).map fun l => (e, l)

theorem pos_map {β : Type} (I : Inp) (E : ℕ) (g : ℕ → ℕ → β) : ((I.c2f E).flatMap fun e => (List.range (I.nDof e)).map fun l => g e l) = (pos I E).map fun x => g x.1 x.2 := by
  unfold pos
  rw [List.map_flatMap]
  simp only [List.map_map]
  rfl

theorem fDofs_pos (I : Inp) (E : ℕ) : I.fDofs E = (pos I E).map fun x => I.off x.1 + x.2 := pos_map I E fun e l => I.off e + l

theorem pos_length (I : Inp) (E : ℕ) : (pos I E).length = (I.fDofs E).length := by rw [fDofs_pos, List.length_map]

theorem sum_pos (I : Inp) (E : ℕ) (g : ℕ → ℕ → ℝ) : ((pos I E).map fun x => g x.1 x.2).sum = ((I.c2f E).map fun e => ((List.range (I.nDof e)).map fun l => g e l).sum).sum := by
  rw [← pos_map]
  induction I.c2f E with
  | nil => rfl
  | cons a t ih => rw [List.flatMap_cons, List.sum_append, ih, List.map_cons, List.sum_cons]

theorem sum_first (N : ℕ) (x : ℝ) : ((List.range N).map fun l => if l = 0 then x else 0).sum = if N = 0 then 0 else x := by
  cases N with
  | zero => rfl
  | succ N =>
    rw [List.range_succ_eq_map, List.map_cons, List.sum_cons, List.map_map, if_pos rfl, if_neg (Nat.succ_ne_zero N)]
    rw [List.sum_eq_zero, add_zero]
    intro y hy
    obtain ⟨l, _, rfl⟩ := List.mem_map.1 hy
    exact if_neg (t := x) (Nat.succ_ne_zero l)

theorem dot_lists {n : ℕ} {α : Type} (L : List α) (h : L.length = n) (a b : α → ℝ) :
    (fun i : Fin n => (L.map a).getD i 0) ⬝ᵥ (fun i : Fin n => (L.map b).getD i 0) = (L.map fun x => a x * b x).sum := by
  subst h
  unfold dotProduct
  rw [← Fin.sum_univ_fun_getElem L fun x => a x * b x]
  refine Finset.sum_congr rfl fun i _ => ?_
  simp

/-- **C102**: the special vector of a coarse edge has flow, the sum of the absolute values of the flows of its fine edges -/
theorem special_flow (I : Inp) (E : ℕ) (hd : ∀ e ∈ I.c2f E, I.nDof e ≠ 0) :
    (fun i : Fin (I.fDofs E).length => (I.fFlow E).getD i 0) ⬝ᵥ I.V E 0 = ((I.c2f E).map fun e => |I.flow e|).sum := by
  have hV : I.V E 0 = fun i : Fin (I.fDofs E).length => (I.special E).getD i 0 := by
    funext i
    unfold Inp.V
    rw [if_pos rfl]
  have h1 : I.fFlow E = (pos I E).map fun x => (if I.vmap (I.fv0 x.1) = some (I.cv0 E) then 1 else -1) * (if x.2 = 0 then I.flow x.1 else 0) := pos_map I E _
  have h2 : I.special E = (pos I E).map fun x => if x.2 = 0 then (if decide (I.flow x.1 < 0) = decide (I.vmap (I.fv0 x.1) ≠ some (I.cv0 E)) then 1 else -1) else 0 :=
    pos_map I E _
  rw [hV, h1, h2, dot_lists _ (pos_length I E)]
  refine (sum_pos I E fun e l => ((if I.vmap (I.fv0 e) = some (I.cv0 E) then 1 else -1) * (if l = 0 then I.flow e else 0)) *
    (if l = 0 then (if decide (I.flow e < 0) = decide (I.vmap (I.fv0 e) ≠ some (I.cv0 E)) then 1 else -1) else 0)).trans ?_
  refine congrArg List.sum (List.map_congr_left fun e he => ?_)
  refine Eq.trans ?_ ((sum_first (I.nDof e) |I.flow e|).trans (if_neg (hd e he)))
  refine congrArg List.sum (List.map_congr_left fun l _ => ?_)
  by_cases hl : l = 0
  · rw [if_pos hl, if_pos hl, if_pos hl]
    by_cases hv : I.vmap (I.fv0 e) = some (I.cv0 E)
    · by_cases hf : I.flow e < 0
      · simp [hv, hf, abs_of_neg hf]
      · simp [hv, hf, abs_of_nonneg (not_lt.1 hf)]
    · by_cases hf : I.flow e < 0
      · simp [hv, hf, abs_of_neg hf]
      · simp [hv, hf, abs_of_nonneg (not_lt.1 hf)]
  · simp [hl]

theorem special_sq (I : Inp) (E : ℕ) (hd : ∀ e ∈ I.c2f E, I.nDof e ≠ 0) : I.V E 0 ⬝ᵥ I.V E 0 = (I.c2f E).length := by
  have hV : I.V E 0 = fun i : Fin (I.fDofs E).length => (I.special E).getD i 0 := by
    funext i
    unfold Inp.V
    rw [if_pos rfl]
  have h2 : I.special E = (pos I E).map fun x => if x.2 = 0 then (if decide (I.flow x.1 < 0) = decide (I.vmap (I.fv0 x.1) ≠ some (I.cv0 E)) then 1 else -1) else 0 :=
    pos_map I E _
  rw [hV, h2, dot_lists _ (pos_length I E)]
  refine (sum_pos I E fun e l => (if l = 0 then (if decide (I.flow e < 0) = decide (I.vmap (I.fv0 e) ≠ some (I.cv0 E)) then (1 : ℝ) else -1) else 0) *
    (if l = 0 then (if decide (I.flow e < 0) = decide (I.vmap (I.fv0 e) ≠ some (I.cv0 E)) then 1 else -1) else 0)).trans ?_
  have h : ∀ e ∈ I.c2f E, ((List.range (I.nDof e)).map fun l => (if l = 0 then (if decide (I.flow e < 0) = decide (I.vmap (I.fv0 e) ≠ some (I.cv0 E)) then (1 : ℝ) else -1) else 0) *
    (if l = 0 then (if decide (I.flow e < 0) = decide (I.vmap (I.fv0 e) ≠ some (I.cv0 E)) then 1 else -1) else 0)).sum = 1 := by
    intro e he
    refine Eq.trans ?_ ((sum_first (I.nDof e) 1).trans (if_neg (hd e he)))
    refine congrArg List.sum (List.map_congr_left fun l _ => ?_)
    by_cases hl : l = 0
    · rw [if_pos hl, if_pos hl]
      split <;> norm_num
    · rw [if_neg hl, if_neg hl, mul_zero]
  rw [List.map_congr_left h]
  simp

/-- coarse edges whose block can be computed -/
structure EdgeOK (I : Inp) (E : ℕ) : Prop where
  /-- the fine edges have degrees of freedom -/
  dofs : ∀ e ∈ I.c2f E, I.nDof e ≠ 0
  /-- one of them has flow -/
  flow : ∃ e ∈ I.c2f E, I.flow e ≠ 0

theorem EdgeOK.pos {I : Inp} {E : ℕ} (h : EdgeOK I E) : ((I.c2f E).map fun e => |I.flow e|).sum ≠ 0 := by
  obtain ⟨e, he, hf⟩ := h.flow
  have h1 : |I.flow e| ≤ ((I.c2f E).map fun e => |I.flow e|).sum :=
    List.single_le_sum (fun x hx => by obtain ⟨y, _, rfl⟩ := List.mem_map.1 hx; exact abs_nonneg _) _ (List.mem_map_of_mem he)
  exact ((abs_pos.2 hf).trans_le h1).ne'

/-- the block of an edge -/
theorem block_spec {I : Inp} {E : ℕ} (h : EdgeOK I E) : ∃ b, I.block (fun _ => dot) E = some b ∧ 1 ≤ b.P.length ∧ b.P.length ≤ 1 + I.vecs.length ∧
    b.P.getD 0 0 = I.V E 0 ∧ (∀ i, 1 ≤ i → i < b.P.length → (fun i : Fin (I.fDofs E).length => (I.fFlow E).getD i 0) ⬝ᵥ b.P.getD i 0 = 0) ∧
    (∀ g : ℕ → ℝ, (∑ i ∈ Finset.range b.P.length, g i • b.P.getD i 0) = 0 → ∀ i < b.P.length, g i = 0) ∧ b.P.length ≤ (I.fDofs E).length ∧
    (∀ j < 1 + I.vecs.length, ∃ r, I.V E j = (∑ i ∈ Finset.range b.P.length, b.W i j • b.P.getD i 0) + r ∧ Real.sqrt (r ⬝ᵥ r) ≤ 1 / 10 ^ 8 * Real.sqrt (I.V E j ⬝ᵥ I.V E j)) ∧
    (Clear (I.V E) 1 (1 + I.vecs.length) → ∀ j < 1 + I.vecs.length, I.V E j = ∑ i ∈ Finset.range b.P.length, b.W i j • b.P.getD i 0) := by
  have h0 : ∀ l < 1, I.V E l ⬝ᵥ I.V E l ≠ 0 := by
    intro l hl
    obtain rfl : l = 0 := by omega
    rw [special_sq I E h.dofs]
    obtain ⟨e, he, _⟩ := h.flow
    have := List.length_pos_of_mem he
    exact_mod_cast this.ne'
  have hf : (fun i : Fin (I.fDofs E).length => (I.fFlow E).getD i 0) ⬝ᵥ I.V E 0 ≠ 0 := by rw [special_flow I E h.dofs]; exact h.pos
  obtain ⟨b, a1, a2, a3, a4, _⟩ := computePWZF_rep dot (fun i : Fin (I.fDofs E).length => (I.fFlow E).getD i 0) (I.V E) (nPres := 1) (k := 1 + I.vecs.length)
    (by omega) one_pos I.junk h0 hf
  obtain ⟨b', c1, c2, c3, c4, c5, c6⟩ := computePWZF_flow (fun i : Fin (I.fDofs E).length => (I.fFlow E).getD i 0) (I.V E) (nPres := 1) (k := 1 + I.vecs.length)
    (by omega) one_pos I.junk h0 (by intro i j hi hj hij; omega) hf
  obtain rfl : b = b' := Option.some.inj (a1.symm.trans c1)
  refine ⟨b, ?_, a2, a3, a4 0 one_pos, c2, c3, c4, c5, c6⟩
  unfold Inp.block
  rw [if_pos]
  · exact a1
  · rw [List.all_eq_true]
    intro e he
    simpa using h.dofs e he

/-- what `computeCFBufferSize` and `computeCFProlBlocks` leave: buffer, offsets and numbers of degrees of freedom of the coarse edges -/
structure Done (I : Inp) (buf : List ℝ) (offs nd : ℕ → ℕ) (f : ℕ → ℕ) : Prop where
  hoffs : offs = (I.offsets f).1
  run : ∃ buf0 : List ℝ, buf0.length = (I.offsets f).2 ∧ I.fill (fun _ => dot) offs buf0 = some (buf, nd)

/-- **C102**: the loops over the coarse edges return, with every block in the space of its edge -/
theorem fill_total {I : Inp} (hn : I.ord.Nodup) (h : ∀ E ∈ I.ord, I.dofed E = true → EdgeOK I E) (f : ℕ → ℕ) (buf0 : List ℝ) (hb : buf0.length = (I.offsets f).2) :
    ∃ buf nd, I.fill (fun _ => dot) (I.offsets f).1 buf0 = some (buf, nd) ∧ Done I buf (I.offsets f).1 nd f := by
  have hbl : ∀ E, ∃ b : St (I.fDofs E).length, (E ∈ I.ord ∧ I.dofed E = true) → I.block (fun _ => dot) E = some b ∧ b.P.length ≤ 1 + I.vecs.length := by
    intro E
    by_cases hE : E ∈ I.ord ∧ I.dofed E = true
    · obtain ⟨b, h1, _, h2, _⟩ := block_spec (h E hE.1 hE.2)
      exact ⟨b, fun _ => ⟨h1, h2⟩⟩
    · exact ⟨⟨[], fun _ _ => 0⟩, fun h => absurd h hE⟩
  choose bl hbl using hbl
  obtain ⟨o1, o2, o3, o4⟩ := offsets_spec I I.ord (f, 0) hn
  obtain ⟨s', c1, _⟩ := fill_spec bl I.ord (buf0, fun _ => 0) hn (fun E hE hd => hbl E ⟨hE, hd⟩)
    (fun E hE => by have := (o3 E hE).2; simp only [hb]; exact this) o4
  exact ⟨s'.1, s'.2, c1, rfl, buf0, hb, c1⟩

/-- the contents of the buffer for an edge -/
theorem done_spec {I : Inp} (hn : I.ord.Nodup) (h : ∀ E ∈ I.ord, I.dofed E = true → EdgeOK I E) {buf : List ℝ} {offs nd f : ℕ → ℕ} (hD : Done I buf offs nd f)
    {E : ℕ} (hE : E ∈ I.ord) (hd : I.dofed E = true) : ∃ b, I.block (fun _ => dot) E = some b ∧ nd E = b.P.length ∧
      (∀ (r : Fin (I.fDofs E).length) (c : ℕ), c < nd E → readBlock buf offs nd E r c = b.P.getD c 0 r) ∧
      ∀ j < I.vecs.length, ∀ x0, ∀ q < nd E, I.coarseVec buf offs nd j x0 (dofOff nd E + q) = b.W q (1 + j) := by
  have hbl : ∀ E, ∃ b : St (I.fDofs E).length, (E ∈ I.ord ∧ I.dofed E = true) → I.block (fun _ => dot) E = some b ∧ b.P.length ≤ 1 + I.vecs.length := by
    intro E
    by_cases hE : E ∈ I.ord ∧ I.dofed E = true
    · obtain ⟨b, h1, _, h2, _⟩ := block_spec (h E hE.1 hE.2)
      exact ⟨b, fun _ => ⟨h1, h2⟩⟩
    · exact ⟨⟨[], fun _ _ => 0⟩, fun h => absurd h hE⟩
  choose bl hbl using hbl
  obtain ⟨o1, o2, o3, o4⟩ := offsets_spec I I.ord (f, 0) hn
  obtain ⟨rfl, buf0, hb, hrun⟩ := hD
  obtain ⟨s', c1, c2, c3, _⟩ := fill_spec bl I.ord (buf0, fun _ => 0) hn (fun E hE hd => hbl E ⟨hE, hd⟩)
    (fun E hE => by have := (o3 E hE).2; simp only [hb]; exact this) o4
  obtain rfl : s' = (buf, nd) := Option.some.inj (c1.symm.trans hrun)
  obtain ⟨e1, e2⟩ := c3 E hE hd
  have e1 : nd E = (bl E).P.length := e1
  have e2 : ∀ i < (chunk (bl E) I.vecs.length).length, ∀ x, (chunk (bl E) I.vecs.length)[i]? = some x → buf.getD ((I.offsets f).1 E + i) 0 = x := by
    intro i hi x hx
    have := e2 i hi
    rw [hx] at this
    rw [List.getD_eq_getElem?_getD]
    exact congrArg (Option.getD · 0) this
  have hlt : ∀ {i : ℕ} {x : ℝ}, (chunk (bl E) I.vecs.length)[i]? = some x → i < (chunk (bl E) I.vecs.length).length := fun h => (List.getElem?_eq_some_iff.1 h).1
  refine ⟨bl E, (hbl E ⟨hE, hd⟩).1, e1, ?_, ?_⟩
  · intro r c hc
    rw [e1] at hc
    have := chunk_block (bl E) I.vecs.length r hc
    unfold readBlock
    rw [e1, ← e2 _ (hlt this) _ this]
    congr 1
    omega
  · intro j hj x0 q hq
    rw [coarseVec_spec I buf _ nd j x0 hE hd hq]
    have h0 := chunk_head (bl E) I.vecs.length
    have := e2 0 (hlt h0) _ h0
    rw [add_zero] at this
    rw [this, Nat.floor_natCast, e1]
    rw [e1] at hq
    have hv := chunk_vec (bl E) hj hq
    rw [← e2 _ (hlt hv) _ hv]
    congr 1
    omega

/-- **C102**: the block of a coarse edge times the coarse vector is the fine vector on the edges of the coarse edge, up to a rest of at most `10⁻⁸` of its
length, and exactly if each vector is in the span of the special vector and those before or not almost in it -/
theorem preserved {I : Inp} (hn : I.ord.Nodup) (h : ∀ E ∈ I.ord, I.dofed E = true → EdgeOK I E) {buf : List ℝ} {offs nd f : ℕ → ℕ} (hD : Done I buf offs nd f)
    {E : ℕ} (hE : E ∈ I.ord) (hd : I.dofed E = true) {j : ℕ} (hj : j < I.vecs.length) (x0 : ℕ → ℝ) :
    ∃ rest : Fin (I.fDofs E).length → ℝ,
      (∀ r : Fin (I.fDofs E).length, I.vecs[j] ((I.fDofs E)[r]) =
        (∑ q ∈ Finset.range (nd E), readBlock buf offs nd E r q * I.coarseVec buf offs nd j x0 (dofOff nd E + q)) + rest r) ∧
      Real.sqrt (∑ r, rest r ^ 2) ≤ 1 / 10 ^ 8 * Real.sqrt (∑ r : Fin (I.fDofs E).length, I.vecs[j] ((I.fDofs E)[r]) ^ 2) ∧
      (Clear (I.V E) 1 (1 + I.vecs.length) → ∀ r, rest r = 0) := by
  obtain ⟨b, h1, h2, h3, h4⟩ := done_spec hn h hD hE hd
  obtain ⟨b', g1, _, _, _, _, _, _, g2, g3⟩ := block_spec (h E hE hd)
  obtain rfl : b = b' := Option.some.inj (h1.symm.trans g1)
  have hV : ∀ r : Fin (I.fDofs E).length, I.V E (1 + j) r = I.vecs[j] ((I.fDofs E)[r]) := by
    intro r
    unfold Inp.V
    rw [if_neg (by omega), Nat.add_sub_cancel_left, List.getD_eq_getElem?_getD, List.getElem?_eq_getElem hj, Option.getD_some, List.getD_eq_getElem?_getD,
      List.getElem?_eq_getElem r.2, Option.getD_some]
    rfl
  have hsum : ∀ r : Fin (I.fDofs E).length, (∑ i ∈ Finset.range b.P.length, b.W i (1 + j) • b.P.getD i 0) r =
      ∑ q ∈ Finset.range (nd E), readBlock buf offs nd E r q * I.coarseVec buf offs nd j x0 (dofOff nd E + q) := by
    intro r
    rw [Finset.sum_apply, h2]
    refine Finset.sum_congr rfl fun q hq => ?_
    have hq : q < nd E := h2 ▸ Finset.mem_range.1 hq
    rw [h3 r q hq, h4 j hj x0 q hq, Pi.smul_apply, smul_eq_mul, mul_comm]
  obtain ⟨rest, r1, r2⟩ := g2 (1 + j) (by omega)
  have hsq : ∀ v : Vec (I.fDofs E).length, v ⬝ᵥ v = ∑ r, v r ^ 2 := fun v => Finset.sum_congr rfl fun r _ => (sq (v r)).symm
  refine ⟨rest, ?_, ?_, ?_⟩
  · intro r
    rw [← hV r, ← hsum r, ← Pi.add_apply, ← r1]
  · rw [hsq, hsq] at r2
    simp only [hV] at r2
    exact r2
  · intro hc r
    have e := g3 hc (1 + j) (by omega)
    have : rest = 0 := by
      have e2 := r1
      rw [← e] at e2
      simpa using e2
    rw [this]
    rfl

/-- **C102**: the flows of the basis functions of a coarse edge: the sum of the absolute values of the flows of its fine edges for the first, none for
the others; they are independent -/
theorem flows {I : Inp} (hn : I.ord.Nodup) (h : ∀ E ∈ I.ord, I.dofed E = true → EdgeOK I E) {buf : List ℝ} {offs nd f : ℕ → ℕ} (hD : Done I buf offs nd f)
    {E : ℕ} (hE : E ∈ I.ord) (hd : I.dofed E = true) :
    (∑ r : Fin (I.fDofs E).length, (I.fFlow E).getD r 0 * readBlock buf offs nd E r 0) = ((I.c2f E).map fun e => |I.flow e|).sum ∧
    (∀ q, 1 ≤ q → q < nd E → ∑ r : Fin (I.fDofs E).length, (I.fFlow E).getD r 0 * readBlock buf offs nd E r q = 0) ∧
    (∀ g : ℕ → ℝ, (∀ r : Fin (I.fDofs E).length, ∑ q ∈ Finset.range (nd E), readBlock buf offs nd E r q * g q = 0) → ∀ q < nd E, g q = 0) := by
  obtain ⟨b, h1, h2, h3, h4⟩ := done_spec hn h hD hE hd
  obtain ⟨b', g1, g2, _, g3, g4, g5, _⟩ := block_spec (h E hE hd)
  obtain rfl : b = b' := Option.some.inj (h1.symm.trans g1)
  refine ⟨?_, ?_, ?_⟩
  · refine (Finset.sum_congr rfl fun r _ => ?_).trans (special_flow I E (h E hE hd).dofs)
    rw [h3 r 0 (by omega)]
    exact congrArg (fun v : Vec (I.fDofs E).length => (I.fFlow E).getD r 0 * v r) g3
  · intro q q1 q2
    refine (Finset.sum_congr rfl fun r _ => ?_).trans (g4 q q1 (by omega))
    exact congrArg ((I.fFlow E).getD r 0 * ·) (h3 r q q2)
  · intro g hg q hq
    refine g5 g ?_ q (by omega)
    funext r
    rw [Finset.sum_apply, Pi.zero_apply, ← hg r, h2]
    refine Finset.sum_congr rfl fun q hq => ?_
    rw [h3 r q (h2 ▸ Finset.mem_range.1 hq), Pi.smul_apply, smul_eq_mul, mul_comm]

/-- without any flow on the fine edges of `E` only a block with one column is computed, otherwise the flow of the special vector, which is zero, is
divided by -/
theorem no_flow {I : Inp} {E : ℕ} (hd : ∀ e ∈ I.c2f E, I.nDof e ≠ 0) (h : ∀ e ∈ I.c2f E, I.flow e = 0) {b : St (I.fDofs E).length}
    (hb : I.block (fun _ => dot) E = some b) : b.P.length ≤ 1 := by
  unfold Inp.block computePWZF at hb
  split at hb
  · rw [Option.bind_eq_some_iff] at hb
    obtain ⟨s, hs, hb⟩ := hb
    split at hb
    · cases hb
    · rename_i hne
      obtain rfl := Option.some.inj hb
      have hl : ∀ (L : List ℕ) (ip : Vec (I.fDofs E).length → Vec (I.fDofs E).length → ℝ) (f : Vec (I.fDofs E).length) (nF : ℝ) (t : St (I.fDofs E).length),
          (L.foldl (zfStep ip f nF) t).P.length = t.P.length := by
        intro L ip f nF
        induction L with
        | nil => intro t; rfl
        | cons a L ih => intro t; rw [List.foldl_cons, ih]; unfold zfStep; simp
      rw [hl]
      by_contra hlen
      refine hne ⟨by omega, ?_⟩
      by_cases h0 : I.V E 0 ⬝ᵥ I.V E 0 = 0
      · unfold computePW at hs
        rw [special_sq I E hd] at h0
        have h0 : (I.c2f E).length = 0 := by exact_mod_cast h0
        have : (fun i : Fin (I.fDofs E).length => (I.fFlow E).getD i 0) = 0 := by
          funext i
          have : I.c2f E = [] := List.length_eq_zero_iff.1 h0
          unfold Inp.fFlow
          rw [this]
          rfl
        show (fun i : Fin (I.fDofs E).length => (I.fFlow E).getD i 0) ⬝ᵥ _ = 0
        rw [this, zero_dotProduct]
      · obtain ⟨s', c1, _, _, c2, _⟩ := computePW_rep dot (I.V E) (nPres := 1) (k := 1 + I.vecs.length) (by omega) I.junk
          (by intro l hl; obtain rfl : l = 0 := by omega
              exact h0)
        obtain rfl : s = s' := Option.some.inj (hs.symm.trans c1)
        rw [c2 0 one_pos]
        refine (special_flow I E hd).trans ?_
        refine List.sum_eq_zero fun x hx => ?_
        obtain ⟨e, he, rfl⟩ := List.mem_map.1 hx
        rw [h e he, abs_zero]
  · cases hb

end NgsAMG.Pres
