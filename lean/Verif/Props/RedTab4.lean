import Verif.Props.RedTab3

/-!
# Scatter of class-wise data: all processes of a class get the data of its master (C70); examples for C69 and C70
-/

namespace NgsAMG.RedTab

open NgsAMG.Exch NgsAMG.EQC

variable {T R K : Type}

section
variable {np : ℕ} {dps : ℕ → List (List ℕ)} {key : ℕ → ℕ → K}

theorem eqcSends_eq {p : ℕ} (q : ℕ) (f : ℕ → T) (rest : List (List ℕ)) (hv : ∀ d ∈ rest, Valid np p d) (k : ℕ) (rows : List T)
    (hf : ∀ (i : ℕ) (x : T), rows[i]? = some x → f (k + i) = x) (hl : rows.length = rest.length) :
    eqcSends p q (rest.zip rows) = (slaveFrom p q k rest).map f := by
  induction rest generalizing k rows with
  | nil => simp [eqcSends, slaveFrom]
  | cons d rest ih =>
    cases rows with
    | nil => simp at hl
    | cons x rows =>
      have hx : f k = x := hf 0 x (by simp)
      have ih' := ih (fun e he => hv e (by simp [he])) (k + 1) rows (fun i y hy => by
        rw [show k + 1 + i = k + (i + 1) by omega]
        exact hf (i + 1) y (by simpa using hy)) (by simpa using hl)
      cases d with
      | nil => simpa [eqcSends, slaveFrom] using ih'
      | cons a l =>
        simp only [List.zip_cons_cons, eqcSends, slaveFrom]
        by_cases hp : p < a
        · rw [if_pos hp, if_pos hp, List.map_append, ih', List.map_map]
          congr 1
          apply List.map_congr_left
          intro _ _
          exact hx.symm
        · rw [if_neg hp, if_neg hp, List.nil_append, ih']

theorem eqcRecvs_eq {p : ℕ} (fits : T → T → Bool) (g : ℕ → ℕ → T) (rest : List (List ℕ)) (hv : ∀ d ∈ rest, Valid np p d) (k : ℕ)
    (rows : List T) (hl : rows.length = rest.length) (Q : ℕ → List T) (hQ : ∀ h, h ≠ p → Q h = (masterFrom p h k rest).map (g h))
    (hfit : ∀ (i : ℕ) (d : List ℕ) (x : T), rest[i]? = some d → rows[i]? = some x → masterOf p d ≠ p →
      fits x (g (masterOf p d) (k + i)) = true) :
    ∃ L, eqcRecvs p fits (rest.zip rows) Q = some L ∧ L.length = rest.length ∧
      ∀ (i : ℕ) (d : List ℕ), rest[i]? = some d →
        L[i]? = if masterOf p d = p then rows[i]? else some (g (masterOf p d) (k + i)) := by
  induction rest generalizing k rows Q with
  | nil => exact ⟨[], by simp [eqcRecvs]⟩
  | cons d rest ih =>
    cases rows with
    | nil => simp at hl
    | cons x rows =>
      have hvd := hv d (by simp)
      have hfit' : ∀ (i : ℕ) (d : List ℕ) (x : T), rest[i]? = some d → rows[i]? = some x → masterOf p d ≠ p →
          fits x (g (masterOf p d) (k + 1 + i)) = true := fun i e y h1 h2 h3 => by
        rw [show k + 1 + i = k + (i + 1) by omega]
        exact hfit (i + 1) e y (by simpa using h1) (by simpa using h2) h3
      have build : ∀ (y : T) (Q' : ℕ → List T) (_ : ∀ h, h ≠ p → Q' h = (masterFrom p h (k + 1) rest).map (g h))
          (_ : eqcRecvs p fits ((d :: rest).zip (x :: rows)) Q = (eqcRecvs p fits (rest.zip rows) Q').map (y :: ·))
          (_ : some y = if masterOf p d = p then some x else some (g (masterOf p d) k)),
          ∃ L, eqcRecvs p fits ((d :: rest).zip (x :: rows)) Q = some L ∧ L.length = (d :: rest).length ∧
            ∀ (i : ℕ) (e : List ℕ), (d :: rest)[i]? = some e →
              L[i]? = if masterOf p e = p then (x :: rows)[i]? else some (g (masterOf p e) (k + i)) := by
        intro y Q' hQ' he hy
        obtain ⟨L, h1, h2, h3⟩ := ih (fun e he => hv e (by simp [he])) (k + 1) rows (by simpa using hl) Q' hQ' hfit'
        rw [he, h1]
        refine ⟨_, rfl, by simp [h2], ?_⟩
        intro i e hi
        cases i with
        | zero =>
          simp only [List.getElem?_cons_zero, Option.some.injEq] at hi
          subst hi
          simpa using hy
        | succ i =>
          have := h3 i e (by simpa using hi)
          rw [List.getElem?_cons_succ, this, List.getElem?_cons_succ, show k + 1 + i = k + (i + 1) by omega]
      cases d with
      | nil =>
        refine build x Q ?_ (by simp [eqcRecvs]) (by simp [masterOf])
        intro h hh
        rw [hQ h hh]
        simp [masterFrom, hh]
      | cons a l =>
        have hne : p ≠ a := fun e => hvd.notSelf (by simp [e])
        by_cases hp : p < a
        · have hm : masterOf p (a :: l) = p := Nat.min_eq_left hp.le
          refine build x Q ?_ (by simp [eqcRecvs, hp]) (by rw [if_pos hm])
          intro h hh
          rw [hQ h hh]
          simp [masterFrom, hh, hp]
        · have hm : masterOf p (a :: l) = a := Nat.min_eq_right (by omega)
          have hQa : Q a = g a k :: (masterFrom p a (k + 1) rest).map (g a) := by
            rw [hQ a (Ne.symm hne)]
            simp [masterFrom, hp]
          have hfk : fits x (g a k) = true := by
            have := hfit 0 (a :: l) x (by simp) (by simp) (by rw [hm]; exact Ne.symm hne)
            rwa [hm, Nat.add_zero] at this
          refine build (g a k) (Function.update Q a ((masterFrom p a (k + 1) rest).map (g a))) ?_ ?_ ?_
          · intro h hh
            by_cases hha : h = a
            · subst hha; rw [Function.update_self]
            · rw [Function.update_of_ne hha, hQ h hh]
              simp [masterFrom, hp, hha]
          · simp only [List.zip_cons_cons, eqcRecvs]
            rw [if_neg hp, hQa]
            simp only [hfk, if_true]
          · rw [hm, if_neg (Ne.symm hne)]

end

/-- specification: process `p` has, for each of its classes, the row of the smallest process of the class -/
def Scattered (dps : ℕ → List (List ℕ)) (key : ℕ → ℕ → K) (rows : ℕ → List T) (p : ℕ) (out : List T) : Prop :=
  out.length = (dps p).length ∧
  ∀ (k : ℕ) (d : List ℕ), (dps p)[k]? = some d → ∃ m l, (m = p ∨ m ∈ d) ∧ (∀ r, r = p ∨ r ∈ d → m ≤ r) ∧
    l < (dps m).length ∧ key m l = key p k ∧ out[k]? = (rows m)[l]?

section
variable {np : ℕ} {dps : ℕ → List (List ℕ)} {key : ℕ → ℕ → K} (hR : Rows np dps key)
  (rows : ℕ → List T) (fits : T → T → Bool)

theorem any_sends (p q : ℕ) (F : List (List ℕ)) : (F.any fun d => match d with
      | [] => false
      | h :: _ => decide (p < h) && d.contains q) = decide (slaveRows F p q ≠ []) := by
  rw [Bool.eq_iff_iff, List.any_eq_true, decide_eq_true_iff, ← List.length_pos_iff, List.length_pos_iff_exists_mem]
  constructor
  · rintro ⟨d, hd, h⟩
    obtain ⟨i, hi, rfl⟩ := List.mem_iff_getElem.mp hd
    refine ⟨i, (mem_slaveFrom _ _ _ _ _).mpr ⟨i, F[i], List.getElem?_eq_getElem hi, by omega, ?_⟩⟩
    generalize F[i] = d at h
    cases d with
    | nil => simp at h
    | cons a l =>
      simp only [Bool.and_eq_true, decide_eq_true_eq, List.contains_iff_mem] at h
      exact ⟨h.2, h.1⟩
  · rintro ⟨k, hk⟩
    obtain ⟨i, d, h1, -, h3, h4⟩ := (mem_slaveFrom _ _ _ _ _).mp hk
    refine ⟨d, List.mem_of_getElem? h1, ?_⟩
    cases d with
    | nil => simp at h3
    | cons a l =>
      simp only [Bool.and_eq_true, decide_eq_true_eq, List.contains_iff_mem]
      exact ⟨h4, h3⟩

theorem any_recvs (p q : ℕ) (F : List (List ℕ)) (hv : ∀ d ∈ F, Valid np p d) : (F.any fun d => match d with
      | [] => false
      | h :: _ => !decide (p < h) && (h == q)) = decide (q ≠ p ∧ masterRows F p q ≠ []) := by
  rw [Bool.eq_iff_iff, List.any_eq_true, decide_eq_true_iff, ← List.length_pos_iff, List.length_pos_iff_exists_mem]
  constructor
  · rintro ⟨d, hd, h⟩
    obtain ⟨i, hi, rfl⟩ := List.mem_iff_getElem.mp hd
    have hvi := hv _ hd
    have : q ≠ p ∧ masterOf p F[i] = q := by
      generalize F[i] = d at h hvi
      cases d with
      | nil => simp at h
      | cons a l =>
        simp only [Bool.and_eq_true, Bool.not_eq_true', decide_eq_false_iff_not, beq_iff_eq] at h
        have hne : p ≠ a := fun e => hvi.notSelf (by simp [e])
        refine ⟨by omega, ?_⟩
        simp only [masterOf]
        omega
    exact ⟨this.1, i, (mem_masterFrom _ _ _ _ _).mpr ⟨i, F[i], List.getElem?_eq_getElem hi, by omega, this.2⟩⟩
  · rintro ⟨hne, k, hk⟩
    obtain ⟨i, d, h1, -, h3⟩ := (mem_masterFrom _ _ _ _ _).mp hk
    refine ⟨d, List.mem_of_getElem? h1, ?_⟩
    cases d with
    | nil => simp only [masterOf] at h3; exact absurd h3.symm hne
    | cons a l =>
      simp only [masterOf] at h3
      simp only [Bool.and_eq_true, Bool.not_eq_true', decide_eq_false_iff_not, beq_iff_eq]
      omega

theorem sends_eq (p q : ℕ) (v : Option (List T)) : (eqcScatter dps fits).sends p v q = decide (slaveRows (dps p) p q ≠ []) :=
  any_sends p q (dps p)

theorem recvs_eq (p q : ℕ) (v : Option (List T)) (hv : ∀ d ∈ dps p, Valid np p d) :
    (eqcScatter dps fits).recvs p v q = decide (q ≠ p ∧ masterRows (dps p) p q ≠ []) :=
  any_recvs p q (dps p) hv

include hR in
theorem scatter_matched : DMatched np [eqcScatter dps fits] fun p => some (rows p) := by
  refine DMatched.cons (fun p hp => ⟨?_, ?_, ?_⟩) (DMatched.nil _ _)
  · intro q hq
    rw [sends_eq, recvs_eq fits q p _ (hR.valid q hq)]
    rw [decide_eq_decide]
    constructor
    · intro h
      have hpq : p < q := by
        by_contra hn
        exact h (slave_nil hR hp hn)
      refine ⟨by omega, ?_⟩
      rw [← List.length_pos_iff] at h ⊢
      rwa [← rows_length hR hpq hq]
    · rintro ⟨h1, h2⟩
      rw [← List.length_pos_iff, List.length_pos_iff_exists_mem] at h2
      obtain ⟨k, hk⟩ := h2
      obtain ⟨i, d, g1, -, g3⟩ := (mem_masterFrom _ _ _ _ _).mp hk
      have hle := (masterOf_spec (hR.valid q hq d (List.mem_of_getElem? g1))).2 q (mem_members.mpr (Or.inl rfl))
      have hpq : p < q := by omega
      rw [← List.length_pos_iff, rows_length hR hpq hq]
      exact List.length_pos_of_mem hk
  · intro q h
    rw [sends_eq, decide_eq_true_iff, ← List.length_pos_iff, List.length_pos_iff_exists_mem] at h
    obtain ⟨k, hk⟩ := h
    obtain ⟨i, d, g1, -, g3, -⟩ := (mem_slaveFrom _ _ _ _ _).mp hk
    exact (hR.valid p hp d (List.mem_of_getElem? g1)).range q g3
  · intro q h
    rw [recvs_eq fits p q _ (hR.valid p hp), decide_eq_true_iff, ← List.length_pos_iff, List.length_pos_iff_exists_mem] at h
    obtain ⟨-, k, hk⟩ := h
    obtain ⟨i, d, g1, -, g3⟩ := (mem_masterFrom _ _ _ _ _).mp hk
    have hle := (masterOf_spec (hR.valid p hp d (List.mem_of_getElem? g1))).2 p (mem_members.mpr (Or.inl rfl))
    omega

include hR in
theorem scatter_run [Inhabited T] (hrows : ∀ p < np, (rows p).length = (dps p).length)
    (hfit : ∀ p < np, ∀ q < np, ∀ (k l : ℕ) (x y : T), key p k = key q l → (rows p)[k]? = some x → (rows q)[l]? = some y →
      fits x y = true) {p : ℕ} (hp : p < np) :
    ∃ out, drun [eqcScatter dps fits] (fun p => some (rows p)) p = some out ∧ Scattered dps key rows p out := by
  classical
  have hlen : ∀ {r k : ℕ} {d : List ℕ}, (dps r)[k]? = some d → k < (dps r).length := fun h => (List.getElem?_eq_some_iff.mp h).1
  -- the row of process `r` with key `κ`
  let g : ℕ → K → T := fun r κ => if h : ∃ j, j < (dps r).length ∧ key r j = κ then (rows r).getD h.choose default else default
  have hg : ∀ r < np, ∀ j < (dps r).length, (rows r)[j]? = some (g r (key r j)) := by
    intro r hr j hj
    have h : ∃ i, i < (dps r).length ∧ key r i = key r j := ⟨j, hj, rfl⟩
    show _ = some (dite _ _ _)
    rw [dif_pos h, hR.inj r hr _ j h.choose_spec.1 hj h.choose_spec.2, List.getD_eq_getElem?_getD,
      List.getElem?_eq_getElem (by rw [hrows r hr]; exact hj)]
    rfl
  let Q : ℕ → List T := fun q => if (eqcScatter dps fits).recvs p (some (rows p)) q then
    (eqcScatter dps fits).msg q (some (rows q)) p else default
  have hQ : ∀ h, h ≠ p → Q h = (masterFrom p h 0 (dps p)).map fun k => g h (key p k) := by
    intro h hh
    show ite _ _ _ = _
    have hrec : (eqcScatter dps fits).recvs p (some (rows p)) h = decide (h ≠ p ∧ masterRows (dps p) p h ≠ []) :=
      any_recvs p h (dps p) (hR.valid p hp)
    rw [hrec]
    by_cases hne : masterRows (dps p) p h = []
    · have hd : (decide (h ≠ p ∧ masterRows (dps p) p h ≠ [])) = false := by simp [hne]
      rw [hd]
      have hne' : masterFrom p h 0 (dps p) = [] := hne
      rw [hne']
      rfl
    · rw [if_pos (by simp [hne, hh])]
      have hk := List.length_pos_iff.mpr hne
      rw [List.length_pos_iff_exists_mem] at hk
      obtain ⟨k, hk⟩ := hk
      obtain ⟨i, d, g1, -, g3⟩ := (mem_masterFrom _ _ _ _ _).mp hk
      have hle := (masterOf_spec (hR.valid p hp d (List.mem_of_getElem? g1))).2 p (mem_members.mpr (Or.inl rfl))
      have hhp : h < p := by omega
      have hhn : h < np := by omega
      have hs : (eqcScatter dps fits).msg h (some (rows h)) p = (slaveFrom h p 0 (dps h)).map fun j => g h (key h j) := by
        refine eqcSends_eq p (fun j => g h (key h j)) (dps h) (hR.valid h hhn) 0 (rows h) ?_ (hrows h hhn)
        intro i x hx
        have hi : i < (dps h).length := by rw [← hrows h hhn]; exact (List.getElem?_eq_some_iff.mp hx).1
        have := hg h hhn i hi
        rw [hx] at this
        rw [Nat.zero_add]
        exact (Option.some.inj this).symm
      rw [hs]
      have := congrArg (List.map (g h)) (rows_agree hR hhp hp)
      rw [List.map_map, List.map_map] at this
      exact this.symm
  obtain ⟨L, h1, h2, h3⟩ := eqcRecvs_eq fits (fun h k => g h (key p k)) (dps p) (hR.valid p hp) 0 (rows p) (hrows p hp) Q hQ (by
    intro i d x hd hx hm
    have hv := hR.valid p hp d (List.mem_of_getElem? hd)
    have hmm : masterOf p d = p ∨ masterOf p d ∈ d := mem_members.mp (masterOf_spec hv).1
    have hmn : masterOf p d < np := by
      rcases hmm with h | h
      · omega
      · exact hv.range _ h
    obtain ⟨j, e, f1, f2, -⟩ := partner_row hR hp hd hmm
    rw [Nat.zero_add, ← f2]
    exact hfit p hp _ hmn i j x _ f2.symm hx (hg _ hmn j (hlen f1)))
  refine ⟨L, h1, h2, ?_⟩
  intro k d hk
  have hv := hR.valid p hp d (List.mem_of_getElem? hk)
  have hms := masterOf_spec hv
  have hmm : masterOf p d = p ∨ masterOf p d ∈ d := mem_members.mp hms.1
  have hmn : masterOf p d < np := by
    rcases hmm with h | h
    · omega
    · exact hv.range _ h
  obtain ⟨j, e, f1, f2, -⟩ := partner_row hR hp hk hmm
  refine ⟨masterOf p d, j, hmm, fun r hr => hms.2 r (mem_members.mpr hr), hlen f1, f2, ?_⟩
  rw [h3 k d hk, hg _ hmn j (hlen f1), f2, Nat.zero_add]
  by_cases hm : masterOf p d = p
  · rw [if_pos hm, hm, hg p hp k (hlen hk)]
  · rw [if_neg hm]

include hR in
/-- C70: whatever the schedule, after the scatter every process has the data of the masters of its classes -/
theorem scatter_correct [Inhabited T] (hrows : ∀ p < np, (rows p).length = (dps p).length)
    (hfit : ∀ p < np, ∀ q < np, ∀ (k l : ℕ) (x y : T), key p k = key q l → (rows p)[k]? = some x → (rows q)[l]? = some y →
      fits x y = true) {n : ℕ} {s : St (Option (List T)) (List T)}
    (h : DReach np [eqcScatter dps fits] (fun p => some (rows p)) n s) (hf : DFinal np [eqcScatter dps fits] s) :
    (∀ p < np, ∃ out, s.vec p = some out ∧ Scattered dps key rows p out) ∧ ∀ i, ∀ p < np, ∀ q < np, s.chan i p q = none := by
  obtain ⟨h1, h2⟩ := dfinal_state (scatter_matched hR rows fits) h hf
  refine ⟨fun p hp => ?_, h2⟩
  rw [h1 p hp]
  exact scatter_run hR rows fits hrows hfit hp

include hR in
/-- C70: the scatter does not block -/
theorem scatter_no_deadlock {n : ℕ} {s : St (Option (List T)) (List T)}
    (h : DReach np [eqcScatter dps fits] (fun p => some (rows p)) n s) (hf : ¬ DFinal np [eqcScatter dps fits] s) :
    ∃ t, DStep np [eqcScatter dps fits] s t := dno_deadlock (scatter_matched hR rows fits) h hf

include hR in
/-- C70: after the scatter, two processes of a class have the same row -/
theorem scattered_agree {p q k l : ℕ} {d e : List ℕ} {op oq : List T} (hp : p < np) (hk : (dps p)[k]? = some d)
    (hl : (dps q)[l]? = some e) (hq : q ∈ d) (hkl : key p k = key q l) (h1 : Scattered dps key rows p op)
    (h2 : Scattered dps key rows q oq) : op[k]? = oq[l]? := by
  have hv := hR.valid p hp d (List.mem_of_getElem? hk)
  have hqn : q < np := hv.range q hq
  obtain ⟨l', e', g1, g2, g3⟩ := hR.partner p hp k d hk q hq
  have hll : l' = l := hR.inj q hqn l' l (List.getElem?_eq_some_iff.mp g1).1 (List.getElem?_eq_some_iff.mp hl).1 (g2.trans hkl)
  subst hll
  rw [hl] at g1
  cases g1
  obtain ⟨m, i, a1, a2, a3, a4, a5⟩ := h1.2 k d hk
  obtain ⟨m', i', b1, b2, b3, b4, b5⟩ := h2.2 l' e hl
  have hmem : ∀ r, (r = p ∨ r ∈ d) ↔ (r = q ∨ r ∈ e) := by
    intro r
    rw [← mem_members, ← mem_members, g3]
  have hmm : m = m' := le_antisymm (a2 _ ((hmem _).mpr b1)) (b2 _ ((hmem _).mp a1))
  subst hmm
  have hmn : m < np := by
    rcases a1 with h | h
    · omega
    · exact hv.range _ h
  have : i = i' := hR.inj m hmn i i' a3 b3 (by rw [a4, b4, hkl])
  subst this
  rw [a5, b5]

end

/-! ### examples -/

/-- three processes: classes {0,1}, {1,2}, {0,1,2} and the local ones -/
def exT : ℕ → List (List ℕ)
  | 0 => [[], [1], [1, 2]]
  | 1 => [[], [0], [2], [0, 2]]
  | 2 => [[], [1], [0, 1]]
  | _ => []

theorem exT_tables : Tables 3 exT := by
  refine ⟨?_, by decide, ?_⟩
  · intro p hp
    refine ⟨?_, ?_⟩
    · have : ∀ p < 3, (exT p).Nodup := by decide
      exact this p hp
    · intro d hd
      have h1 : ∀ p < 3, ∀ d ∈ exT p, d.Pairwise (· < ·) := by decide
      have h2 : ∀ p < 3, ∀ d ∈ exT p, p ∉ d := by decide
      have h3 : ∀ p < 3, ∀ d ∈ exT p, ∀ q ∈ d, q < 3 := by decide
      exact ⟨h1 p hp d hd, h3 p hp d hd, h2 p hp d hd⟩
  · have : ∀ p < 3, ∀ d ∈ exT p, ∀ q ∈ d, ∃ e ∈ exT q, members q e = members p d := by decide
    exact this

/-- the rows: process and class -/
def exTab : ℕ → List (List ℕ)
  | 0 => [[0], [1, 1], []]
  | 1 => [[10], [11], [], [13, 13, 13]]
  | 2 => [[20], [], [22]]
  | _ => []

/-- the hypotheses of C69 hold, and the result for concatenation is as expected (rows of different sizes, empty rows) -/
example : (∀ p < 3, (exTab p).length = (exT p).length) ∧
    (drun (prog 3 exT exTab fun _ _ ins => ins.flatten) (fun _ => {}) 0).out = [some [0], some [1, 1, 11], some [13, 13, 13, 22]] ∧
    (drun (prog 3 exT exTab fun _ _ ins => ins.flatten) (fun _ => {}) 1).out =
      [some [10], some [1, 1, 11], some [], some [13, 13, 13, 22]] ∧
    (drun (prog 3 exT exTab fun _ _ ins => ins.flatten) (fun _ => {}) 2).out = [some [20], some [], some [13, 13, 13, 22]] := by
  decide +kernel

/-- there is a complete schedule -/
example : ∃ n s, DReach 3 (prog 3 exT exTab fun _ _ ins => ins.flatten) (fun _ => {}) n s ∧
    DFinal 3 (prog 3 exT exTab fun _ _ ins => ins.flatten) s :=
  dexists_final (matched (rows_of_tables exT_tables) exTab _ (by decide))

/-- rows of one size per class: the scatter overwrites them by the rows of the master -/
def exRows : ℕ → List (List ℕ)
  | 0 => [[0], [1, 1], []]
  | 1 => [[10, 10], [11, 11], [12], []]
  | 2 => [[20], [21], []]
  | _ => []

example : (∀ p < 3, (exRows p).length = (exT p).length) ∧
    drun [eqcScatter exT fun x y => x.length == y.length] (fun p => some (exRows p)) 1 = some [[10, 10], [1, 1], [12], []] ∧
    drun [eqcScatter exT fun x y => x.length == y.length] (fun p => some (exRows p)) 2 = some [[20], [12], []] := by
  decide +kernel

example : ∀ p < 3, ∀ q < 3, ∀ (k l : ℕ) (x y : List ℕ), members p ((exT p).getD k []) = members q ((exT q).getD l []) →
    (exRows p)[k]? = some x → (exRows q)[l]? = some y → (x.length == y.length) = true := by
  have h : ∀ p < 3, ∀ q < 3, ∀ k < (exRows p).length, ∀ l < (exRows q).length,
      members p ((exT p).getD k []) = members q ((exT q).getD l []) → ((exRows p).getD k []).length = ((exRows q).getD l []).length := by decide
  intro p hp q hq k l x y e hx hy
  have hk := (List.getElem?_eq_some_iff.mp hx).1
  have hl := (List.getElem?_eq_some_iff.mp hy).1
  have := h p hp q hq k hk l hl e
  rw [List.getD_eq_getElem?_getD, List.getD_eq_getElem?_getD, hx, hy] at this
  simpa using this

end NgsAMG.RedTab
