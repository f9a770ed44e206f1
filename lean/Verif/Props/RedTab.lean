import Verif.Model.RedTab
import Verif.Props.Exchange2
import Verif.Props.EQC5

/-!
# Properties of `ReduceTable`: every row is reduced once and all its owners get the result (C69), part 1: rows and blocks
-/

namespace NgsAMG.RedTab

open NgsAMG.Exch NgsAMG.EQC

variable {T R K : Type}

/-- specification of the input: the processes have rows with keys; the rows with the same key are on all processes of the row (the own
rank and the distant processes), and rows that two processes share are in the same order ("NUMBER AND ORDER OF ROWS HAS TO
BE CONSISTENT", reducetable.hpp:590) -/
structure Rows (np : ℕ) (dps : ℕ → List (List ℕ)) (key : ℕ → ℕ → K) : Prop where
  valid : ∀ p < np, ∀ d ∈ dps p, Valid np p d
  inj : ∀ p < np, ∀ k l, k < (dps p).length → l < (dps p).length → key p k = key p l → k = l
  partner : ∀ p < np, ∀ (k : ℕ) (d : List ℕ), (dps p)[k]? = some d → ∀ q ∈ d,
    ∃ (l : ℕ) (e : List ℕ), (dps q)[l]? = some e ∧ key q l = key p k ∧ members q e = members p d
  order : ∀ p q, p < q → q < np → ∀ k k' l l', k < k' → k' < (dps p).length → l < (dps q).length → l' < (dps q).length →
    key p k = key q l → key p k' = key q l' → l < l'

theorem mem_masterFrom (p q k : ℕ) (rest : List (List ℕ)) (r : ℕ) :
    r ∈ masterFrom p q k rest ↔ ∃ (i : ℕ) (d : List ℕ), rest[i]? = some d ∧ r = k + i ∧ masterOf p d = q := by
  induction rest generalizing k with
  | nil => simp [masterFrom]
  | cons d rest ih =>
    have hex : (∃ (i : ℕ) (e : List ℕ), (d :: rest)[i]? = some e ∧ r = k + i ∧ masterOf p e = q) ↔
        (r = k ∧ masterOf p d = q) ∨ ∃ (i : ℕ) (e : List ℕ), rest[i]? = some e ∧ r = k + 1 + i ∧ masterOf p e = q := by
      constructor
      · rintro ⟨i, e, h1, h2, h3⟩
        cases i with
        | zero =>
          simp only [List.getElem?_cons_zero, Option.some.injEq] at h1
          subst h1
          exact Or.inl ⟨by omega, h3⟩
        | succ i => exact Or.inr ⟨i, e, by simpa using h1, by omega, h3⟩
      · rintro (⟨h1, h2⟩ | ⟨i, e, h1, h2, h3⟩)
        · exact ⟨0, d, by simp, by omega, h2⟩
        · exact ⟨i + 1, e, by simpa using h1, by omega, h3⟩
    rw [hex]
    cases d with
    | nil =>
      simp only [masterFrom, List.mem_append, ih, masterOf]
      refine or_congr ?_ Iff.rfl
      by_cases h : q = p
      · simp [h]
      · simp [h, Ne.symm h]
    | cons h ds =>
      simp only [masterFrom, List.mem_append, ih, masterOf]
      refine or_congr ?_ Iff.rfl
      by_cases hp : p < h
      · rw [if_pos hp, Nat.min_eq_left hp.le]
        by_cases h : q = p
        · simp [h]
        · simp [h, Ne.symm h]
      · rw [if_neg hp, Nat.min_eq_right (by omega)]
        by_cases h' : q = h
        · simp [h']
        · simp [h', Ne.symm h']

theorem masterFrom_sorted (p q k : ℕ) (rest : List (List ℕ)) : (masterFrom p q k rest).Pairwise (· < ·) := by
  induction rest generalizing k with
  | nil => simp [masterFrom]
  | cons d rest ih =>
    have key : ∀ l : List ℕ, (l = [] ∨ l = [k]) → (l ++ masterFrom p q (k + 1) rest).Pairwise (· < ·) := by
      rintro l (rfl | rfl)
      · simpa using ih (k + 1)
      · rw [List.singleton_append, List.pairwise_cons]
        refine ⟨?_, ih (k + 1)⟩
        intro a ha
        obtain ⟨i, _, _, h, _⟩ := (mem_masterFrom _ _ _ _ _).mp ha
        omega
    cases d with
    | nil => exact key _ (by split <;> simp)
    | cons h ds => exact key _ (by split <;> split <;> simp)

theorem mem_slaveFrom (p q k : ℕ) (rest : List (List ℕ)) (r : ℕ) :
    r ∈ slaveFrom p q k rest ↔ ∃ (i : ℕ) (d : List ℕ), rest[i]? = some d ∧ r = k + i ∧ q ∈ d ∧ p < d.headD 0 := by
  induction rest generalizing k with
  | nil => simp [slaveFrom]
  | cons d rest ih =>
    have hex : (∃ (i : ℕ) (e : List ℕ), (d :: rest)[i]? = some e ∧ r = k + i ∧ q ∈ e ∧ p < e.headD 0) ↔
        (r = k ∧ q ∈ d ∧ p < d.headD 0) ∨ ∃ (i : ℕ) (e : List ℕ), rest[i]? = some e ∧ r = k + 1 + i ∧ q ∈ e ∧ p < e.headD 0 := by
      constructor
      · rintro ⟨i, e, h1, h2, h3⟩
        cases i with
        | zero =>
          simp only [List.getElem?_cons_zero, Option.some.injEq] at h1
          subst h1
          exact Or.inl ⟨by omega, h3⟩
        | succ i => exact Or.inr ⟨i, e, by simpa using h1, by omega, h3⟩
      · rintro (⟨h1, h2⟩ | ⟨i, e, h1, h2, h3⟩)
        · exact ⟨0, d, by simp, by omega, h2⟩
        · exact ⟨i + 1, e, by simpa using h1, by omega, h3⟩
    rw [hex]
    cases d with
    | nil => simp [slaveFrom, ih]
    | cons h ds =>
      simp only [slaveFrom, List.mem_append, ih]
      refine or_congr ?_ Iff.rfl
      by_cases hp : p < h
      · rw [if_pos hp, List.mem_map]
        simp only [List.mem_filter, beq_iff_eq, List.headD_cons, hp, and_true]
        constructor
        · rintro ⟨a, ⟨h1, rfl⟩, rfl⟩; exact ⟨rfl, h1⟩
        · rintro ⟨rfl, h1⟩; exact ⟨q, ⟨h1, rfl⟩, rfl⟩
      · simp [hp]

/-- the rows of one row of the table in `slaveFrom` -/
theorem slaveFrom_cons {np p : ℕ} {d : List ℕ} (hd : Valid np p d) (q k : ℕ) (rest : List (List ℕ)) :
    slaveFrom p q k (d :: rest) =
      (if q ∈ d ∧ p < d.headD 0 then [k] else []) ++ slaveFrom p q (k + 1) rest := by
  cases d with
  | nil => simp [slaveFrom]
  | cons h ds =>
    simp only [slaveFrom, List.headD_cons]
    congr 1
    by_cases hp : p < h
    · simp only [hp, and_true, if_true]
      have hnd : (h :: ds).Nodup := hd.sorted.imp (fun h => Nat.ne_of_lt h)
      by_cases hq : q ∈ h :: ds
      · have := hnd.count (a := q)
        rw [List.filter_beq, this, if_pos hq]
        simp [hq]
      · have := hnd.count (a := q)
        rw [List.filter_beq, this, if_neg hq]
        simp [hq]
    · simp [hp]

theorem slaveFrom_sorted {np p : ℕ} (q k : ℕ) (rest : List (List ℕ)) (hv : ∀ d ∈ rest, Valid np p d) :
    (slaveFrom p q k rest).Pairwise (· < ·) := by
  induction rest generalizing k with
  | nil => simp [slaveFrom]
  | cons d rest ih =>
    rw [slaveFrom_cons (hv d (by simp))]
    have ih' := ih (k + 1) (fun e he => hv e (by simp [he]))
    split
    · rw [List.singleton_append, List.pairwise_cons]
      refine ⟨?_, ih'⟩
      intro a ha
      obtain ⟨i, _, _, h, _⟩ := (mem_slaveFrom _ _ _ _ _).mp ha
      omega
    · simpa using ih'

/-- two sorted lists with values in the same order have the same values -/
theorem map_eq_of_order {A B : List ℕ} {f g : ℕ → K} (hA : A.Pairwise (· < ·)) (hB : B.Pairwise (· < ·))
    (h1 : ∀ a ∈ A, ∃ b ∈ B, g b = f a) (h2 : ∀ b ∈ B, ∃ a ∈ A, f a = g b)
    (hf : ∀ a ∈ A, ∀ a' ∈ A, f a = f a' → a = a')
    (hord : ∀ b ∈ B, ∀ b' ∈ B, ∀ a ∈ A, ∀ a' ∈ A, g b = f a → g b' = f a' → b < b' → a < a') : A.map f = B.map g := by
  classical
  have hch : ∀ b, ∃ a, b ∈ B → a ∈ A ∧ f a = g b := by
    intro b
    by_cases hb : b ∈ B
    · obtain ⟨a, ha⟩ := h2 b hb
      exact ⟨a, fun _ => ha⟩
    · exact ⟨0, fun h => absurd h hb⟩
  choose h hh using hch
  have hBh : B.map h = A := by
    refine sl_ext (a := B.map h) (b := A) ?_ hA ?_
    · show (B.map h).Pairwise (· < ·)
      rw [List.pairwise_map]
      refine (List.Pairwise.and_mem.mp hB).imp ?_
      rintro b b' ⟨hb, hb', hlt⟩
      exact hord b hb b' hb' (h b) (hh b hb).1 (h b') (hh b' hb').1 (hh b hb).2.symm (hh b' hb').2.symm hlt
    · intro x
      rw [List.mem_map]
      constructor
      · rintro ⟨b, hb, rfl⟩
        exact (hh b hb).1
      · intro hx
        obtain ⟨b, hb, e⟩ := h1 x hx
        exact ⟨b, hb, hf _ (hh b hb).1 _ hx ((hh b hb).2.trans e)⟩
  rw [← hBh, List.map_map]
  apply List.map_congr_left
  intro b hb
  exact (hh b hb).2

section
variable {np : ℕ} {dps : ℕ → List (List ℕ)} {key : ℕ → ℕ → K}

theorem headD_mem {np p : ℕ} {d : List ℕ} (hd : Valid np p d) (h : p < d.headD 0) : masterOf p d = p ∧ d ≠ [] ∧ ∀ q ∈ d, p < q := by
  cases d with
  | nil => simp at h
  | cons a l =>
    simp only [List.headD_cons] at h
    refine ⟨Nat.min_eq_left h.le, by simp, ?_⟩
    intro q hq
    rcases List.mem_cons.mp hq with rfl | hq
    · exact h
    · have := (List.pairwise_cons.mp hd.sorted).1 q hq; omega

/-- the master is the smallest process -/
theorem masterOf_spec {np p : ℕ} {d : List ℕ} (hd : Valid np p d) :
    masterOf p d ∈ members p d ∧ ∀ x ∈ members p d, masterOf p d ≤ x := by
  cases d with
  | nil => simp [masterOf, members]
  | cons a l =>
    simp only [masterOf]
    constructor
    · rw [mem_members]
      rcases Nat.le_total p a with h | h
      · left; exact Nat.min_eq_left h
      · right; rw [Nat.min_eq_right h]; simp
    · intro x hx
      rcases mem_members.mp hx with rfl | hx
      · exact Nat.min_le_left _ _
      · refine (Nat.min_le_right _ _).trans ?_
        rcases List.mem_cons.mp hx with rfl | hx
        · exact le_refl _
        · exact ((List.pairwise_cons.mp hd.sorted).1 x hx).le

theorem masterOf_eq {np p q : ℕ} {d e : List ℕ} (hd : Valid np p d) (he : Valid np q e) (h : members q e = members p d) :
    masterOf q e = masterOf p d := by
  have h1 := masterOf_spec hd
  have h2 := masterOf_spec he
  rw [h] at h2
  exact le_antisymm (h2.2 _ h1.1) (h1.2 _ h2.1)

theorem headD_of_master {np p : ℕ} {d : List ℕ} (hd : Valid np p d) (h : masterOf p d = p) (hne : d ≠ []) : p < d.headD 0 := by
  cases d with
  | nil => exact absurd rfl hne
  | cons a l =>
    simp only [masterOf] at h
    have : p ≠ a := fun e => hd.notSelf (by simp [e])
    simp only [List.headD_cons]
    omega

/-- the rows `q` sends to its master `p` are the rows `p` shares with `q` as their master, in the same order -/
theorem rows_agree (hR : Rows np dps key) {p q : ℕ} (hpq : p < q) (hq : q < np) :
    (masterRows (dps q) q p).map (key q) = (slaveRows (dps p) p q).map (key p) := by
  have hp : p < np := by omega
  have hA : ∀ a ∈ masterRows (dps q) q p, ∃ d : List ℕ, (dps q)[a]? = some d ∧ masterOf q d = p ∧ Valid np q d := by
    intro a ha
    obtain ⟨i, d, h1, h2, h3⟩ := (mem_masterFrom _ _ _ _ _).mp ha
    rw [Nat.zero_add] at h2
    subst h2
    exact ⟨d, h1, h3, hR.valid q hq d (List.mem_of_getElem? h1)⟩
  have hB : ∀ b ∈ slaveRows (dps p) p q, ∃ d : List ℕ, (dps p)[b]? = some d ∧ q ∈ d ∧ p < d.headD 0 ∧ Valid np p d := by
    intro a ha
    obtain ⟨i, d, h1, h2, h3, h4⟩ := (mem_slaveFrom _ _ _ _ _).mp ha
    rw [Nat.zero_add] at h2
    subst h2
    exact ⟨d, h1, h3, h4, hR.valid p hp d (List.mem_of_getElem? h1)⟩
  have hlen : ∀ {r k : ℕ} {d : List ℕ}, (dps r)[k]? = some d → k < (dps r).length := fun h => (List.getElem?_eq_some_iff.mp h).1
  refine map_eq_of_order (masterFrom_sorted _ _ _ _) (slaveFrom_sorted _ _ _ (hR.valid p hp)) ?_ ?_ ?_ ?_
  · intro a ha
    obtain ⟨d, h1, h2, h3⟩ := hA a ha
    have hpd : p ∈ d := by
      have := (masterOf_spec h3).1
      rw [h2] at this
      rcases mem_members.mp this with h | h
      · omega
      · exact h
    obtain ⟨l, e, g1, g2, g3⟩ := hR.partner q hq a d h1 p hpd
    have hve := hR.valid p hp e (List.mem_of_getElem? g1)
    have hm : masterOf p e = p := (masterOf_eq h3 hve g3).trans h2
    have hqe : q ∈ e := by
      have : q ∈ members p e := by rw [g3]; exact mem_members.mpr (Or.inl rfl)
      rcases mem_members.mp this with h | h
      · omega
      · exact h
    refine ⟨l, (mem_slaveFrom _ _ _ _ _).mpr ⟨l, e, g1, by omega, hqe, headD_of_master hve hm (List.ne_nil_of_mem hqe)⟩, g2⟩
  · intro b hb
    obtain ⟨d, h1, h2, h3, h4⟩ := hB b hb
    obtain ⟨l, e, g1, g2, g3⟩ := hR.partner p hp b d h1 q h2
    have hve := hR.valid q hq e (List.mem_of_getElem? g1)
    have hm : masterOf q e = p := (masterOf_eq h4 hve g3).trans (headD_mem h4 h3).1
    exact ⟨l, (mem_masterFrom _ _ _ _ _).mpr ⟨l, e, g1, by omega, hm⟩, g2⟩
  · intro a ha a' ha' e
    obtain ⟨d, h1, -⟩ := hA a ha
    obtain ⟨d', h1', -⟩ := hA a' ha'
    exact hR.inj q hq a a' (hlen h1) (hlen h1') e
  · intro b hb b' hb' a ha a' ha' e e' hlt
    obtain ⟨d, h1, -⟩ := hA a ha
    obtain ⟨d', h1', -⟩ := hA a' ha'
    obtain ⟨d2, h2, -⟩ := hB b' hb'
    exact hR.order p q hpq hq b b' a a' hlt (hlen h2) (hlen h1) (hlen h1') e e'

open Classical in
/-- the row of process `r` with key `κ` -/
noncomputable def contrib {α : Type} (dps : ℕ → List (List ℕ)) (key : ℕ → ℕ → K) (tab : ℕ → List (List α)) (r : ℕ) (κ : K) : List α :=
  if h : ∃ j, j < (dps r).length ∧ key r j = κ then (tab r).getD h.choose [] else []

theorem contrib_eq {α : Type} (hR : Rows np dps key) (tab : ℕ → List (List α)) {r j : ℕ} (hr : r < np) (hj : j < (dps r).length) :
    contrib dps key tab r (key r j) = (tab r).getD j [] := by
  have h : ∃ i, i < (dps r).length ∧ key r i = key r j := ⟨j, hj, rfl⟩
  rw [contrib, dif_pos h, hR.inj r hr _ j h.choose_spec.1 hj h.choose_spec.2]

theorem master_rows_lt {p q k : ℕ} (hk : k ∈ masterRows (dps p) p q) : k < (dps p).length := by
  obtain ⟨i, d, h1, h2, -⟩ := (mem_masterFrom _ _ _ _ _).mp hk
  have := (List.getElem?_eq_some_iff.mp h1).1
  omega

theorem slave_rows_lt {p q k : ℕ} (hk : k ∈ slaveRows (dps p) p q) : k < (dps p).length := by
  obtain ⟨i, d, h1, h2, -⟩ := (mem_slaveFrom _ _ _ _ _).mp hk
  have := (List.getElem?_eq_some_iff.mp h1).1
  omega

/-- the data sent to the master, seen from the master -/
theorem gatherRows_eq (hR : Rows np dps key) (tab : ℕ → List (List T)) {p q : ℕ} (hpq : p < q) (hq : q < np) :
    gatherRows dps tab q p = (slaveRows (dps p) p q).map fun k => contrib dps key tab q (key p k) := by
  have h := congrArg (List.map (contrib dps key tab q)) (rows_agree hR hpq hq)
  rw [List.map_map, List.map_map] at h
  refine Eq.trans ?_ h
  apply List.map_congr_left
  intro k hk
  exact (contrib_eq hR tab hq (master_rows_lt hk)).symm

/-- the data of the master for another process, seen from the other process -/
theorem scatterRows_eq (hR : Rows np dps key) (red : ℕ → List (List R)) {p q : ℕ} (hpq : p < q) (hq : q < np) :
    (slaveRows (dps p) p q).map (fun k => (red p).getD k []) =
      (masterRows (dps q) q p).map fun k => contrib dps key red p (key q k) := by
  have h := congrArg (List.map (contrib dps key red p)) (rows_agree hR hpq hq)
  rw [List.map_map, List.map_map] at h
  refine Eq.trans ?_ h.symm
  apply List.map_congr_left
  intro k hk
  exact (contrib_eq hR red (by omega) (slave_rows_lt hk)).symm

end

/-! ### reduce and unpack -/

theorem unpack_flatten (rows : List ℕ) (xs : List (List R)) (h : rows.length = xs.length) :
    unpack rows (xs.map List.length) xs.flatten = some (rows.zip xs) := by
  induction rows generalizing xs with
  | nil => simp [unpack]
  | cons r rs ih =>
    cases xs with
    | nil => simp at h
    | cons x xs =>
      simp only [List.map_cons, List.flatten_cons, unpack]
      rw [if_pos (by simp), List.drop_left, List.take_left, ih xs (by simpa using h)]
      simp

theorem mapM_some_of {α β : Type} (l : List α) (f : α → Option β) (g : α → β) (h : ∀ a ∈ l, f a = some (g a)) :
    l.mapM f = some (l.map g) := by
  induction l with
  | nil => rfl
  | cons a l ih =>
    rw [List.mapM_cons, h a (by simp), ih (fun b hb => h b (by simp [hb]))]
    rfl

/-- the result of the loop over the rows -/
theorem reduceRows_spec {np p : ℕ} (lam : ℕ → ℕ → List (List T) → List R) (f : ℕ → ℕ → List T) (rest : List (List ℕ × List T)) (k : ℕ)
    (rb : ℕ → List ℕ) (rd : ℕ → List T) (hv : ∀ e ∈ rest, Valid np p e.1)
    (hb : ∀ q, rb q = ((slaveFrom p q k (rest.map Prod.fst)).map (f q)).map List.length)
    (hd : ∀ q, rd q = ((slaveFrom p q k (rest.map Prod.fst)).map (f q)).flatten) :
    ∃ L, reduceRows p lam k rest rb rd = some L ∧ L.length = rest.length ∧ ∀ i (e : List ℕ × List T), rest[i]? = some e →
      masterOf p e.1 = p →
      L[i]? = some (lam p (k + i) (((p :: e.1).insertionSort (· ≤ ·)).map fun q => if q = p then e.2 else f q (k + i))) := by
  induction rest generalizing k rb rd with
  | nil => exact ⟨[], rfl, rfl, by simp⟩
  | cons e rest ih =>
    obtain ⟨ds, row⟩ := e
    have hve := hv (ds, row) (by simp)
    simp only [List.map_cons] at hb hd
    simp only [reduceRows]
    have hsl : (!ds.isEmpty && decide (ds.headD 0 < p)) = true ↔ masterOf p ds ≠ p := by
      cases ds with
      | nil => simp [masterOf]
      | cons a l =>
        have : p ≠ a := fun e => hve.notSelf (by simp [e])
        rw [Bool.and_eq_true, decide_eq_true_iff]
        simp only [List.isEmpty_cons, Bool.not_false, true_and, List.headD_cons, masterOf]
        omega
    by_cases hm : masterOf p ds = p
    · rw [if_neg (by rw [hsl]; simpa using hm)]
      have hmem : ∀ q, slaveFrom p q k (ds :: rest.map Prod.fst) =
          (if q ∈ ds then [k] else []) ++ slaveFrom p q (k + 1) (rest.map Prod.fst) := by
        intro q
        rw [slaveFrom_cons hve]
        by_cases hq : q ∈ ds
        · rw [if_pos ⟨hq, headD_of_master hve hm (List.ne_nil_of_mem hq)⟩, if_pos hq]
        · rw [if_neg (fun h => hq h.1), if_neg hq]
      have hin : rowInput p ds row rb rd =
          some (((p :: ds).insertionSort (· ≤ ·)).map fun q => if q = p then row else f q k) := by
        refine mapM_some_of _ _ _ ?_
        intro q hq
        rw [List.mem_insertionSort, List.mem_cons] at hq
        by_cases hqp : q = p
        · rw [if_pos hqp, if_pos hqp]
        · have hqd : q ∈ ds := hq.resolve_left hqp
          rw [if_neg hqp, if_neg hqp, hb q, hd q, hmem q, if_pos hqd]
          simp
      obtain ⟨L, h1, h2, h3⟩ := ih (k + 1) (fun q => if q ∈ ds then (rb q).tail else rb q)
        (fun q => if q ∈ ds then (rd q).drop ((rb q).headD 0) else rd q) (fun e he => hv e (by simp [he])) (by
          intro q
          beta_reduce
          rw [hb q, hmem q]
          by_cases hq : q ∈ ds
          · simp [hq]
          · simp [hq]) (by
          intro q
          beta_reduce
          rw [hb q, hd q, hmem q]
          by_cases hq : q ∈ ds
          · simp [hq]
          · simp [hq])
      rw [hin, Option.bind_some, h1]
      refine ⟨_, rfl, by simp [h2], ?_⟩
      intro i e he hme
      cases i with
      | zero =>
        simp only [List.getElem?_cons_zero, Option.some.injEq] at he
        subst he
        simp
      | succ i =>
        have := h3 i e (by simpa using he) hme
        rw [List.getElem?_cons_succ, this]
        rw [show k + 1 + i = k + (i + 1) by omega]
    · rw [if_pos (hsl.mpr hm)]
      have hmem : ∀ q, slaveFrom p q k (ds :: rest.map Prod.fst) = slaveFrom p q (k + 1) (rest.map Prod.fst) := by
        intro q
        rw [slaveFrom_cons hve, if_neg (fun h => hm (headD_mem hve h.2).1), List.nil_append]
      obtain ⟨L, h1, h2, h3⟩ := ih (k + 1) rb rd (fun e he => hv e (by simp [he])) (by intro q; rw [hb q, hmem q])
        (by intro q; rw [hd q, hmem q])
      rw [h1]
      refine ⟨_, rfl, by simp [h2], ?_⟩
      intro i e he hme
      cases i with
      | zero =>
        simp only [List.getElem?_cons_zero, Option.some.injEq] at he
        subst he
        exact absurd hme hm
      | succ i =>
        have := h3 i e (by simpa using he) hme
        rw [List.getElem?_cons_succ, this]
        rw [show k + 1 + i = k + (i + 1) by omega]

/-- writing entries with distinct keys -/
theorem foldl_set_spec {α : Type} (l : List (ℕ × α)) (t : List (Option α)) (hl : ∀ e ∈ l, e.1 < t.length)
    (hn : (l.map Prod.fst).Nodup) :
    (l.foldl (fun t e => t.set e.1 (some e.2)) t).length = t.length ∧
    (∀ e ∈ l, (l.foldl (fun t e => t.set e.1 (some e.2)) t)[e.1]? = some (some e.2)) ∧
    ∀ i, i ∉ l.map Prod.fst → (l.foldl (fun t e => t.set e.1 (some e.2)) t)[i]? = t[i]? := by
  induction l generalizing t with
  | nil => simp
  | cons a l ih =>
    have hn' := List.nodup_cons.mp (by simpa using hn : (a.1 :: l.map Prod.fst).Nodup)
    obtain ⟨h1, h2, h3⟩ := ih (t.set a.1 (some a.2)) (by intro e he; rw [List.length_set]; exact hl e (by simp [he])) hn'.2
    simp only [List.foldl_cons]
    refine ⟨by rw [h1, List.length_set], ?_, ?_⟩
    · intro e he
      rcases List.mem_cons.mp he with rfl | he
      · rw [h3 _ hn'.1, List.getElem?_set_self (hl _ (by simp))]
      · exact h2 e he
    · intro i hi
      rw [List.map_cons, List.mem_cons, not_or] at hi
      rw [h3 i hi.2, List.getElem?_set_ne (fun h => hi.1 h.symm)]

end NgsAMG.RedTab
