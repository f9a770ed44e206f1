import Verif.Props.Loops3
import Verif.Model.LoopMap

/-!
# Rotating loops (C98)
-/

namespace NgsAMG.Loop
open NgsAMG.Spec
variable {V : Type} [LinearOrder V]
set_option linter.unusedSectionVars false

theorem take_drop_one (l : List V) (n : ℕ) : (l.take (n + 1)).drop 1 = (l.drop 1).take n := by
  cases l with
  | nil => simp
  | cons a t => simp

theorem rotBuffer_eq (l : List V) (n : ℕ) (f : Bool) (hc : l.head? = l.getLast?) :
    rotBuffer l n f = if f then (bndArr l n n).reverse else bndArr l n n := by
  rw [rotBuffer, take_drop_one, bndArr, if_pos ((isClosed_iff l).2 hc)]
  cases f <;> simp

theorem minPos_spec (l : List V) (a : V) (ha : a ∈ l.head?) : (minPos l a).1 < l.length ∧ l[(minPos l a).1]? = some (minPos l a).2 ∧ ∀ x ∈ l, (minPos l a).2 ≤ x := by
  have key : ∀ (pre suf : List V) (s : ℕ × V), (∀ x ∈ pre, s.2 ≤ x) → (pre ++ suf)[s.1]? = some s.2 →
      (pre ++ suf)[((suf.zipIdx pre.length).foldl (fun s e => if e.1 < s.2 then (e.2, e.1) else s) s).1]? = some ((suf.zipIdx pre.length).foldl (fun s e => if e.1 < s.2 then (e.2, e.1) else s) s).2 ∧
      ∀ x ∈ pre ++ suf, ((suf.zipIdx pre.length).foldl (fun s e => if e.1 < s.2 then (e.2, e.1) else s) s).2 ≤ x := by
    intro pre suf
    induction suf generalizing pre with
    | nil => intro s h1 h2; simpa using And.intro (by simpa using h2) h1
    | cons y t ih =>
      intro s h1 h2
      have e : pre ++ y :: t = (pre ++ [y]) ++ t := by simp
      simp only [List.zipIdx_cons, List.foldl_cons]
      have hl : pre.length + 1 = (pre ++ [y]).length := by simp
      rw [hl, e]
      refine ih (pre ++ [y]) _ ?_ ?_
      · intro x hx
        rcases List.mem_append.1 hx with hx | hx
        · split_ifs with hlt
          · exact le_trans hlt.le (h1 x hx)
          · exact h1 x hx
        · rw [List.mem_singleton] at hx
          subst hx
          split_ifs with hlt
          · exact le_refl _
          · exact not_lt.1 hlt
      · split_ifs with hlt
        · simp
        · rw [← e]; exact h2
  have h0 : l[0]? = some a := by
    rw [← List.head?_eq_getElem?]; exact ha
  obtain ⟨h1, h2⟩ := key [] l (0, a) (by simp) (by simpa using h0)
  have h1' : l[(minPos l a).1]? = some (minPos l a).2 := h1
  refine ⟨?_, h1', h2⟩
  by_contra hc
  rw [List.getElem?_eq_none (by omega)] at h1'
  cases h1'

theorem steps_reverse (l : List V) : (steps l.reverse).Perm ((steps l).map Prod.swap) := by
  induction l with
  | nil => simp [steps]
  | cons a t ih =>
    cases t with
    | nil => simp [steps]
    | cons b t =>
      rw [List.reverse_cons, steps_snoc _ b a (by simp)]
      simp only [steps, List.map_cons, Prod.swap_prod_mk]
      exact List.perm_append_comm.trans (List.Perm.cons _ ih)

theorem count_swap (es : List (V × V)) (a b : V) : (es.map Prod.swap).count (a, b) = es.count (b, a) := by
  rw [← List.count_map_of_injective es Prod.swap Prod.swap_injective (b, a)]
  rfl

theorem net_perm {A B : List (V × V)} (h : A.Perm B) (a b : V) : net A a b = net B a b := by
  rw [net, net, h.count_eq, h.count_eq]

theorem net_swap (es : List (V × V)) (a b : V) : net (es.map Prod.swap) a b = -net es a b := by
  rw [net, net, count_swap, count_swap]; omega

theorem net_reverse (l : List V) (a b : V) : net (steps l.reverse) a b = -net (steps l) a b := by
  rw [net_perm (steps_reverse l), net_swap]

/-- closed walks `x ++ [first]` -/
theorem closed_form {l : List V} (hc : Closed l) : ∃ a xs, l = a :: xs ++ [a] := by
  obtain ⟨h2, he⟩ := hc
  match l, h2, he with
  | a :: b :: t, _, he =>
    rw [List.getLast?_cons_cons] at he
    obtain ⟨ys, hys⟩ := List.getLast?_eq_some_iff.1 he.symm
    exact ⟨a, ys, by rw [hys]; rfl⟩

theorem bnd_rot {l : List V} (hc : Closed l) (n : ℕ) (hn : n < l.length) : bndArr l n n = l.dropLast.drop n ++ l.take (n + 1) := by
  rw [bndArr, if_pos ((isClosed_iff l).2 hc.2)]
  obtain ⟨a, xs, rfl⟩ := closed_form hc
  have h1 : (a :: xs ++ [a]).dropLast = a :: xs := List.dropLast_concat
  rw [h1]
  have h2 : n ≤ (a :: xs).length := by simp at hn ⊢; omega
  rw [List.drop_append_of_le_length h2]
  simp

theorem bnd_core {l : List V} (hc : Closed l) (n : ℕ) (hn : n < l.length) : (bndArr l n n).dropLast = l.dropLast.drop n ++ l.dropLast.take n := by
  rw [bnd_rot hc n hn]
  have hne : l.take (n + 1) ≠ [] := by
    intro h
    have h' := congrArg List.length h
    rw [List.length_take, List.length_nil] at h'
    omega
  rw [List.dropLast_append_of_ne_nil hne]
  congr 1
  rw [List.dropLast_eq_take, List.dropLast_eq_take, List.take_take, List.take_take, List.length_take]
  congr 1
  omega

theorem closed_bnd {l : List V} (hc : Closed l) (n : ℕ) (hn : n < l.length) : Closed (bndArr l n n) := by
  refine ⟨?_, by rw [bnd_head _ _ _ hn, bnd_last _ _ _ hn hn]⟩
  rw [bnd_length _ _ _ hn hn, bndSize, if_pos ((isClosed_iff l).2 hc.2)]
  have := hc.1
  omega

theorem closed_reverse {l : List V} (hc : Closed l) : Closed l.reverse := by
  refine ⟨by simpa using hc.1, ?_⟩
  rw [List.head?_reverse, List.getLast?_reverse]; exact hc.2.symm

theorem simple_iff {l : List V} (hc : Closed l) : SimpleLoop l ↔ l.dropLast.Nodup := by
  obtain ⟨a, xs, rfl⟩ := closed_form hc
  rw [SimpleLoop, List.dropLast_concat]
  constructor
  · rintro ⟨-, h⟩
    have : (xs ++ [a]).Nodup := h
    rw [List.nodup_append_comm] at this
    simpa using this
  · intro h
    refine ⟨hc, ?_⟩
    show (xs ++ [a]).Nodup
    rw [List.nodup_append_comm]
    simpa using h

theorem same_reverse_core {l : List V} (hc : Closed l) : l.reverse.dropLast ~r l.dropLast.reverse := by
  obtain ⟨a, xs, rfl⟩ := closed_form hc
  rw [List.dropLast_concat]
  simp only [List.cons_append, List.reverse_cons, List.reverse_append, List.reverse_nil, List.nil_append]
  rw [show a :: (xs.reverse ++ [a]) = (a :: xs.reverse) ++ [a] from rfl, List.dropLast_concat]
  exact List.isRotated_append (l := [a]) (l' := xs.reverse)

/-- what `rotateVLoop` gives for a closed walk -/
theorem rotate_form {l : List V} (hc : Closed l) : ∃ n, n < l.length ∧ (∃ v, l[n]? = some v ∧ ∀ x ∈ l, v ≤ x) ∧
    (rotateVLoop l = bndArr l n n ∨ rotateVLoop l = (bndArr l n n).reverse) := by
  match l, hc with
  | a :: t, hc =>
    obtain ⟨h1, h2, h3⟩ := minPos_spec (a :: t) a rfl
    refine ⟨(minPos (a :: t) a).1, h1, ⟨_, h2, h3⟩, ?_⟩
    rw [rotateVLoop, if_pos hc.2]
    simp only []
    split_ifs with hf
    · rw [rotBuffer_eq _ _ _ hc.2]
      split_ifs
      · exact Or.inr rfl
      · exact Or.inl rfl
    · left
      have h0 : (minPos (a :: t) a).1 = 0 := by
        simp at hf; exact hf.2
      rw [h0, bndArr, if_pos ((isClosed_iff _).2 hc.2)]
      simp

/-- **C98** (rotating a loop). For every loop through distinct vertices: what comes out is the same loop, in one of the two directions,
it begins at the smallest of its vertices, and as a sum of oriented edges it is the old one or its negative. -/
theorem rotate_correct {l : List V} (hl : SimpleLoop l) : SimpleLoop (rotateVLoop l) ∧ SameLoop (rotateVLoop l) l ∧
    (∃ v, (rotateVLoop l).head? = some v ∧ ∀ x ∈ l, v ≤ x) ∧ (rotateVLoop l).length = l.length ∧
    ((∀ a b, net (steps (rotateVLoop l)) a b = net (steps l) a b) ∨ (∀ a b, net (steps (rotateVLoop l)) a b = -net (steps l) a b)) := by
  have hc := hl.1
  obtain ⟨n, hn, ⟨v, hv, hmin⟩, hr⟩ := rotate_form hc
  have hcb := closed_bnd hc n hn
  have hnd : (bndArr l n n).dropLast.Nodup := by
    rw [bnd_core hc n hn, List.nodup_append_comm, List.take_append_drop]
    exact (simple_iff hc).1 hl
  have hsb : SimpleLoop (bndArr l n n) := (simple_iff hcb).2 hnd
  have hrot : (bndArr l n n).dropLast ~r l.dropLast := by
    rw [bnd_core hc n hn]
    have := List.isRotated_append (l := l.dropLast.drop n) (l' := l.dropLast.take n)
    rwa [List.take_append_drop] at this
  have hst : (steps (bndArr l n n)).Perm (steps l) := by
    rw [bnd_steps l n n hc.2 hn hn, steps_split l n hn]
    exact List.perm_append_comm
  have hlen : (bndArr l n n).length = l.length := by
    rw [bnd_length _ _ _ hn hn, bndSize, if_pos ((isClosed_iff l).2 hc.2)]; omega
  rcases hr with hr | hr
  · rw [hr]
    refine ⟨hsb, Or.inl hrot, ⟨v, by rw [bnd_head _ _ _ hn, hv], hmin⟩, hlen, Or.inl fun a b => net_perm hst a b⟩
  · rw [hr]
    refine ⟨?_, Or.inr ?_, ⟨v, by rw [List.head?_reverse, bnd_last _ _ _ hn hn, hv], hmin⟩, by rw [List.length_reverse, hlen], Or.inr fun a b => ?_⟩
    · rw [simple_iff (closed_reverse hcb), (same_reverse_core hcb).nodup_iff, List.nodup_reverse]
      exact hnd
    · exact (same_reverse_core hcb).trans ((hrot.reverse).trans (same_reverse_core hc).symm)
    · rw [net_reverse, net_perm hst]

end NgsAMG.Loop
