import Verif.Model.AMGMatrix
import Verif.Spec.Multigrid
import Verif.Spec.SmootherContract
import Verif.Props.Smoother

/-! C20, C21, C25: the multigrid operator computes the recursive cycles, whatever the work vectors contain. -/

namespace NgsAMG.AMG
open Sm Spec

variable {V : ℕ → Type*} [∀ l, AddCommGroup (V l)] [∀ l, Module ℝ (V l)]

/-- the solve on the coarsest level: the given inverse, or zero if there is none -/
def crsFun (m : Mat V) (l : ℕ) (b : V l) : V l :=
  if m.hasCrsInv then m.crsInv.elim 0 (fun f => f l b) else 0

/-- the hierarchy a multigrid matrix is built from -/
def hier (m : Mat V) (A : ∀ l, V l →ₗ[ℝ] V l) (f g : ∀ l, V l → V l → V l) : Hier V where
  A l := A l
  f := f
  g := g
  R l := m.R l
  P l := m.P l
  C := crsFun m

/-- every smoother meets the smoother contract for its level matrix -/
def SmOK (m : Mat V) (A : ∀ l, V l →ₗ[ℝ] V l) (f g : ∀ l, V l → V l → V l) : Prop :=
  ∀ l, l + 1 < m.n → Contract (A l) (m.F l) (f l) ∧ Contract (A l) (m.B l) (g l)

variable {m : Mat V} {A : ∀ l, V l →ₗ[ℝ] V l} {f g : ∀ l, V l → V l → V l}

/-- forward smoothing from zero with `res = b` -/
theorem F_zero (h : SmOK m A f g) {l : ℕ} (hl : l + 1 < m.n) (b : V l) :
    (m.F l 0 b b true true true).1 = f l 0 b ∧ (m.F l 0 b b true true true).2 = b - A l (f l 0 b) := by
  have := (h l hl).1 0 b b true true true ⟨by simp, by simp⟩
  exact ⟨this.1, this.2 rfl⟩

theorem B_any (h : SmOK m A f g) {l : ℕ} (hl : l + 1 < m.n) (x b r : V l) (ur : Bool) :
    (m.B l x b r false ur false).1 = g l x b ∧
      (ur = true → (m.B l x b r false ur false).2 = b - A l (g l x b)) :=
  (h l hl).2 x b r false ur false ⟨by simp, by simp⟩

/-! ### the part of a V-cycle below the start level -/

/-- pre-smoothing, coarse solve and post-smoothing for levels `l, …, l+k` -/
def inner (m : Mat V) (k l : ℕ) (w : Mem V) : Mem V :=
  (List.range' l k).reverse.foldl (postM m) (coarse m ((List.range' l k).foldl (preM m) w))

theorem inner_zero (w : Mem V) (l : ℕ) : inner m 0 l w = coarse m w := rfl

theorem inner_succ (w : Mem V) (k l : ℕ) : inner m (k + 1) l w = postM m (inner m k (l + 1) (preM m w l)) l := by
  simp [inner, List.range'_succ, List.foldl_append]

/-- agreement of work vectors on all levels below (finer than) `l` -/
def AgreeBelow (l : ℕ) (w w' : Mem V) : Prop :=
  ∀ j < l, w'.xl j = w.xl j ∧ w'.rhs j = w.rhs j ∧ w'.res j = w.res j

theorem inner_spec (h : SmOK m A f g) (k l : ℕ) (w : Mem V) (hk : l + k + 1 = m.n) :
    (inner m k l w).xl l = vcycle (hier m A f g) k l (w.rhs l) ∧ AgreeBelow l w (inner m k l w) ∧
      (inner m k l w).rhs l = w.rhs l := by
  induction k generalizing l w with
  | zero =>
    have hl : m.n - 1 = l := by omega
    rw [inner_zero]
    subst hl
    refine ⟨?_, ?_, rfl⟩
    · simp [coarse, vcycle, hier, crsFun]
    · intro j hj
      refine ⟨?_, rfl, rfl⟩
      simp only [coarse]
      rw [Function.update_of_ne (by omega)]
  | succ k ih =>
    have hl : l + 1 < m.n := by omega
    rw [inner_succ]
    set w1 := preM m w l with hw1
    obtain ⟨ih1, ih2, ih3⟩ := ih (l + 1) w1 (by omega)
    set w2 := inner m k (l + 1) w1 with hw2
    have hF := F_zero h hl (w.rhs l)
    have x1 : w1.xl l = f l 0 (w.rhs l) := by simp [hw1, preM, hF.1]
    have r1 : w1.rhs (l + 1) = m.R l (w.rhs l - A l (f l 0 (w.rhs l))) := by simp [hw1, preM, hF.2]
    have b1 : w1.rhs l = w.rhs l := by
      simp only [hw1, preM]; rw [Function.update_of_ne (by omega)]
    have a2 := ih2 l (by omega)
    have hB := B_any h hl (w2.xl l + m.P l (w2.xl (l + 1))) (w2.rhs l) (w2.res l) false
    refine ⟨?_, ?_, ?_⟩
    · have : (postM m w2 l).xl l = g l (w2.xl l + m.P l (w2.xl (l + 1))) (w2.rhs l) := by
        simp [postM, hB.1]
      rw [this, a2.1, a2.2.1, ih1, x1, r1, b1]
      rfl
    · intro j hj
      have hj1 := ih2 j (by omega)
      have hne : j ≠ l := by omega
      refine ⟨?_, ?_, ?_⟩
      · simp only [postM]
        rw [Function.update_of_ne hne, hj1.1]
        simp only [hw1, preM]; rw [Function.update_of_ne hne]
      · simp only [postM]
        rw [hj1.2.1]
        simp only [hw1, preM]; rw [Function.update_of_ne (by omega)]
      · simp only [postM]
        rw [Function.update_of_ne hne, hj1.2.2]
        simp only [hw1, preM]; rw [Function.update_of_ne hne]
    · simp only [postM]; rw [a2.2.1, b1]

theorem range'_if (sl n : ℕ) (w : Mem V) (F : Mem V → ℕ → Mem V) :
    (if sl + 2 < n then (List.range' (sl + 1) (n - 1 - (sl + 1))).foldl F w else w) =
      (List.range' (sl + 1) (n - 1 - (sl + 1))).foldl F w := by
  split_ifs with h
  · rfl
  · have : n - 1 - (sl + 1) = 0 := by omega
    rw [this]; rfl

theorem range'_if_rev (sl n : ℕ) (w : Mem V) (F : Mem V → ℕ → Mem V) :
    (if sl + 2 < n then (List.range' (sl + 1) (n - 1 - (sl + 1))).reverse.foldl F w else w) =
      (List.range' (sl + 1) (n - 1 - (sl + 1))).reverse.foldl F w := by
  split_ifs with h
  · rfl
  · have : n - 1 - (sl + 1) = 0 := by omega
    rw [this]; rfl

/-- **C21 (V-cycle from a level, from any start vector).** For truthful flags, `SmoothVFromLevel` computes the recursive
V-cycle, returns the residual if asked, does not depend on the work vectors, and does not touch work vectors of the
start level and finer ones. -/
theorem smoothVFrom_correct (h : SmOK m A f g) (w : Mem V) (sl : ℕ) (hsl : sl + 1 < m.n) (x b res : V sl)
    (ru ur xz : Bool) (ht : FlagsTruthful (A sl) x b res ru xz) :
    ∃ w' r', smoothVFrom m w sl x b res ru ur xz =
        some (w', vcycleFrom (hier m A f g) (m.n - 2 - sl) sl x b, r') ∧
      (ur = true → r' = b - A sl (vcycleFrom (hier m A f g) (m.n - 2 - sl) sl x b)) ∧
      AgreeBelow (sl + 1) w w' := by
  have hF := (h sl hsl).1 x b res ru true xz ht
  unfold smoothVFrom
  rw [if_pos hsl]
  simp only [range'_if, range'_if_rev]
  set w1 : Mem V := { w with rhs := Function.update w.rhs (sl + 1) (m.R sl (m.F sl x b res ru true xz).2) } with hw1
  have hin := inner_spec h (m.n - 1 - (sl + 1)) (sl + 1) w1 (by omega)
  have hk : m.n - 1 - (sl + 1) = m.n - 2 - sl := by omega
  have hfold : (List.range' (sl + 1) (m.n - 1 - (sl + 1))).reverse.foldl (postM m)
      (coarse m ((List.range' (sl + 1) (m.n - 1 - (sl + 1))).foldl (preM m) w1)) =
      inner m (m.n - 1 - (sl + 1)) (sl + 1) w1 := rfl
  rw [hfold]
  set w2 := inner m (m.n - 1 - (sl + 1)) (sl + 1) w1 with hw2
  have hB := B_any h hsl ((m.F sl x b res ru true xz).1 + m.P sl (w2.xl (sl + 1))) b
    (m.F sl x b res ru true xz).2 ur
  have hx : g sl ((m.F sl x b res ru true xz).1 + m.P sl (w2.xl (sl + 1))) b =
      vcycleFrom (hier m A f g) (m.n - 2 - sl) sl x b := by
    rw [hin.1, hk]
    have : w1.rhs (sl + 1) = m.R sl (b - A sl (f sl x b)) := by simp [hw1, hF.2]
    rw [this, hF.1]; rfl
  refine ⟨w2, (m.B sl ((m.F sl x b res ru true xz).1 + m.P sl (w2.xl (sl + 1))) b
    (m.F sl x b res ru true xz).2 false ur false).2, ?_, ?_, ?_⟩
  · rw [← hx, hB.1]
  · intro hu; rw [← hx]; exact hB.2 hu
  · intro j hj
    have hj1 := hin.2.1 j (by omega)
    refine ⟨hj1.1, ?_, hj1.2.2⟩
    rw [hj1.2.1]
    simp only [hw1]; rw [Function.update_of_ne (by omega)]

/-! ### `SmoothV` -/

theorem pre_succ (b : V 0) (s : St V) (l : ℕ) : pre m b s (l + 1) = { s with mem := preM m s.mem (l + 1) } := rfl
theorem post_succ (b : V 0) (s : St V) (l : ℕ) : post m b s (l + 1) = { s with mem := postM m s.mem (l + 1) } := rfl

theorem foldl_pre (b : V 0) (L : List ℕ) (hL : ∀ l ∈ L, 1 ≤ l) (s : St V) :
    L.foldl (pre m b) s = { s with mem := L.foldl (preM m) s.mem } := by
  induction L generalizing s with
  | nil => rfl
  | cons l L ih =>
    obtain ⟨l', rfl⟩ : ∃ l', l = l' + 1 := ⟨l - 1, by have := hL l List.mem_cons_self; omega⟩
    rw [List.foldl_cons, List.foldl_cons, pre_succ, ih (fun j hj => hL j (List.mem_cons_of_mem _ hj))]

theorem foldl_post (b : V 0) (L : List ℕ) (hL : ∀ l ∈ L, 1 ≤ l) (s : St V) :
    L.foldl (post m b) s = { s with mem := L.foldl (postM m) s.mem } := by
  induction L generalizing s with
  | nil => rfl
  | cons l L ih =>
    obtain ⟨l', rfl⟩ : ∃ l', l = l' + 1 := ⟨l - 1, by have := hL l List.mem_cons_self; omega⟩
    rw [List.foldl_cons, List.foldl_cons, post_succ, ih (fun j hj => hL j (List.mem_cons_of_mem _ hj))]

theorem smoothV_unfold (n' : ℕ) (hn : m.n = n' + 2) (b : V 0) (s : St V) :
    smoothV m b s = post m b { pre m b s 0 with mem := inner m n' 1 (pre m b s 0).mem } 0 := by
  unfold smoothV
  have hr : List.range (m.n - 1) = 0 :: List.range' 1 n' := by
    rw [List.range_eq_range', show m.n - 1 = n' + 1 by omega, List.range'_succ]
  have hL : ∀ l ∈ List.range' 1 n', 1 ≤ l := by intro l hl; rw [List.mem_range'_1] at hl; omega
  rw [hr, List.foldl_cons, List.reverse_cons, List.foldl_append, foldl_pre b _ hL,
    foldl_post b _ (fun l hl => hL l (List.mem_reverse.1 hl))]
  rfl

/-- **C21 (V-cycle).** With at least two levels, `SmoothV` computes the recursive V-cycle, for any previous content of
the output vector and the work vectors. -/
theorem smoothV_correct (h : SmOK m A f g) (hn : 2 ≤ m.n) (b : V 0) (s : St V) :
    (smoothV m b s).xu = vcycle (hier m A f g) (m.n - 1) 0 b := by
  obtain ⟨n', hn'⟩ : ∃ n', m.n = n' + 2 := ⟨m.n - 2, by omega⟩
  rw [smoothV_unfold n' hn']
  have hl : 0 + 1 < m.n := by omega
  have hF := F_zero h hl b
  have hin := inner_spec h n' 1 (pre m b s 0).mem (by omega)
  set w := inner m n' 1 (pre m b s 0).mem with hw
  have hB := B_any h hl ((pre m b s 0).xu + m.P 0 (w.xl 1)) b (w.res 0) false
  have : (post m b { pre m b s 0 with mem := w } 0).xu = g 0 ((pre m b s 0).xu + m.P 0 (w.xl 1)) b := hB.1
  rw [this, hin.1]
  have e1 : (pre m b s 0).xu = f 0 0 b := hF.1
  have e2 : (pre m b s 0).mem.rhs 1 = m.R 0 (b - A 0 (f 0 0 b)) := by
    simp [pre, putRhs, putRes, putX, getB, hF.2]
  rw [e1, e2, hn']
  rfl

/-! ### `SmoothW` -/

/-- a state transformer that solves on level `l` with operator `M`, leaving everything on finer levels alone -/
def Solves (b : V 0) (l : ℕ) (M : V l → V l) (T : St V → St V) : Prop :=
  ∀ s, getX (T s) l = M (getB s b l) ∧ getB (T s) b l = getB s b l ∧
    ∀ j < l, getX (T s) j = getX s j ∧ getB (T s) b j = getB s b j

theorem getX_putX (s : St V) (l : ℕ) (v : V l) : getX (putX s l v) l = v := by
  cases l <;> simp [getX, putX]
theorem getX_putX_ne (s : St V) (l j : ℕ) (v : V l) (h : j ≠ l) : getX (putX s l v) j = getX s j := by
  cases l <;> cases j <;> simp_all [getX, putX]
@[simp] theorem getX_putRes (s : St V) (l j : ℕ) (v : V l) : getX (putRes s l v) j = getX s j := by
  cases j <;> rfl
@[simp] theorem getX_putRhs (s : St V) (l j : ℕ) (v : V l) : getX (putRhs s l v) j = getX s j := by
  cases j <;> rfl
@[simp] theorem getB_putX (s : St V) (b : V 0) (l j : ℕ) (v : V l) : getB (putX s l v) b j = getB s b j := by
  cases l <;> cases j <;> rfl
@[simp] theorem getB_putRes (s : St V) (b : V 0) (l j : ℕ) (v : V l) : getB (putRes s l v) b j = getB s b j := by
  cases j <;> rfl
theorem getB_putRhs (s : St V) (b : V 0) (l : ℕ) (v : V (l + 1)) : getB (putRhs s (l + 1) v) b (l + 1) = v := by
  simp [getB, putRhs]
theorem getB_putRhs_ne (s : St V) (b : V 0) (l j : ℕ) (v : V l) (h : j ≠ l) :
    getB (putRhs s l v) b j = getB s b j := by
  cases j with
  | zero => rfl
  | succ j => simp only [getB, putRhs]; rw [Function.update_of_ne h]
@[simp] theorem res_putRes (s : St V) (l : ℕ) (v : V l) : (putRes s l v).mem.res l = v := by simp [putRes]
@[simp] theorem xl_succ (s : St V) (l : ℕ) : s.mem.xl (l + 1) = getX s (l + 1) := rfl

/-- half a W-cycle is one smoothing / coarse grid correction / smoothing step -/
theorem wHalf_spec (h : SmOK m A f g) {l : ℕ} (hl : l + 1 < m.n) (b : V 0) (M : V (l + 1) → V (l + 1))
    (rec : St V → St V) (hrec : Solves b (l + 1) M rec) (s : St V) (x0 r0 : V l) (zero urB : Bool)
    (ht : FlagsTruthful (A l) x0 (getB s b l) r0 true zero) :
    let bl := getB s b l
    let y := f l x0 bl
    let xn := g l (y + m.P l (M (m.R l (bl - A l y)))) bl
    let s' := wHalf m b rec l x0 r0 zero urB s
    getX s' l = xn ∧ getB s' b l = bl ∧ (urB = true → s'.mem.res l = bl - A l xn) ∧
      ∀ j < l, getX s' j = getX s j ∧ getB s' b j = getB s b j := by
  intro bl y xn s'
  have hF := (h l hl).1 x0 bl r0 true true zero ht
  -- state before the recursive call
  set t := m.F l x0 bl r0 true true zero with htt
  set s1 := putRes (putX s l t.1) l t.2 with hs1
  set s2 := putRhs s1 (l + 1) (m.R l (s1.mem.res l)) with hs2
  have hR := hrec s2
  set s3 := rec s2 with hs3
  have x3 : getX s3 l = y := by
    rw [(hR.2.2 l (by omega)).1, hs2, getX_putRhs, hs1, getX_putRes, getX_putX, hF.1]
  have b3 : getB s3 b l = bl := by
    rw [(hR.2.2 l (by omega)).2, hs2, getB_putRhs_ne _ _ _ _ _ (by omega), hs1, getB_putRes, getB_putX]
  have c3 : getX s3 (l + 1) = M (m.R l (bl - A l y)) := by
    rw [hR.1, hs2, getB_putRhs, hs1, res_putRes, hF.2 rfl]
  have hB := B_any h hl (getX s3 l + m.P l (s3.mem.xl (l + 1))) (getB s3 b l) (s3.mem.res l) urB
  have hs' : s' = putRes (putX s3 l (m.B l (getX s3 l + m.P l (s3.mem.xl (l + 1))) (getB s3 b l) (s3.mem.res l)
      false urB false).1) l (m.B l (getX s3 l + m.P l (s3.mem.xl (l + 1))) (getB s3 b l) (s3.mem.res l)
      false urB false).2 := rfl
  have hxn : g l (getX s3 l + m.P l (s3.mem.xl (l + 1))) (getB s3 b l) = xn := by
    rw [xl_succ, x3, b3, c3]
  refine ⟨?_, ?_, ?_, ?_⟩
  · rw [hs', getX_putRes, getX_putX, hB.1, hxn]
  · rw [hs', getB_putRes, getB_putX, b3]
  · intro hu
    rw [hs', res_putRes, hB.2 hu, hxn, b3]
  · intro j hj
    have hj1 := hR.2.2 j (by omega)
    constructor
    · rw [hs', getX_putRes, getX_putX_ne _ _ _ _ (by omega), hj1.1, hs2, getX_putRhs, hs1, getX_putRes,
        getX_putX_ne _ _ _ _ (by omega)]
    · rw [hs', getB_putRes, getB_putX, hj1.2, hs2, getB_putRhs_ne _ _ _ _ _ (by omega), hs1, getB_putRes, getB_putX]

theorem coarse_solves (b : V 0) (l : ℕ) (hl : l + 1 = m.n) (h1 : 1 ≤ l) :
    Solves b l (crsFun m l) (fun s : St V => { s with mem := coarse m s.mem }) := by
  obtain ⟨l', rfl⟩ : ∃ l', l = l' + 1 := ⟨l - 1, by omega⟩
  have hn : m.n - 1 = l' + 1 := by omega
  intro s
  have hx : (coarse m s.mem).xl (l' + 1) = crsFun m (l' + 1) (s.mem.rhs (l' + 1)) := by
    unfold coarse
    rw [hn]; simp [crsFun]
  refine ⟨hx, rfl, fun j hj => ⟨?_, ?_⟩⟩
  · cases j with
    | zero => rfl
    | succ j =>
      change (coarse m s.mem).xl (j + 1) = s.mem.xl (j + 1)
      simp only [coarse]; rw [Function.update_of_ne (by omega)]
  · cases j <;> rfl

theorem smit_solves (h : SmOK m A f g) (b : V 0) (k l : ℕ) (hk : l + k + 1 = m.n) (h1 : 1 ≤ l ∨ 1 ≤ k) :
    Solves b l (wcycle (hier m A f g) k l) (smit m b k l) := by
  induction k generalizing l with
  | zero => exact coarse_solves b l (by omega) (by omega)
  | succ k ih =>
    have hl : l + 1 < m.n := by omega
    have ihl := ih (l + 1) (by omega) (Or.inl (by omega))
    -- the second block
    have main : Solves b l (wcycle (hier m A f g) (k + 1) l) (fun s =>
        let s := wHalf m b (smit m b k (l + 1)) l 0 (getB s b l) true true s
        wHalf m b (smit m b k (l + 1)) l (getX s l) (s.mem.res l) false false s) := by
      intro s
      have w1 := wHalf_spec h hl b _ _ ihl s 0 (getB s b l) true true ⟨by simp, by simp⟩
      set s1 := wHalf m b (smit m b k (l + 1)) l 0 (getB s b l) true true s with hs1
      have w2 := wHalf_spec h hl b _ _ ihl s1 (getX s1 l) (s1.mem.res l) false false
        ⟨fun _ => by rw [w1.2.2.1 rfl, w1.2.1, w1.1], by simp⟩
      refine ⟨?_, ?_, ?_⟩
      · change getX (wHalf m b _ l (getX s1 l) (s1.mem.res l) false false s1) l = _
        rw [w2.1, w1.2.1, w1.1]; rfl
      · change getB (wHalf m b _ l (getX s1 l) (s1.mem.res l) false false s1) b l = _
        rw [w2.2.1, w1.2.1]
      · intro j hj
        have a := w2.2.2.2 j hj
        have c := w1.2.2.2 j hj
        exact ⟨a.1.trans c.1, a.2.trans c.2⟩
    -- the first block on level 0 only changes vectors that are overwritten
    intro s
    by_cases h0 : l = 0
    · have w0 := wHalf_spec h hl b _ _ ihl s 0 (getB s b l) true false ⟨by simp, by simp⟩
      have hm := main (wHalf m b (smit m b k (l + 1)) l 0 (getB s b l) true false s)
      have hs : smit m b (k + 1) l s = (fun s =>
          let s := wHalf m b (smit m b k (l + 1)) l 0 (getB s b l) true true s
          wHalf m b (smit m b k (l + 1)) l (getX s l) (s.mem.res l) false false s)
          (wHalf m b (smit m b k (l + 1)) l 0 (getB s b l) true false s) := by
        simp only [smit, h0, if_true]
      rw [hs]
      refine ⟨?_, ?_, fun j hj => by omega⟩
      · rw [hm.1, w0.2.1]
      · rw [hm.2.1, w0.2.1]
    · have hs : smit m b (k + 1) l s = (fun s =>
          let s := wHalf m b (smit m b k (l + 1)) l 0 (getB s b l) true true s
          wHalf m b (smit m b k (l + 1)) l (getX s l) (s.mem.res l) false false s) s := by
        simp only [smit, h0, if_false]
      rw [hs]
      exact main s

/-- **C21 (W-cycle).** With at least two levels, `SmoothW` computes the recursive W-cycle. -/
theorem smoothW_correct (h : SmOK m A f g) (hn : 2 ≤ m.n) (b : V 0) (s : St V) :
    (smoothW m b s).map St.xu = some (wcycle (hier m A f g) (m.n - 1) 0 b) := by
  unfold smoothW
  rw [if_neg (by omega)]
  have := (smit_solves h b (m.n - 1) 0 (by omega) (Or.inr (by omega)) s).1
  simp only [Option.map_some]
  exact congrArg some this

/-! ### `SmoothBS` -/

/-- pre-smoothing, coarse solve, post-smoothing of `SmoothBS` on levels `l, …, l+k` -/
def runBS (m : Mat V) (b : V 0) (k l : ℕ) (s : St V) : Option (St V) := do
  let s1 ← (List.range' l k).foldlM (preBS m b) s
  let s2 : St V := { s1 with mem := coarse m s1.mem }
  (List.range' l k).reverse.foldlM (postBS m b) s2

theorem runBS_succ (b : V 0) (k l : ℕ) (s : St V) :
    runBS m b (k + 1) l s = (do
      let s1 ← preBS m b s l
      let s2 ← runBS m b k (l + 1) s1
      postBS m b s2 l) := by
  simp only [runBS, List.range'_succ, List.reverse_cons, List.foldlM_append, List.foldlM_cons, List.foldlM_nil]
  simp only [Option.bind_eq_bind, Option.bind_assoc, pure, Option.bind_some]
  simp

theorem getX_mem (s : St V) (w : Mem V) (l : ℕ) (hw : AgreeBelow (l + 1) s.mem w) :
    getX { s with mem := w } l = getX s l := by
  cases l with
  | zero => rfl
  | succ l => exact (hw (l + 1) (by omega)).1

theorem getB_mem (s : St V) (w : Mem V) (b : V 0) (l : ℕ) (hw : AgreeBelow (l + 1) s.mem w) :
    getB { s with mem := w } b l = getB s b l := by
  cases l with
  | zero => rfl
  | succ l => exact (hw (l + 1) (by omega)).2.1

theorem AgreeBelow.mono {l l' : ℕ} (h : l' ≤ l) {w w' : Mem V} (hw : AgreeBelow l w w') : AgreeBelow l' w w' :=
  fun j hj => hw j (by omega)

theorem runBS_spec (h : SmOK m A f g) (b : V 0) (k l : ℕ) (s : St V) (hk : l + k + 1 = m.n) (h1 : 1 ≤ l ∨ 1 ≤ k) :
    ∃ s', runBS m b k l s = some s' ∧ getX s' l = bscycle (hier m A f g) k l (getB s b l) ∧
      getB s' b l = getB s b l ∧ ∀ j < l, getX s' j = getX s j ∧ getB s' b j = getB s b j := by
  induction k generalizing l s with
  | zero =>
    have := coarse_solves (m := m) b l (by omega) (by omega) s
    exact ⟨_, rfl, this.1, this.2.1, this.2.2⟩
  | succ k ih =>
    have hl : l + 1 < m.n := by omega
    have hkk : m.n - 2 - l = k := by omega
    rw [runBS_succ]
    obtain ⟨w1, r1, e1, hr1, ha1⟩ := smoothVFrom_correct h s.mem l hl 0 (getB s b l) (getB s b l) true true true
      ⟨by simp, by simp⟩
    rw [hkk] at e1 hr1
    set x1 := vcycleFrom (hier m A f g) k l 0 (getB s b l) with hx1
    set s0 := putRes (putX { s with mem := w1 } l x1) l r1 with hs0
    set s1 := putRhs s0 (l + 1) (m.R l (s0.mem.res l)) with hs1
    have hpre : preBS m b s l = some s1 := by
      simp only [preBS, e1, Option.map_some]; rfl
    obtain ⟨s2, e2, hx2, hb2, hf2⟩ := ih (l + 1) s1 (by omega) (Or.inl (by omega))
    have gx : getX s2 l = x1 := by
      rw [(hf2 l (by omega)).1, hs1, getX_putRhs, hs0, getX_putRes, getX_putX]
    have gb : getB s2 b l = getB s b l := by
      rw [(hf2 l (by omega)).2, hs1, getB_putRhs_ne _ _ _ _ _ (by omega), hs0, getB_putRes, getB_putX,
        getB_mem _ _ _ _ ha1]
    have gc : getX s2 (l + 1) = bscycle (hier m A f g) k (l + 1) (m.R l (getB s b l - A l x1)) := by
      rw [hx2, hs1, getB_putRhs, hs0, res_putRes, hr1 rfl]
    obtain ⟨w3, r3, e3, -, ha3⟩ := smoothVFrom_correct h s2.mem l hl (getX s2 l + m.P l (s2.mem.xl (l + 1)))
      (getB s2 b l) (s2.mem.res l) false false false ⟨by simp, by simp⟩
    rw [hkk] at e3
    set x3 := vcycleFrom (hier m A f g) k l (getX s2 l + m.P l (s2.mem.xl (l + 1))) (getB s2 b l) with hx3
    have hpost : postBS m b s2 l = some (putRes (putX { s2 with mem := w3 } l x3) l r3) := by
      simp only [postBS, e3, Option.map_some]
    refine ⟨putRes (putX { s2 with mem := w3 } l x3) l r3, ?_, ?_, ?_, ?_⟩
    · rw [hpre]
      change (runBS m b k (l + 1) s1).bind _ = _
      rw [e2]; exact hpost
    · rw [getX_putRes, getX_putX, hx3, xl_succ, gx, gc, gb]; rfl
    · rw [getB_putRes, getB_putX, getB_mem _ _ _ _ ha3, gb]
    · intro j hj
      have hj2 := hf2 j (by omega)
      constructor
      · rw [getX_putRes, getX_putX_ne _ _ _ _ (by omega), getX_mem _ _ _ (ha3.mono (by omega)), hj2.1, hs1,
          getX_putRhs, hs0, getX_putRes, getX_putX_ne _ _ _ _ (by omega), getX_mem _ _ _ (ha1.mono (by omega))]
      · rw [getB_putRes, getB_putX, getB_mem _ _ _ _ (ha3.mono (by omega)), hj2.2, hs1,
          getB_putRhs_ne _ _ _ _ _ (by omega), hs0, getB_putRes, getB_putX, getB_mem _ _ _ _ (ha1.mono (by omega))]

/-- **C21 (BS-cycle).** -/
theorem smoothBS_correct (h : SmOK m A f g) (hn : 2 ≤ m.n) (b : V 0) (s : St V) :
    (smoothBS m b s).map St.xu = some (bscycle (hier m A f g) (m.n - 1) 0 b) := by
  have : smoothBS m b s = runBS m b (m.n - 1) 0 s := by
    simp only [smoothBS, runBS, List.range_eq_range']
  rw [this]
  obtain ⟨s', e, hx, -, -⟩ := runBS_spec h b (m.n - 1) 0 s (by omega) (Or.inr (by omega))
  rw [e]
  exact congrArg some hx

/-! ### the operator -/

/-- the cycle selected with `vwb` -/
def cycleOf (hh : Hier V) (n : ℕ) (vwb : ℤ) (b : V 0) : V 0 :=
  if vwb = 0 then vcycle hh (n - 1) 0 b else if vwb = 1 then wcycle hh (n - 1) 0 b else bscycle hh (n - 1) 0 b

theorem smooth_xu (h : SmOK m A f g) (hn : 2 ≤ m.n) (vwb : ℤ) (hv : vwb = 0 ∨ vwb = 1 ∨ vwb = 2) (b : V 0)
    (s : St V) : (smooth m vwb b s).map St.xu = some (cycleOf (hier m A f g) m.n vwb b) := by
  unfold smooth cycleOf
  rcases hv with rfl | rfl | rfl
  · simp [smoothV_correct h hn]
  · simpa using smoothW_correct h hn b s
  · simpa using smoothBS_correct h hn b s

/-- **C20/C25 (Mult, MultTrans).** With at least two levels, `Mult` overwrites the output with the recursive cycle applied
to the right hand side. The result depends neither on the output vector nor on the work vectors, i.e. not on any
earlier application. -/
theorem mult_correct (h : SmOK m A f g) (hn : 2 ≤ m.n) (vwb : ℤ) (hv : vwb = 0 ∨ vwb = 1 ∨ vwb = 2)
    (w : Mem V) (b x : V 0) :
    (mult m vwb w b x).map Prod.fst = some (cycleOf (hier m A f g) m.n vwb b) := by
  have := smooth_xu h hn vwb hv b ⟨x, w⟩
  unfold mult
  rw [Option.map_map]
  exact this

/-- **C20 (histories).** After any sequence of `Mult`/`MultAdd` calls the next application gives the same result as on
a freshly constructed object. -/
theorem mult_history (h : SmOK m A f g) (hn : 2 ≤ m.n) (vwb : ℤ) (hv : vwb = 0 ∨ vwb = 1 ∨ vwb = 2)
    (w w' : Mem V) (b x x' : V 0) :
    (mult m vwb w b x).map Prod.fst = (mult m vwb w' b x').map Prod.fst := by
  rw [mult_correct h hn vwb hv, mult_correct h hn vwb hv]

/-- **C25 (MultAdd, MultTransAdd).** `MultAdd` adds `s` times the cycle result. -/
theorem multAdd_correct (h : SmOK m A f g) (hn : 2 ≤ m.n) (vwb : ℤ) (hv : vwb = 0 ∨ vwb = 1 ∨ vwb = 2)
    (w : Mem V) (s : ℝ) (b x : V 0) :
    (multAdd m vwb w s b x).map Prod.fst = some (x + s • cycleOf (hier m A f g) m.n vwb b) := by
  have := smooth_xu h hn vwb hv b ⟨w.xl 0, w⟩
  unfold multAdd
  rw [Option.map_map]
  rcases hs : smooth m vwb b ⟨w.xl 0, w⟩ with _ | t
  · simp [hs] at this
  · simp only [hs, Option.map_some, Option.some.injEq] at this
    simp only [Option.map_some, Function.comp]
    rw [if_neg (by omega), this]

/-- **C20/C21 fail for one level.** On a hierarchy with a single level the V-cycle neither reads the right hand side nor
writes the output: `Mult` leaves `x` as it was. -/
theorem mult_one_level_wrong (hn : m.n = 1) (w : Mem V) (b x : V 0) :
    (mult m 0 w b x).map Prod.fst = some x := by
  simp [mult, smooth, smoothV, hn]

/-- and `MultAdd` adds the coarse solution for a stale right hand side (the content of a work vector) instead of `b` -/
theorem multAdd_one_level_wrong (hn : m.n = 1) (w : Mem V) (s : ℝ) (b x : V 0) :
    (multAdd m 0 w s b x).map Prod.fst = some (x + s • crsFun m 0 (w.rhs 0)) := by
  have h0 : (coarse m w).xl 0 = crsFun m 0 (w.rhs 0) := by
    unfold coarse
    have : m.n - 1 = 0 := by omega
    rw [this]; simp [crsFun]
  simp [multAdd, smooth, smoothV, hn, h0]

/-- W-cycle and single level: memory access behind the end of the level arrays -/
theorem mult_one_level_W_ub (hn : m.n = 1) (w : Mem V) (b x : V 0) : mult m 1 w b x = none := by
  simp [mult, smooth, smoothW, hn]

end NgsAMG.AMG
