import Verif.Props.LoopTab2
import Verif.Props.Loops5
import Mathlib.Data.List.Perm.Basic

/-!
# C99: the coarse loops the processes compute
-/

namespace NgsAMG.LTab
open NgsAMG.Spec NgsAMG.Exch NgsAMG.Loop
variable {N V : Type} [DecidableEq N] [LinearOrder V]

/-- all coarse edges of the fine loop `n`, from the processes that have it in the order of their ranks; `tup p n`: those of process `p` -/
def fineData (np : ℕ) (names : ℕ → List N) (tup : ℕ → N → List (V × V)) (n : N) : List (V × V) := (owners np names n).flatMap fun q => tup q n

/-- the names of the coarse loops on process `p`: (fine loop, number) -/
def coarseNames (names : ℕ → List N) (cl : N → List (List V)) (p : ℕ) : List (N × ℕ) := (names p).flatMap fun n => (List.range (cl n).length).map fun i => (n, i)

/-- the coarse loop with a name -/
def coarseLoop (cl : N → List (List V)) (c : N × ℕ) : List V := (cl c.1).getD c.2 []

omit [LinearOrder V] in
theorem perm_owners {np : ℕ} {names : ℕ → List N} {p : ℕ} (hp : p < np) {n : N} (hn : n ∈ names p) : (others np names p n ++ [p]).Perm (owners np names n) := by
  rw [List.perm_ext_iff_of_nodup]
  · intro q
    rw [List.mem_append, mem_others, mem_owners, List.mem_singleton]
    constructor
    · rintro (⟨h, -⟩ | rfl)
      · exact h
      · exact ⟨hp, hn⟩
    · intro h
      by_cases hq : q = p
      · exact Or.inr hq
      · exact Or.inl ⟨h, hq⟩
  · rw [List.nodup_append]
    refine ⟨others_nodup np names p n, by simp, ?_⟩
    intro a ha b hb e
    rw [List.mem_singleton] at hb
    exact (mem_others.1 ha).2 (e.trans hb)
  · exact List.nodup_range.filter _

omit [LinearOrder V] in
theorem chunks_eq {np : ℕ} {names : ℕ → List N} (tup : ℕ → N → List (V × V)) {p : ℕ} (hp : p < np) {n : N} (hn : n ∈ names p) :
    chunks p (tup p n) ((others np names p n).map fun q => (q, tup q n)) = (owners np names n).map fun q => (q, tup q n) := by
  have hperm : (chunks p (tup p n) ((others np names p n).map fun q => (q, tup q n))).Perm ((owners np names n).map fun q => (q, tup q n)) := by
    refine (List.perm_insertionSort _ _).trans ?_
    have := (perm_owners hp hn).map fun q => (q, tup q n)
    simpa using this
  haveI : IsTotal (ℕ × List (V × V)) (fun a b => a.1 ≤ b.1) := ⟨fun a b => Nat.le_total _ _⟩
  haveI : IsTrans (ℕ × List (V × V)) (fun a b => a.1 ≤ b.1) := ⟨fun a b c h1 h2 => Nat.le_trans h1 h2⟩
  refine List.Perm.eq_of_pairwise (le := fun a b : ℕ × List (V × V) => a.1 ≤ b.1) ?_ ?_ ?_ hperm
  · intro a b ha hb h1 h2
    have ha' := hperm.mem_iff.1 ha
    obtain ⟨q, -, rfl⟩ := List.mem_map.1 ha'
    obtain ⟨q', -, rfl⟩ := List.mem_map.1 hb
    have : q = q' := Nat.le_antisymm h1 h2
    rw [this]
  · exact List.pairwise_insertionSort _ _
  · rw [List.pairwise_map]
    exact (owners_sorted np names n).imp fun h => Nat.le_of_lt h

omit [LinearOrder V] in
theorem chunkData_eq {np : ℕ} {names : ℕ → List N} (tup : ℕ → N → List (V × V)) {p : ℕ} (hp : p < np) {n : N} (hn : n ∈ names p) :
    chunkData p (tup p n) ((others np names p n).map fun q => (q, tup q n)) = fineData np names tup n := by
  rw [chunkData, chunks_eq tup hp hn, List.flatMap_map, fineData]

omit [DecidableEq N] in
theorem coarse_rows (g : N → List ℕ) (cl : N → List (List V)) (ns : List N) :
    (ns.map fun n => (cl n).map fun l => (g n, l)).flatten
      = (ns.flatMap fun n => (List.range (cl n).length).map fun i => (n, i)).map fun c => (g c.1, coarseLoop cl c) := by
  induction ns with
  | nil => rfl
  | cons n t ih =>
    rw [List.map_cons, List.flatten_cons, ih, List.flatMap_cons, List.map_append]
    congr 1
    rw [List.map_map]
    refine List.ext_getElem? fun i => ?_
    simp only [List.getElem?_map, Function.comp_def, coarseLoop]
    by_cases hi : i < (cl n).length
    · rw [List.getElem?_eq_getElem hi, List.getElem?_range hi]
      simp [List.getD_eq_getElem?_getD, List.getElem?_eq_getElem hi]
    · rw [List.getElem?_eq_none (by omega), List.getElem?_eq_none (by simpa using hi)]
      rfl

theorem mem_coarseNames {names : ℕ → List N} {cl : N → List (List V)} {p : ℕ} {c : N × ℕ} : c ∈ coarseNames names cl p ↔ c.1 ∈ names p ∧ c.2 < (cl c.1).length := by
  simp only [coarseNames, List.mem_flatMap, List.mem_map, List.mem_range]
  constructor
  · rintro ⟨n, hn, i, hi, rfl⟩
    exact ⟨hn, hi⟩
  · rintro ⟨h1, h2⟩
    exact ⟨c.1, h1, c.2, h2, rfl⟩

theorem others_coarse (np : ℕ) (names : ℕ → List N) (cl : N → List (List V)) (p : ℕ) (c : N × ℕ) (hc : c.2 < (cl c.1).length) :
    others np (coarseNames names cl) p c = others np names p c.1 := by
  simp only [others, owners, mem_coarseNames, hc, and_true]

theorem shared_coarse {np : ℕ} {names : ℕ → List N} {dps : ℕ → List (List ℕ)} (hS : Shared np names dps) (cl : N → List (List V)) :
    Shared np (coarseNames names cl) fun p => (coarseNames names cl p).map fun c => others np names p c.1 where
  nodup p hp := by
    rw [coarseNames, List.nodup_flatMap]
    refine ⟨fun n _ => List.nodup_range.map fun a b h => (Prod.mk.inj h).2, ?_⟩
    refine (hS.nodup p hp).imp ?_
    intro a b hab x hx hx'
    obtain ⟨i, -, rfl⟩ := List.mem_map.1 hx
    obtain ⟨j, -, hj⟩ := List.mem_map.1 hx'
    exact hab (Prod.mk.inj hj).1.symm
  dps p hp := by
    apply List.map_congr_left
    intro c hc
    exact (others_coarse np names cl p c (mem_coarseNames.1 hc).2).symm
  order p hp q hq := by
    have e : ∀ p q, (coarseNames names cl p).filter (fun c => decide (c ∈ coarseNames names cl q))
        = ((names p).filter fun n => decide (n ∈ names q)).flatMap fun n => (List.range (cl n).length).map fun i => (n, i) := by
      intro p q
      show ((names p).flatMap fun n => (List.range (cl n).length).map fun i => (n, i)).filter (fun c => decide (c ∈ coarseNames names cl q)) = _
      generalize names p = l
      induction l with
      | nil => rfl
      | cons n t ih =>
        rw [List.flatMap_cons, List.filter_append, ih]
        by_cases hn : n ∈ names q
        · rw [List.filter_cons_of_pos (by simpa using hn), List.flatMap_cons]
          congr 1
          rw [List.filter_eq_self]
          intro c hc
          obtain ⟨i, hi, rfl⟩ := List.mem_map.1 hc
          simpa [mem_coarseNames, hn] using hi
        · rw [List.filter_cons_of_neg (by simpa using hn)]
          have : (((List.range (cl n).length).map fun i => (n, i)).filter fun c => decide (c ∈ coarseNames names cl q)) = [] := by
            rw [List.filter_eq_nil_iff]
            intro c hc
            obtain ⟨i, hi, rfl⟩ := List.mem_map.1 hc
            simp [mem_coarseNames, hn]
          rw [this]
          rfl
    have h3 := (e p q).trans ((congrArg _ (hS.order p hp q hq)).trans (e q p).symm)
    convert h3

section
variable {np : ℕ} {names : ℕ → List N} {dps : ℕ → List (List ℕ)} (hS : Shared np names dps) (tup : ℕ → N → List (V × V))
  (v : ℕ → Loc V) (hv : ∀ p < np, (v p).fine = rowsOf np names tup p)

include hv in
theorem fineProcs_iff {p : ℕ} (hp : p < np) (q : ℕ) : (fineProcs (v p)).contains q = true ↔ ∃ n ∈ names p, q ∈ others np names p n := by
  rw [fineProcs, hv p hp]
  simp [rowsOf]

include hv in
theorem gather_matched {p : ℕ} (hp : p < np) : (∀ q < np, (fineProcs (v p)).contains q = (fineProcs (v q)).contains p) ∧
    ∀ q, (fineProcs (v p)).contains q → q < np ∧ q ≠ p := by
  constructor
  · intro q hq
    rw [Bool.eq_iff_iff, fineProcs_iff tup v hv hp, fineProcs_iff tup v hv hq]
    constructor
    · rintro ⟨n, hn, h⟩
      obtain ⟨⟨-, h2⟩, h3⟩ := mem_others.1 h
      exact ⟨n, h2, mem_others.2 ⟨⟨hp, hn⟩, h3.symm⟩⟩
    · rintro ⟨n, hn, h⟩
      obtain ⟨⟨-, h2⟩, h3⟩ := mem_others.1 h
      exact ⟨n, h2, mem_others.2 ⟨⟨hq, hn⟩, h3.symm⟩⟩
  · intro q h
    obtain ⟨n, -, h⟩ := (fineProcs_iff tup v hv hp q).1 h
    obtain ⟨⟨h1, -⟩, h3⟩ := mem_others.1 h
    exact ⟨h1, h3⟩

/-- `all_c_loops` and `all_c_loopers` of process `p` -/
def allTab (np : ℕ) (names : ℕ → List N) (cl : N → List (List V)) (p : ℕ) : List (List ℕ × List V) :=
  (coarseNames names cl p).map fun c => (others np names p c.1, coarseLoop cl c)

include hS hv in
theorem gather_run (conv : ℕ → List V → List ℤ) (cl : N → List (List V)) (hcl : ∀ n, itLoop (fineData np names tup n) = some (cl n)) {p : ℕ} (hp : p < np) :
    (drunPhase (gatherPhase conv) v p).init = some ((noDupRows [] (allTab np names cl p)).map fun r => (r.1, conv p r.2)) := by
  have hs : ∀ q < np, ∃ s, sendRows (fineProcs (v q)) encChunk (v q).fine = some s ∧
      ∀ r < np, r ≠ q → s r = ((names q).filter fun n => decide (n ∈ names r)).flatMap fun n => encChunk (tup q n) := by
    intro q hq
    rw [hv q hq]
    refine sent_eq tup encChunk _ q fun n hn r hr => ?_
    have := (fineProcs_iff tup v hv hq r).2 ⟨n, hn, hr⟩
    simpa using this
  obtain ⟨m, hm⟩ : ∃ m, m = fun q => if (fineProcs (v p)).contains q then ((sendRows (fineProcs (v q)) encChunk (v q).fine).getD fun _ => []) p else default := ⟨_, rfl⟩
  have hrecv : ∀ q < np, q ≠ p → m q = ((names p).filter fun n => decide (n ∈ names q)).flatMap fun n => encChunk (tup q n) := by
    intro q hq hqp
    rw [hm]
    simp only
    by_cases h : (fineProcs (v p)).contains q = true
    · obtain ⟨s, h1, h2⟩ := hs q hq
      rw [if_pos h, h1, Option.getD_some, h2 p hp hqp.symm, hS.order q hq p hp]
    · rw [if_neg h]
      have : ((names p).filter fun n => decide (n ∈ names q)) = [] := by
        rw [List.filter_eq_nil_iff]
        intro n hn hc
        exact h ((fineProcs_iff tup v hv hp q).2 ⟨n, hn, mem_others.2 ⟨⟨hq, by simpa using hc⟩, hqp⟩⟩)
      rw [this]
      rfl
  have hb := readRows_eq (np := np) (names := names) (val := tup) rdChunk_decodes p m hrecv
  have hex : drunPhase (gatherPhase conv) v p = gatherApply (conv p) p (v p) m := by
    rw [hm]; rfl
  have e1 : (rowsOf np names tup p).map Prod.fst = (names p).map (others np names p) := by simp [rowsOf]
  rw [hex, gatherApply, hv p hp, e1, hb]
  simp only [Option.bind_some]
  have ha : allRows p (rowsOf np names tup p) ((names p).map fun n => (others np names p n).map fun q => (q, tup q n)) = some (allTab np names cl p) := by
    have key : ∀ l : List N, (∀ n ∈ l, n ∈ names p) →
        ((l.map fun n => (others np names p n, tup p n)).zip (l.map fun n => (others np names p n).map fun q => (q, tup q n))).mapM
          (fun r => (itLoop (chunkData p r.1.2 r.2)).map fun ls => ls.map fun l => (r.1.1, l))
        = some (l.map fun n => (cl n).map fun x => (others np names p n, x)) := by
      intro l hl
      induction l with
      | nil => rfl
      | cons n t ih =>
        rw [List.map_cons, List.map_cons, List.zip_cons_cons, List.mapM_cons, ih fun n hn => hl n (by simp [hn])]
        simp only
        rw [chunkData_eq tup hp (hl n (by simp)), hcl n]
        rfl
    rw [allRows, rowsOf, key (names p) fun _ h => h, Option.map_some, coarse_rows (others np names p), allTab, coarseNames]
  rw [ha]
  rfl

end

/-- **C99**. PHASES I–III of the Stokes coarse map: let the tables of the fine loops be right. However the processes are scheduled, they all end; the
coarse loops which a process computes from a fine loop depend only on the fine loop (`cl n`: the loops of the edges which *all* processes have of it), so
all processes that share it compute the same ones, and the table `all_c_loops`/`all_c_loopers` from which the duplicates are then removed is right. -/
theorem gather_correct {np : ℕ} {names : ℕ → List N} (tup : ℕ → N → List (V × V)) (conv : ℕ → List V → List ℤ) (v : ℕ → Loc V)
    (hS : Shared np names fun p => (v p).fine.map Prod.fst) (ht : ∀ p < np, (v p).fine.map Prod.snd = (names p).map (tup p)) :
    ∃ cl : N → List (List V), (∀ n, itLoop (fineData np names tup n) = some (cl n)) ∧
    ∃ tab : ℕ → List (List ℕ × List V), Shared np (coarseNames names cl) (fun p => (tab p).map Prod.fst) ∧
      (∀ p < np, (tab p).map Prod.snd = (names p).flatMap cl) ∧
      AllEnd np [gatherPhase conv] v fun w => ∀ p < np, (w p).init = some ((noDupRows [] (tab p)).map fun r => (r.1, conv p r.2)) := by
  have hall : ∀ n, ∃ c, itLoop (fineData np names tup n) = some c := fun n => by
    obtain ⟨out, h⟩ := simpleLoops_ends (fineData np names tup n)
    exact ⟨_, by rw [itLoop, h]; rfl⟩
  choose cl hcl using hall
  have hv : ∀ p < np, (v p).fine = rowsOf np names tup p := fun p hp => rows_eq (hS.dps p hp) (ht p hp)
  refine ⟨cl, hcl, allTab np names cl, ?_, ?_, AllEnd.of_matched ?_ ?_⟩
  · have := shared_coarse hS cl
    have e : (fun p => (allTab np names cl p).map Prod.fst) = fun p => (coarseNames names cl p).map fun c => others np names p c.1 := by
      funext p
      simp [allTab]
    rw [e]
    exact this
  · intro p _
    have := congrArg (List.map Prod.snd) (coarse_rows (others np names p) cl (names p))
    rw [allTab, coarseNames, ← this, List.map_flatten, List.map_map, List.flatMap_def]
    congr 1
    apply List.map_congr_left
    intro n _
    simp
  · refine DMatched.cons (fun p hp => ?_) (DMatched.nil _ _)
    obtain ⟨h1, h2⟩ := gather_matched tup v hv hp
    exact ⟨h1, fun q h => (h2 q h).1, fun q h => (h2 q h).1⟩
  · intro w hw p hp
    rw [hw p hp]
    exact gather_run hS tup v hv conv cl hcl hp

end NgsAMG.LTab
