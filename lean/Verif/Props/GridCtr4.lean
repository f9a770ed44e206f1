import Verif.Props.GridCtr3

/-! # C88: the vertices of the contracted mesh, on one master -/

namespace NgsAMG.GCtr
open NgsAMG.EQC NgsAMG.BTM

variable {np : ℕ} {C : ℕ → Ctx}

theorem cutMin_spec (a b : List ℕ) (ha : SL a) (hb : SL b) :
    (∀ z, cutMin a b = some z → z ∈ a ∧ z ∈ b) ∧ ((∃ z, z ∈ a ∧ z ∈ b) → ∃ z, cutMin a b = some z) := by
  fun_induction cutMin a b with
  | case1 => simp
  | case2 => simp
  | case3 x as y bs h ih =>
    obtain ⟨h1, h2⟩ := ih (List.pairwise_cons.mp ha).2 hb
    refine ⟨fun z hz => ⟨List.mem_cons_of_mem _ (h1 z hz).1, (h1 z hz).2⟩, ?_⟩
    rintro ⟨z, hz, hz'⟩
    refine h2 ⟨z, ?_, hz'⟩
    rcases List.mem_cons.mp hz with rfl | hz
    · exfalso
      rcases List.mem_cons.mp hz' with rfl | hz'
      · exact lt_irrefl _ h
      · have := (List.pairwise_cons.mp hb).1 _ hz'; omega
    · exact hz
  | case4 x as y bs h h' ih =>
    obtain ⟨h1, h2⟩ := ih ha (List.pairwise_cons.mp hb).2
    refine ⟨fun z hz => ⟨(h1 z hz).1, List.mem_cons_of_mem _ (h1 z hz).2⟩, ?_⟩
    rintro ⟨z, hz, hz'⟩
    refine h2 ⟨z, hz, ?_⟩
    rcases List.mem_cons.mp hz' with rfl | hz'
    · exfalso
      rcases List.mem_cons.mp hz with rfl | hz
      · exact lt_irrefl _ h'
      · have := (List.pairwise_cons.mp ha).1 _ hz; omega
    · exact hz'
  | case5 x as y bs h h' =>
    have : x = y := by omega
    subst this
    exact ⟨fun z hz => by cases hz; exact ⟨List.mem_cons_self, List.mem_cons_self⟩, fun _ => ⟨x, rfl⟩⟩

/-! ### numbers of vertices -/

/-- the class of the contracted mesh for an identifier -/
def mcOf (R : CEqc) (x : ℕ) : ℕ := R.mc.getD (R.gids.idxOf x) 0

/-- the counters after the classes `sent` have been counted -/
structure Counted (R : CEqc) (cnt : ℕ → ℕ) (sent : List ℕ) (s : List ℕ × List ℕ) : Prop where
  l1 : s.1.length = R.tab.length
  l2 : s.2.length = R.mc.length
  v : ∀ c < R.tab.length, s.1[c]? = some ((sent.filter fun x => mcOf R x = c).map cnt).sum
  f : ∀ (m x : ℕ), R.gids[m]? = some x → s.2[m]? = some (if x ∈ sent then cnt x else 0)

theorem eVerts_eq {sOf : ℕ → Finset ℕ} {cnt : ℕ → ℕ} (hN : Names np C sOf cnt) {p j x : ℕ} (hp : p < np) (hx : (C p).ids[j]? = some x) :
    ∃ a, (C p).disp[j]? = some a ∧ (C p).disp[j + 1]? = some (a + cnt x) ∧ eVerts (C p) j = some (a, cnt x) := by
  obtain ⟨d, hd, -⟩ := hN.rowI p hp j x hx
  obtain ⟨y, a, h1, -, h2, h3⟩ := hN.row p hp j d hd
  rw [hx] at h1; cases h1
  refine ⟨a, h2, h3, ?_⟩
  unfold eVerts
  rw [h2, Option.bind_some, h3, Option.map_some]
  congr 2; omega

theorem count_step {groups : List (List ℕ)} {sOf : ℕ → Finset ℕ} {cnt : ℕ → ℕ} {gi : ℕ} {g : List ℕ} {R : CEqc} (hR : CEqcOK groups C sOf gi g R) {sent : List ℕ} {s : List ℕ × List ℕ}
    (hs : Counted R cnt sent s) {x : ℕ} (hx : x ∈ R.gids) (hc : mcOf R x < R.tab.length) :
    R.gids.idxOf x < s.2.length ∧ mcOf R x < s.1.length ∧ Counted R cnt (sent ++ [x]) (s.1.modify (mcOf R x) (· + cnt x), s.2.set (R.gids.idxOf x) (cnt x)) := by
  have hn : R.gids.Nodup := hR.gidsS.imp (fun h => Nat.ne_of_lt h)
  have hlt := List.idxOf_lt_length_of_mem hx
  refine ⟨by rw [hs.l2, hR.mcL]; exact hlt, by rw [hs.l1]; exact hc, ⟨by simpa using hs.l1, by simpa using hs.l2, ?_, ?_⟩⟩
  · intro c hcl
    rw [List.getElem?_modify, hs.v c hcl, List.filter_append, List.map_append, List.sum_append]
    by_cases h : mcOf R x = c
    · simp [h]
    · simp [h]
  · intro m y hy
    by_cases h : y = x
    · subst h
      have := idxOf_get hn hy
      rw [this, List.getElem?_set_self (by rw [hs.l2, hR.mcL]; exact (List.getElem?_eq_some_iff.mp hy).1)]
      simp
    · have hne : R.gids.idxOf x ≠ m := by
        rintro rfl
        rw [List.getElem?_eq_getElem hlt, List.getElem_idxOf] at hy
        exact h (by simpa using hy.symm)
      dsimp only
      rw [List.getElem?_set_ne hne, hs.f m y hy]
      simp [h]

/-- the process of the group that gives the vertices of a class -/
def senderOf (R : CEqc) (g : List ℕ) (x : ℕ) : Option ℕ := (R.mm[R.gids.idxOf x]?).bind fun L => cutMin L g

theorem foldlM_range_map {α β : Type} (f : β → α → Option β) (F : List α) (G : ℕ → α) (n : ℕ) (hF : F = (List.range n).map G) (P : ℕ → β → Prop)
    (hstep : ∀ i < n, ∀ b, P i b → ∃ b', f b (G i) = some b' ∧ P (i + 1) b') (b : β) (h0 : P 0 b) : ∃ b', F.foldlM f b = some b' ∧ P n b' := by
  subst hF
  have key : ∀ k i, i + k = n → ∀ b, P i b → ∃ b', ((List.range' i k).map G).foldlM f b = some b' ∧ P n b' := by
    intro k
    induction k with
    | zero => intro i hi b hb; have : i = n := by omega
              subst this; exact ⟨b, rfl, hb⟩
    | succ k ih =>
      intro i hi b hb
      obtain ⟨b1, h1, h2⟩ := hstep i (by omega) b hb
      obtain ⟨b', h3, h4⟩ := ih (i + 1) (by omega) b1 h2
      refine ⟨b', ?_, h4⟩
      rw [List.range'_succ, List.map_cons, List.foldlM_cons, h1]
      exact h3
  have := key n 0 (by omega) b h0
  rwa [List.range_eq_range'] 

theorem zip3_eq (l : List ℕ) (f g : ℕ → ℕ) (n : ℕ) (hn : l.length = n) :
    (List.range n).zip ((l.map f).zip (l.map g)) = (List.range n).map fun j => (j, f (l.getD j 0), g (l.getD j 0)) := by
  apply List.ext_getElem
  · simp [hn]
  · intro i h1 h2
    simp only [List.getElem_zip, List.getElem_range, List.getElem_map]
    have : i < l.length := by simp at h1; omega
    rw [List.getD_eq_getElem?_getD, List.getElem?_eq_getElem this]; rfl

theorem mcOf_lt {groups : List (List ℕ)} {sOf : ℕ → Finset ℕ} {gi : ℕ} {g : List ℕ} {R : CEqc} (hR : CEqcOK groups C sOf gi g R) {x : ℕ} (hx : x ∈ R.gids) :
    ∃ d, R.tab[mcOf R x]? = some d ∧ members gi d = (sOf x).image (gOf groups) := by
  have hlt := List.idxOf_lt_length_of_mem hx
  obtain ⟨c, d, h1, h2, h3⟩ := hR.mc (R.gids.idxOf x) x (by rw [List.getElem?_eq_getElem hlt, List.getElem_idxOf])
  unfold mcOf
  rw [List.getD_eq_getElem?_getD, h1]
  exact ⟨d, h2, h3⟩

theorem count_member (hM : VMesh np C) {groups : List (List ℕ)} {sOf : ℕ → Finset ℕ} {cnt : ℕ → ℕ} (hN : Names np C sOf cnt) {gi : ℕ} {g : List ℕ} {R : CEqc} (hR : CEqcOK groups C sOf gi g R)
    {p : ℕ} (hp : p < np) (hpg : p ∈ g) {sent : List ℕ} {s : List ℕ × List ℕ} (hs : Counted R cnt sent s) :
    ∃ s', ((List.range (C p).T.length).zip (((C p).ids.map R.gids.idxOf).zip (((C p).ids.map R.gids.idxOf).map fun m => R.mc.getD m 0))).foldlM (fun (s : List ℕ × List ℕ) e =>
      (eVerts (C p) e.1).bind fun vs =>
        if (R.mm.map fun m => cutMin m g)[e.2.1]? = some (some p) then
          if e.2.2 < s.1.length ∧ e.2.1 < s.2.length then some (s.1.modify e.2.2 (· + vs.2), s.2.set e.2.1 vs.2) else none
        else some s) s = some s' ∧ Counted R cnt (sent ++ (C p).ids.filter fun x => senderOf R g x = some p) s' := by
  rw [List.map_map]
  have hF := zip3_eq (C p).ids R.gids.idxOf ((fun m => R.mc.getD m 0) ∘ R.gids.idxOf) (C p).T.length (hM.idl p hp)
  obtain ⟨s', h1, h2⟩ := foldlM_range_map (fun (s : List ℕ × List ℕ) e =>
      (eVerts (C p) e.1).bind fun vs =>
        if (R.mm.map fun m => cutMin m g)[e.2.1]? = some (some p) then
          if e.2.2 < s.1.length ∧ e.2.1 < s.2.length then some (s.1.modify e.2.2 (· + vs.2), s.2.set e.2.1 vs.2) else none
        else some s) _ _ _ hF (fun i s => Counted R cnt (sent ++ ((C p).ids.take i).filter fun x => senderOf R g x = some p) s) (by
    intro i hi b hb
    have hil : i < (C p).ids.length := by rw [hM.idl p hp]; exact hi
    have hx : (C p).ids[i]? = some ((C p).ids[i]) := List.getElem?_eq_getElem hil
    obtain ⟨a, -, -, he⟩ := eVerts_eq hN hp hx
    have hxg : (C p).ids[i] ∈ R.gids := (hR.gidsM _).mpr ⟨p, hpg, List.getElem_mem _⟩
    have hgd : (C p).ids.getD i 0 = (C p).ids[i] := by rw [List.getD_eq_getElem?_getD, hx]; rfl
    have hlt := List.idxOf_lt_length_of_mem hxg
    dsimp only
    rw [he, Option.bind_some, hgd]
    have hse : ((R.mm.map fun m => cutMin m g)[R.gids.idxOf (C p).ids[i]]? = some (some p)) ↔ senderOf R g (C p).ids[i] = some p := by
      unfold senderOf
      rw [List.getElem?_map, List.getElem?_eq_getElem (by rw [hR.mmL]; exact hlt)]
      simp
    have htake : (C p).ids.take (i + 1) = (C p).ids.take i ++ [(C p).ids[i]] := List.take_succ_eq_append_getElem hil
    rw [htake, List.filter_append, ← List.append_assoc]
    by_cases hsnd : senderOf R g (C p).ids[i] = some p
    · obtain ⟨d, hd, -⟩ := mcOf_lt hR hxg
      obtain ⟨g1, g2, g3⟩ := count_step hR hb hxg (List.getElem?_eq_some_iff.mp hd).1
      rw [if_pos (hse.mpr hsnd)]
      refine ⟨_, if_pos ⟨g2, g1⟩, ?_⟩
      have e1 : [(C p).ids[i]].filter (fun x => senderOf R g x = some p) = [(C p).ids[i]] := by simp [hsnd]
      rw [e1]
      exact g3
    · rw [if_neg (fun h => hsnd (hse.mp h))]
      refine ⟨b, rfl, ?_⟩
      have e1 : [(C p).ids[i]].filter (fun x => senderOf R g x = some p) = [] := by simp [hsnd]
      rw [e1, List.append_nil]
      exact hb) s (by simpa using hs)
  refine ⟨s', h1, ?_⟩
  rw [List.take_of_length_le (by rw [hM.idl p hp])] at h2
  exact h2

theorem zip_maps (g : List ℕ) (ids : ℕ → List ℕ) (f h : List ℕ → List ℕ) :
    (grp C g).zip ((g.map fun p => f (ids p)).zip (g.map fun p => h (ids p))) = g.map fun p => ((p, C p), (f (ids p), h (ids p))) := by
  unfold grp
  induction g with
  | nil => rfl
  | cons a g ih => simp only [List.map_cons, List.zip_cons_cons, ih]

theorem countPass_spec (hM : VMesh np C) {groups : List (List ℕ)} (hG : GroupsOK np groups) {sOf : ℕ → Finset ℕ} {cnt : ℕ → ℕ} (hN : Names np C sOf cnt) {gi : ℕ} {g : List ℕ} (hgi : groups[gi]? = some g) {R : CEqc}
    (hR : CEqcOK groups C sOf gi g R) :
    ∃ s, countPass R (grp C g) = some s ∧ s.1.length = R.tab.length ∧ s.2 = R.gids.map cnt ∧ ∀ c < R.tab.length, s.1[c]? = some ((R.gids.filter fun x => mcOf R x = c).map cnt).sum := by
  have hg : ∀ p ∈ g, p < np := fun p hp => hG.mem.mpr ⟨gi, g, hgi, hp⟩
  have hgs : SL g := hG.sorted g (List.mem_of_getElem? hgi)
  have hgn : g.Nodup := hgs.imp (fun h => Nat.ne_of_lt h)
  have hn : R.gids.Nodup := hR.gidsS.imp (fun h => Nat.ne_of_lt h)
  have outer : ∀ (l : List ℕ), (∀ p ∈ l, p ∈ g) → ∀ (sent : List ℕ) (s : List ℕ × List ℕ), Counted R cnt sent s →
      ∃ s', (l.map fun p => (((p, C p) : Mem), ((C p).ids.map R.gids.idxOf, ((C p).ids.map R.gids.idxOf).map fun m => R.mc.getD m 0))).foldlM (fun s m =>
        ((List.range m.1.2.T.length).zip (m.2.1.zip m.2.2)).foldlM (fun (s : List ℕ × List ℕ) e =>
          (eVerts m.1.2 e.1).bind fun vs =>
            if (R.mm.map fun m => cutMin m g)[e.2.1]? = some (some m.1.1) then
              if e.2.2 < s.1.length ∧ e.2.1 < s.2.length then some (s.1.modify e.2.2 (· + vs.2), s.2.set e.2.1 vs.2) else none
            else some s) s) s = some s' ∧ Counted R cnt (sent ++ l.flatMap fun p => (C p).ids.filter fun x => senderOf R g x = some p) s' := by
    intro l
    induction l with
    | nil => intro _ sent s hs; exact ⟨s, rfl, by simpa using hs⟩
    | cons p l ih =>
      intro hl sent s hs
      obtain ⟨s1, h1, h2⟩ := count_member hM hN hR (hg p (hl p List.mem_cons_self)) (hl p List.mem_cons_self) hs
      obtain ⟨s', h3, h4⟩ := ih (fun p hp => hl p (List.mem_cons_of_mem _ hp)) _ s1 h2
      refine ⟨s', ?_, ?_⟩
      · rw [List.map_cons, List.foldlM_cons]
        dsimp only
        rw [h1]
        exact h3
      · rw [List.flatMap_cons, ← List.append_assoc]; exact h4
  have h0 : Counted R cnt [] (List.replicate R.tab.length 0, List.replicate R.mc.length 0) := by
    refine ⟨by simp, by simp, ?_, ?_⟩
    · intro c hc; simp [List.getElem?_replicate, hc]
    · intro m x hx
      have := (List.getElem?_eq_some_iff.mp hx).1
      rw [← hR.mcL] at this
      simp [List.getElem?_replicate, this]
  obtain ⟨s, h1, h2⟩ := outer g (fun _ h => h) [] _ h0
  rw [List.nil_append] at h2
  obtain ⟨sent, hsent⟩ : ∃ l, l = g.flatMap fun p => (C p).ids.filter fun x => senderOf R g x = some p := ⟨_, rfl⟩
  rw [← hsent] at h2
  have hperm : sent.Perm R.gids := by
    refine (List.perm_ext_iff_of_nodup ?_ hn).mpr ?_
    · rw [hsent, List.nodup_flatMap]
      refine ⟨fun p hp => (hN.nodup p (hg p hp)).filter _, ?_⟩
      refine hgn.imp ?_
      intro p q hpq x hx hy
      simp only [List.mem_filter, decide_eq_true_eq] at hx hy
      rw [hx.2] at hy
      exact hpq (by simpa using hy.2)
    · intro x
      rw [hsent, List.mem_flatMap]
      constructor
      · rintro ⟨p, hp, hx⟩
        rw [List.mem_filter] at hx
        exact (hR.gidsM x).mpr ⟨p, hp, hx.1⟩
      · intro hx
        have hlt := List.idxOf_lt_length_of_mem hx
        obtain ⟨L, hL1, hL2⟩ := hR.mm (R.gids.idxOf x) x (by rw [List.getElem?_eq_getElem hlt, List.getElem_idxOf])
        obtain ⟨p, hp, hxp⟩ := (hR.gidsM x).mp hx
        obtain ⟨a, b⟩ := hN.mem p (hg p hp) x hxp
        obtain ⟨c1, c2⟩ := cutMin_spec L g hL2.1 hgs
        obtain ⟨z, hz⟩ := c2 ⟨p, (hL2.2 p).mpr a, hp⟩
        obtain ⟨hz1, hz2⟩ := c1 z hz
        refine ⟨z, hz2, List.mem_filter.mpr ⟨(b z ((hL2.2 z).mp hz1)).2, ?_⟩⟩
        unfold senderOf
        rw [hL1, Option.bind_some, hz]; simp
  refine ⟨s, ?_, h2.l1, ?_, ?_⟩
  · unfold countPass
    dsimp only
    have hfst : (grp C g).map Prod.fst = g := by unfold grp; rw [List.map_map]; exact List.map_id g
    have hoc : R.oc = g.map fun p => ((C p).ids.map R.gids.idxOf).map fun m => R.mc.getD m 0 := by rw [hR.oc, hR.om, List.map_map]; rfl
    have hz := zip_maps (C := C) g (fun p => (C p).ids) (fun l => l.map R.gids.idxOf) (fun l => (l.map R.gids.idxOf).map fun m => R.mc.getD m 0)
    rw [hfst, hoc, hR.om, hz]
    exact h1
  · apply List.ext_getElem?
    intro m
    rw [List.getElem?_map]
    by_cases hm : m < R.gids.length
    · have hx : R.gids[m]? = some (R.gids[m]) := List.getElem?_eq_getElem hm
      rw [hx, h2.f m _ hx, if_pos (hperm.mem_iff.mpr (List.getElem_mem hm))]; rfl
    · rw [List.getElem?_eq_none (by rw [h2.l2, hR.mcL]; omega), List.getElem?_eq_none (by omega)]; rfl
  · intro c hc
    rw [h2.v c hc]
    congr 1
    exact ((hperm.filter _).map _).sum_eq

/-! ### offsets of the merged classes -/

theorem firstiPass_spec (disp : List ℕ) (l : List (ℕ × ℕ)) (sz : List ℕ) (h : ∀ e ∈ l, e.1 < sz.length ∧ e.1 < disp.length) :
    ∃ r, firstiPass disp l sz = some r ∧ r.length = l.length ∧
      ∀ (m : ℕ) (e : ℕ × ℕ), l[m]? = some e → r[m]? = some (disp.getD e.1 0 + sz.getD e.1 0 + (((l.take m).filter fun e' => e'.1 = e.1).map Prod.snd).sum) := by
  induction l generalizing sz with
  | nil => exact ⟨[], rfl, rfl, by simp⟩
  | cons a l ih =>
    obtain ⟨ceq, bs⟩ := a
    obtain ⟨h1, h2⟩ := h _ List.mem_cons_self
    obtain ⟨r, g1, g2, g3⟩ := ih (sz.set ceq (sz.getD ceq 0 + bs)) (fun e he => by rw [List.length_set]; exact h e (List.mem_cons_of_mem _ he))
    refine ⟨(disp.getD ceq 0 + sz.getD ceq 0) :: r, ?_, by simp [g2], ?_⟩
    · unfold firstiPass
      have e1 : disp[ceq]? = some (disp.getD ceq 0) := by rw [List.getD_eq_getElem?_getD, List.getElem?_eq_getElem h2]; rfl
      have e2 : sz[ceq]? = some (sz.getD ceq 0) := by rw [List.getD_eq_getElem?_getD, List.getElem?_eq_getElem h1]; rfl
      rw [e1, Option.bind_some, e2, Option.bind_some, g1]; rfl
    · intro m e he
      cases m with
      | zero =>
        simp only [List.getElem?_cons_zero, Option.some.injEq] at he
        subst he
        simp
      | succ m =>
        simp only [List.getElem?_cons_succ] at he ⊢
        rw [g3 m e he]
        congr 1
        rw [List.take_succ_cons, List.filter_cons]
        by_cases hc : ceq = e.1
        · subst hc
          have : (sz.set e.1 (sz.getD e.1 0 + bs)).getD e.1 0 = sz.getD e.1 0 + bs := by
            rw [List.getD_eq_getElem?_getD, List.getElem?_set_self h1]; rfl
          rw [this]
          simp only [decide_true, if_true, List.map_cons, List.sum_cons]
          omega
        · have : (sz.set ceq (sz.getD ceq 0 + bs)).getD e.1 0 = sz.getD e.1 0 := by
            rw [List.getD_eq_getElem?_getD, List.getElem?_set_ne hc, ← List.getD_eq_getElem?_getD]
          rw [this]
          simp [hc]

/-! ### maps of the members -/

theorem setRun_spec (a f n : ℕ) (v : List (Option ℕ)) (h : a + n ≤ v.length) :
    ∃ v', (List.range n).foldlM (fun (v : List (Option ℕ)) l => if a + l < v.length then some (v.set (a + l) (some (f + l))) else none) v = some v' ∧ v'.length = v.length ∧
      ∀ i, v'[i]? = if a ≤ i ∧ i < a + n then some (some (f + (i - a))) else v[i]? := by
  obtain ⟨v', h1, h2⟩ := foldlM_range_map (fun (v : List (Option ℕ)) l => if a + l < v.length then some (v.set (a + l) (some (f + l))) else none) (List.range n) id n (by simp)
    (fun k w => w.length = v.length ∧ ∀ i, w[i]? = if a ≤ i ∧ i < a + k then some (some (f + (i - a))) else v[i]?) (by
      rintro k hk w ⟨hw1, hw2⟩
      refine ⟨w.set (a + k) (some (f + k)), if_pos (by simp only [id]; omega), by simpa using hw1, ?_⟩
      intro i
      by_cases hi : a + k = i
      · subst hi
        rw [List.getElem?_set_self (by omega), if_pos (by omega)]
        congr 3; omega
      · rw [List.getElem?_set_ne hi, hw2]
        by_cases hik : a ≤ i ∧ i < a + k
        · rw [if_pos hik, if_pos (by omega)]
        · rw [if_neg hik, if_neg (by omega)]) v ⟨rfl, fun i => by rw [if_neg (by omega)]⟩
  exact ⟨v', h1, h2⟩

theorem vertMap_spec (hM : VMesh np C) {sOf : ℕ → Finset ℕ} {cnt : ℕ → ℕ} (hN : Names np C sOf cnt) {p : ℕ} (hp : p < np) {gids firsti : List ℕ} (hf : ∀ x ∈ (C p).ids, gids.idxOf x < firsti.length) :
    ∃ v, vertMap firsti (C p) ((C p).ids.map gids.idxOf) = some v ∧ v.length = (C p).nv ∧
      ∀ (j x a l : ℕ), (C p).ids[j]? = some x → (C p).disp[j]? = some a → l < cnt x → v[a + l]? = some (some (firsti.getD (gids.idxOf x) 0 + l)) := by
  have hl := hM.dl p hp
  have hget : ∀ j < (C p).T.length, ∃ x a, (C p).ids[j]? = some x ∧ (C p).disp[j]? = some a ∧ (C p).disp[j + 1]? = some (a + cnt x) ∧ eVerts (C p) j = some (a, cnt x) := by
    intro j hj
    have hx : (C p).ids[j]? = some ((C p).ids[j]'(by rw [hM.idl p hp]; exact hj)) := List.getElem?_eq_getElem _
    obtain ⟨a, h1, h2, h3⟩ := eVerts_eq hN hp hx
    exact ⟨_, a, hx, h1, h2, h3⟩
  choose! X A hX hA hA' hE using hget
  -- the number of vertices
  have hns : ((List.range (C p).T.length).mapM fun j => (eVerts (C p) j).map Prod.snd) = some ((List.range (C p).T.length).map fun j => cnt (X j)) :=
    RedTab.mapM_some_of _ _ _ (fun j hj => by rw [hE j (List.mem_range.mp hj)]; rfl)
  have hsum : ∀ k ≤ (C p).T.length, (C p).disp[k]? = some (((List.range k).map fun j => cnt (X j)).sum) := by
    intro k
    induction k with
    | zero => intro _; simpa using hM.d0 p hp
    | succ k ih =>
      intro hk
      have h1 := ih (by omega)
      rw [hA k (by omega)] at h1
      rw [hA' k (by omega), List.range_succ, List.map_append, List.sum_append]
      have h2 : A k = ((List.range k).map fun j => cnt (X j)).sum := by simpa using h1
      rw [h2]; simp
  have hnv : ((List.range (C p).T.length).map fun j => cnt (X j)).sum = (C p).nv := by
    exact (getLastD_of_get hl (hsum _ (le_refl _))).symm
  have hzip : (List.range (C p).T.length).zip ((C p).ids.map gids.idxOf) = (List.range (C p).T.length).map fun j => (j, gids.idxOf (X j)) := by
    apply List.ext_getElem
    · simp [hM.idl p hp]
    · intro i h1 h2
      simp only [List.getElem_zip, List.getElem_range, List.getElem_map]
      have hi : i < (C p).T.length := by simpa using h2
      have := hX i hi
      rw [List.getElem?_eq_getElem (by rw [hM.idl p hp]; exact hi)] at this
      rw [Option.some.injEq] at this
      rw [this]
  have hmono : ∀ i j : ℕ, i < j → j < (C p).T.length → A i + cnt (X i) ≤ A j := by
    intro i j hij hj
    exact offsets_le (hM.offs p hp) (show i + 1 ≤ j by omega) (hA' i (by omega)) (hA j hj)
  have hend : ∀ i < (C p).T.length, A i + cnt (X i) ≤ (C p).nv := by
    intro i hi
    rw [← hnv]
    exact offsets_le (hM.offs p hp) (show i + 1 ≤ (C p).T.length by omega) (hA' i hi) (hsum _ (le_refl _))
  unfold vertMap
  rw [hns, Option.bind_some, hzip, hnv]
  obtain ⟨v, h1, h2, h3⟩ := foldlM_range_map (fun (v : List (Option ℕ)) (e : ℕ × ℕ) =>
      (eVerts (C p) e.1).bind fun vs => (firsti[e.2]?).bind fun f =>
        (List.range vs.2).foldlM (fun (v : List (Option ℕ)) l => if vs.1 + l < v.length then some (v.set (vs.1 + l) (some (f + l))) else none) v)
    _ (fun j => (j, gids.idxOf (X j))) _ rfl
    (fun k w => w.length = (C p).nv ∧ ∀ j < k, ∀ l < cnt (X j), w[A j + l]? = some (some (firsti.getD (gids.idxOf (X j)) 0 + l))) (by
      rintro k hk w ⟨hw1, hw2⟩
      have hfk := hf (X k) (List.mem_of_getElem? (hX k hk))
      have e1 : firsti[gids.idxOf (X k)]? = some (firsti.getD (gids.idxOf (X k)) 0) := by rw [List.getD_eq_getElem?_getD, List.getElem?_eq_getElem hfk]; rfl
      dsimp only
      rw [hE k hk, Option.bind_some, e1, Option.bind_some]
      obtain ⟨w', g1, g2, g3⟩ := setRun_spec (A k) (firsti.getD (gids.idxOf (X k)) 0) (cnt (X k)) w (by rw [hw1]; exact hend k hk)
      refine ⟨w', g1, by rw [g2, hw1], ?_⟩
      intro j hj l hlt
      rw [g3]
      by_cases hjk : j = k
      · subst hjk
        rw [if_pos (by omega)]
        congr 3; omega
      · have := hmono j k (by omega) hk
        rw [if_neg (by omega)]
        exact hw2 j (by omega) l hlt) (List.replicate (C p).nv none) ⟨by simp, fun j hj => absurd hj (Nat.not_lt_zero _)⟩
  refine ⟨v, h1, h2, ?_⟩
  intro j x a l hx ha hlt
  have hj : j < (C p).T.length := by rw [← hM.idl p hp]; exact (List.getElem?_eq_some_iff.mp hx).1
  have e1 := hX j hj
  rw [hx] at e1; cases e1
  have e2 := hA j hj
  rw [ha] at e2; cases e2
  exact h3 j hj l hlt

end NgsAMG.GCtr
