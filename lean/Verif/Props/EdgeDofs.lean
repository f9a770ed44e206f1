import Verif.Model.EdgeDofs
import Verif.Props.Curl1

/-!
# C114: shared degrees of freedom of the edges
-/

namespace NgsAMG.EDofs
open NgsAMG.Curl

/-- the edges that are shared with `p`, in the order of the mesh -/
def shared (P : Proc) (p : ℕ) : List ℕ := ((visits P).filter fun v => v.1 = p).map Prod.snd

/-- does the edge have a degree of freedom? -/
def has (P : Proc) (e : ℕ) : Bool := ((dofOf P e).join).isSome

theorem has_iff {P : Proc} {e : ℕ} : has P e = true ↔ ∃ d, dofOf P e = some (some d) := by
  unfold has
  cases h : dofOf P e with
  | none => simp
  | some o => cases o <;> simp

theorem dofOf_some {P : Proc} {e : ℕ} (he : e < P.edges.length) : ∃ o, dofOf P e = some o ∧ o.isSome = has P e := by
  obtain ⟨-, -, -, -, hlen, -⟩ := dofed_correct P.gv P.edges
  have : e < (e2dof P.gv P.edges).length := by omega
  refine ⟨_, List.getElem?_eq_getElem this, ?_⟩
  unfold has dofOf
  rw [List.getElem?_eq_getElem this]
  rfl

theorem sendData_spec {P : Proc} (hP : ∀ v ∈ visits P, v.2 < P.edges.length) : ∃ s, sendData P = some s ∧ ∀ p, s p = (shared P p).map (has P) := by
  have key : ∀ (l : List (ℕ × ℕ)) (_ : ∀ v ∈ l, v.2 < P.edges.length) (s : ℕ → List Bool),
      ∃ s', l.foldlM (fun (s : ℕ → List Bool) pe => (dofOf P pe.2).map fun d => Function.update s pe.1 (s pe.1 ++ [d.isSome])) s = some s' ∧
        ∀ p, s' p = s p ++ ((l.filter fun v => v.1 = p).map Prod.snd).map (has P) := by
    intro l
    induction l with
    | nil => exact fun _ s => ⟨s, rfl, by simp⟩
    | cons v l ih =>
      intro hl s
      obtain ⟨o, h1, h2⟩ := dofOf_some (hl v (by simp))
      obtain ⟨s', h3, h4⟩ := ih (fun v hv => hl v (by simp [hv])) (Function.update s v.1 (s v.1 ++ [o.isSome]))
      refine ⟨s', by rw [List.foldlM_cons, h1]; exact h3, fun p => ?_⟩
      rw [h4 p]
      by_cases hp : v.1 = p
      · subst hp
        rw [Function.update_self, List.filter_cons, if_pos (by simp), h2]
        simp
      · rw [Function.update_of_ne (fun h => hp h.symm), List.filter_cons, if_neg (by simpa using hp)]
  obtain ⟨s, h1, h2⟩ := key (visits P) hP fun _ => []
  exact ⟨s, h1, fun p => by rw [h2 p]; rfl⟩

theorem dpAdds_spec {P : Proc} (hP : ∀ v ∈ visits P, v.2 < P.edges.length) (rd : ℕ → List Bool) (hrd : ∀ v ∈ visits P, (rd v.1).length = (shared P v.1).length) :
    ∃ adds, dpAdds P rd = some adds ∧
      ∀ d p, (d, p) ∈ adds ↔ ∃ k e : ℕ, (shared P p)[k]? = some e ∧ (rd p)[k]? = some true ∧ dofOf P e = some (some d) := by
  have key : ∀ (post pre : List (ℕ × ℕ)) (_ : visits P = pre ++ post) (pr : ℕ → ℕ) (adds : List (ℕ × ℕ))
      (_ : ∀ p, pr p = ((pre.filter fun v => v.1 = p).map Prod.snd).length)
      (_ : ∀ d p, (d, p) ∈ adds ↔ ∃ k e : ℕ, ((pre.filter fun v => v.1 = p).map Prod.snd)[k]? = some e ∧ (rd p)[k]? = some true ∧ dofOf P e = some (some d)),
      ∃ pr' adds', post.foldlM (dpStep P rd) (pr, adds) = some (pr', adds') ∧
        ∀ d p, (d, p) ∈ adds' ↔ ∃ k e : ℕ, (shared P p)[k]? = some e ∧ (rd p)[k]? = some true ∧ dofOf P e = some (some d) := by
    intro post
    induction post with
    | nil =>
      intro pre hpre pr adds _ h2
      rw [List.append_nil] at hpre
      refine ⟨pr, adds, rfl, fun d p => ?_⟩
      rw [h2 d p, ← hpre]
      rfl
    | cons v post ih =>
      intro pre hpre pr adds h1 h2
      have hv : v ∈ visits P := by rw [hpre]; simp
      have hlen : (shared P v.1).length = ((pre.filter fun w => w.1 = v.1).map Prod.snd).length + 1 + ((post.filter fun w => w.1 = v.1).map Prod.snd).length := by
        unfold shared
        rw [hpre, List.filter_append, List.filter_cons, if_pos (by simp)]
        simp only [List.map_append, List.map_cons, List.length_append, List.length_cons]
        omega
      have hk : pr v.1 < (rd v.1).length := by rw [hrd v hv, hlen, h1]; omega
      obtain ⟨o, o1, -⟩ := dofOf_some (hP v hv)
      have hstep : dpStep P rd (pr, adds) v = some (Function.update pr v.1 (pr v.1 + 1),
          addDp (rd v.1)[pr v.1] o v.1 adds) := by
        unfold dpStep
        dsimp only
        rw [List.getElem?_eq_getElem hk, Option.bind_some, o1]
        rfl
      obtain ⟨pr', adds', g1, g2⟩ := ih (pre ++ [v]) (by rw [hpre]; simp) (Function.update pr v.1 (pr v.1 + 1))
        (addDp (rd v.1)[pr v.1] o v.1 adds)
        (by
          intro p
          rw [List.filter_append, List.map_append, List.length_append, ← h1]
          by_cases hp : v.1 = p
          · subst hp
            rw [Function.update_self]
            simp
          · rw [Function.update_of_ne (fun h => hp h.symm)]
            simp [hp])
        (by
          intro d p
          rw [List.filter_append, List.map_append]
          have old : ∀ x : (ℕ × ℕ), x ∈ addDp (rd v.1)[pr v.1] o v.1 adds ↔
              x ∈ adds ∨ (rd v.1)[pr v.1] = true ∧ ∃ d, o = some d ∧ x = (d, v.1) := by
            intro x
            cases (rd v.1)[pr v.1] <;> cases o <;> simp [addDp]
          rw [old, h2 d p]
          by_cases hp : v.1 = p
          · subst hp
            have e : (([v].filter fun w => w.1 = v.1).map Prod.snd) = [v.2] := by simp
            rw [e]
            constructor
            · rintro (⟨k, e, k1, k2, k3⟩ | ⟨hb, d', rfl, he⟩)
              · refine ⟨k, e, ?_, k2, k3⟩
                rw [List.getElem?_append_left (List.getElem?_eq_some_iff.mp k1).1]
                exact k1
              · obtain ⟨rfl, -⟩ := Prod.mk.inj he
                refine ⟨pr v.1, v.2, ?_, by rw [List.getElem?_eq_getElem hk, hb], o1⟩
                rw [h1, List.getElem?_append_right le_rfl, Nat.sub_self]
                rfl
            · rintro ⟨k, e, k1, k2, k3⟩
              rcases lt_or_ge k ((pre.filter fun w => w.1 = v.1).map Prod.snd).length with hlt | hge
              · rw [List.getElem?_append_left hlt] at k1
                exact Or.inl ⟨k, e, k1, k2, k3⟩
              · rw [List.getElem?_append_right hge] at k1
                have hk0 := (List.getElem?_eq_some_iff.mp k1).1
                rw [List.length_singleton] at hk0
                have hkk : k = pr v.1 := by rw [h1]; omega
                subst hkk
                have : pr v.1 - ((pre.filter fun w => w.1 = v.1).map Prod.snd).length = 0 := by omega
                rw [this] at k1
                obtain rfl : v.2 = e := Option.some.inj k1
                rw [List.getElem?_eq_getElem hk] at k2
                rw [o1] at k3
                exact Or.inr ⟨Option.some.inj k2, d, Option.some.inj k3, rfl⟩
          · have e : (([v].filter fun w => w.1 = p).map Prod.snd) = [] := by simp [hp]
            rw [e, List.append_nil]
            constructor
            · rintro (h | ⟨-, d', -, he⟩)
              · exact h
              · exact absurd (Prod.mk.inj he).2.symm hp
            · exact Or.inl)
      exact ⟨pr', adds', by rw [List.foldlM_cons, hstep]; exact g1, g2⟩
  obtain ⟨pr', adds', g1, g2⟩ := key (visits P) [] rfl (fun _ => 0) [] (by simp) (by simp)
  exact ⟨adds', by unfold dpAdds; rw [g1]; rfl, g2⟩

/-- a distributed mesh: edges of the equivalence classes exist and come in ascending order, and two processes have the same shared edges in the same order;
`glob r e` is the global edge -/
structure Dist (Ps : ℕ → Proc) (glob : ℕ → ℕ → ℕ) : Prop where
  range : ∀ r, ∀ v ∈ visits (Ps r), v.2 < (Ps r).edges.length
  sorted : ∀ r p, (shared (Ps r) p).Pairwise (· < ·)
  same : ∀ r p, (shared (Ps r) p).map (glob r) = (shared (Ps p) r).map (glob p)
  inj : ∀ r e e', glob r e = glob r e' → e = e'

/-- **C114**: `p` is in the row of a degree of freedom exactly if its edge is shared with `p` and has a degree of freedom there, too -/
theorem dofDps_correct {Ps : ℕ → Proc} {glob : ℕ → ℕ → ℕ} (h : Dist Ps glob) (r : ℕ) :
    ∃ adds, dofDps Ps r = some adds ∧ ∀ d p, (d, p) ∈ adds ↔
      ∃ e ∈ shared (Ps r) p, dofOf (Ps r) e = some (some d) ∧ ∃ e' ∈ shared (Ps p) r, glob p e' = glob r e ∧ ∃ d', dofOf (Ps p) e' = some (some d') := by
  obtain ⟨s0, s1, -⟩ := sendData_spec (h.range r)
  have hrd : ∀ p, ((sendData (Ps p)).map fun s => s r).getD [] = (shared (Ps p) r).map (has (Ps p)) := by
    intro p
    obtain ⟨s, q1, q2⟩ := sendData_spec (h.range p)
    rw [q1]
    exact q2 r
  have hlen : ∀ p, (shared (Ps r) p).length = (shared (Ps p) r).length := by
    intro p
    have := congrArg List.length (h.same r p)
    simpa using this
  obtain ⟨adds, a1, a2⟩ := dpAdds_spec (h.range r) (fun p => ((sendData (Ps p)).map fun s => s r).getD []) (by
    intro v _
    rw [hrd, List.length_map, hlen])
  refine ⟨adds, by unfold dofDps; rw [s1, Option.bind_some, a1], fun d p => ?_⟩
  rw [a2 d p, hrd p]
  constructor
  · rintro ⟨k, e, k1, k2, k3⟩
    rw [List.getElem?_map, Option.map_eq_some_iff] at k2
    obtain ⟨e', e1, e2⟩ := k2
    refine ⟨e, List.mem_of_getElem? k1, k3, e', List.mem_of_getElem? e1, ?_, has_iff.mp e2⟩
    have := congrArg (fun l => l[k]?) (h.same r p)
    simp only [List.getElem?_map, k1, e1, Option.map_some] at this
    exact (Option.some.inj this).symm
  · rintro ⟨e, he, hd, e', he', hg, hd'⟩
    obtain ⟨k, hk⟩ := List.getElem?_of_mem he
    have hkl : k < (shared (Ps p) r).length := by rw [← hlen]; exact (List.getElem?_eq_some_iff.mp hk).1
    have := congrArg (fun l => l[k]?) (h.same r p)
    simp only [List.getElem?_map, hk, List.getElem?_eq_getElem hkl, Option.map_some] at this
    have he2 : (shared (Ps p) r)[k] = e' := h.inj p _ _ ((Option.some.inj this).symm.trans hg.symm)
    refine ⟨k, e, hk, ?_, hd⟩
    rw [List.getElem?_map, List.getElem?_eq_getElem hkl, he2, Option.map_some, has_iff.mpr hd']

/-- the global edges of the degrees of freedom that `r` exchanges with `p`, in the order of the exchange -/
def exchanged (P : Proc) (glob : ℕ → ℕ) (d2e : List ℕ) (adds : List (ℕ × ℕ)) (p : ℕ) : List ℕ :=
  (exchangeDofs d2e.length adds p).map fun d => glob (d2e.getD d 0)

/-- **C114**: two processes exchange the degrees of freedom of the same edges in the same order -/
theorem exchange_matches {Ps : ℕ → Proc} {glob : ℕ → ℕ → ℕ} (h : Dist Ps glob) (r p : ℕ) :
    ∃ d1 d2 a1 a2, dof2e (e2dof (Ps r).gv (Ps r).edges) = some d1 ∧ dof2e (e2dof (Ps p).gv (Ps p).edges) = some d2 ∧ dofDps Ps r = some a1 ∧ dofDps Ps p = some a2 ∧
      exchanged (Ps r) (glob r) d1 a1 p = exchanged (Ps p) (glob p) d2 a2 r := by
  have one : ∀ r p, ∃ d1 a1, dof2e (e2dof (Ps r).gv (Ps r).edges) = some d1 ∧ dofDps Ps r = some a1 ∧
      ∃ q : ℕ → Bool, (∀ g, q g = true ↔ (∃ e, glob r e = g ∧ has (Ps r) e = true) ∧ ∃ e, glob p e = g ∧ has (Ps p) e = true) ∧
        exchanged (Ps r) (glob r) d1 a1 p = ((shared (Ps r) p).map (glob r)).filter q := by
    classical
    intro r p
    obtain ⟨d1, b1, b2, b3, -⟩ := dofed_correct (Ps r).gv (Ps r).edges
    obtain ⟨a1, c1, c2⟩ := dofDps_correct h r
    refine ⟨d1, a1, b1, c1, fun g => decide ((∃ e, glob r e = g ∧ has (Ps r) e = true) ∧ ∃ e, glob p e = g ∧ has (Ps p) e = true), fun g => by simp, ?_⟩
    have hsame : ∀ e ∈ shared (Ps r) p, ∃ e' ∈ shared (Ps p) r, glob p e' = glob r e := by
      intro e he
      have : glob r e ∈ (shared (Ps p) r).map (glob p) := by rw [← h.same r p]; exact List.mem_map.mpr ⟨e, he, rfl⟩
      obtain ⟨e', he', hg⟩ := List.mem_map.mp this
      exact ⟨e', he', hg⟩
    -- the exchanged edges, as local edges
    have hloc : (exchangeDofs d1.length a1 p).map (fun d => d1.getD d 0) =
        (shared (Ps r) p).filter fun e => decide ((∃ x, glob r x = glob r e ∧ has (Ps r) x = true) ∧ ∃ x, glob p x = glob r e ∧ has (Ps p) x = true) := by
      refine List.Perm.eq_of_pairwise (le := (· < ·)) (fun a b _ _ h1 h2 => absurd h1 (by omega)) ?_ ((h.sorted r p).filter _) ?_
      · refine List.pairwise_map.mpr ?_
        have : (exchangeDofs d1.length a1 p).Pairwise (· < ·) := List.pairwise_lt_range.filter _
        refine List.Pairwise.imp_of_mem ?_ this
        intro a b ha hb hab
        have ha' := List.mem_range.mp (List.mem_filter.mp ha).1
        have hb' := List.mem_range.mp (List.mem_filter.mp hb).1
        simp only [List.getD_eq_getElem?_getD, List.getElem?_eq_getElem ha', List.getElem?_eq_getElem hb', Option.getD_some]
        exact List.pairwise_iff_getElem.mp b2 a b ha' hb' hab
      · refine (List.perm_ext_iff_of_nodup ?_ (((h.sorted r p).imp fun h => h.ne).filter _)).mpr fun e => ?_
        · refine List.Nodup.map_on ?_ (List.nodup_range.filter _)
          intro a ha b hb he
          have ha' := List.mem_range.mp (List.mem_filter.mp ha).1
          have hb' := List.mem_range.mp (List.mem_filter.mp hb).1
          simp only [List.getD_eq_getElem?_getD, List.getElem?_eq_getElem ha', List.getElem?_eq_getElem hb', Option.getD_some] at he
          exact (List.Nodup.getElem_inj_iff (b2.imp fun h => h.ne)).mp he
        · rw [List.mem_map, List.mem_filter, decide_eq_true_eq]
          constructor
          · rintro ⟨d, hd, rfl⟩
            obtain ⟨hd1, hd2⟩ := List.mem_filter.mp hd
            have hdl := List.mem_range.mp hd1
            obtain ⟨e, he, e1, e', he', hg, e2⟩ := (c2 d p).mp (by simpa using hd2)
            have : d1[d]? = some e := (b3 e d).mp e1
            rw [List.getD_eq_getElem?_getD, this, Option.getD_some]
            exact ⟨he, ⟨e, rfl, has_iff.mpr ⟨d, e1⟩⟩, e', hg, has_iff.mpr e2⟩
          · rintro ⟨he, ⟨x, hx, hx'⟩, y, hy, hy'⟩
            obtain rfl := h.inj r _ _ hx
            obtain ⟨d, hd⟩ := has_iff.mp hx'
            obtain ⟨e', he', hg⟩ := hsame x he
            obtain rfl := h.inj p _ _ (hy.trans hg.symm)
            have hd1 : d1[d]? = some x := (b3 x d).mp hd
            refine ⟨d, List.mem_filter.mpr ⟨List.mem_range.mpr (List.getElem?_eq_some_iff.mp hd1).1, ?_⟩, by rw [List.getD_eq_getElem?_getD, hd1]; rfl⟩
            simpa using (c2 d p).mpr ⟨x, he, hd, y, he', hg, has_iff.mp hy'⟩
    unfold exchanged
    have e : (exchangeDofs d1.length a1 p).map (fun d => glob r (d1.getD d 0)) = ((exchangeDofs d1.length a1 p).map fun d => d1.getD d 0).map (glob r) := by
      rw [List.map_map]
      rfl
    rw [e, hloc, List.filter_map]
    rfl
  obtain ⟨d1, a1, x1, x2, q1, y1, z1⟩ := one r p
  obtain ⟨d2, a2, x3, x4, q2, y2, z2⟩ := one p r
  refine ⟨d1, d2, a1, a2, x1, x3, x2, x4, ?_⟩
  rw [z1, z2, h.same r p]
  refine List.filter_congr fun g _ => ?_
  rw [Bool.eq_iff_iff, y1, y2]
  exact And.comm

/-- two processes that share the edges 1, 2 of the first one, which are 0, 1 of the second one -/
def exPs : ℕ → Proc
  | 0 => ⟨[([1], [1, 2])], some fun v => v == 3 || v == 4, [(0, 1), (1, 2), (3, 4)]⟩
  | 1 => ⟨[([0], [0, 1])], some fun v => v == 0, [(0, 1), (2, 3), (1, 2)]⟩
  | _ => ⟨[], none, []⟩

example : dofDps exPs 0 = some [(1, 1)] ∧ dofDps exPs 1 = some [(0, 0)] := by decide +kernel

example : Dist exPs fun r e => if r = 1 then e + 1 else e := by
  refine ⟨?_, ?_, ?_, ?_⟩
  · rintro (_ | _ | r) <;> simp [exPs, visits]
  · rintro (_ | _ | r) (_ | _ | p) <;> simp [exPs, visits, shared]
  · rintro (_ | _ | r) (_ | _ | p) <;> simp [exPs, visits, shared]
  · intro r e e' he
    split_ifs at he <;> omega

end NgsAMG.EDofs
