import Verif.Props.P2Emb1
import Verif.Props.DofMesh1

/-!
# C112: the matrix of the P2 embedding
-/

namespace NgsAMG.P2E
open NgsAMG.DofM NgsAMG.Spec

theorem setFold {α β : Type*} {f : List β → α → Option (List β)} {n : ℕ} (key : α → ℕ) (val : α → β) (l : List α) (hk : ∀ x ∈ l, key x < n)
    (hnd : (l.map key).Nodup) (hf : ∀ x ∈ l, ∀ s : List β, s.length = n → f s x = some (s.set (key x) (val x))) (s : List β) (hs : s.length = n) :
    ∃ r, l.foldlM f s = some r ∧ r.length = n ∧ (∀ x ∈ l, r[key x]? = some (val x)) ∧ ∀ d, d ∉ l.map key → r[d]? = s[d]? := by
  induction l generalizing s with
  | nil => exact ⟨s, rfl, hs, by simp, by simp⟩
  | cons x l ih =>
    rw [List.map_cons, List.nodup_cons] at hnd
    obtain ⟨r, h1, h2, h3, h4⟩ := ih (fun x hx => hk x (by simp [hx])) hnd.2 (fun x hx => hf x (by simp [hx])) (s.set (key x) (val x)) (by simpa using hs)
    refine ⟨r, ?_, h2, ?_, ?_⟩
    · rw [List.foldlM_cons, hf x (by simp) s hs]
      exact h1
    · intro y hy
      rcases List.mem_cons.mp hy with rfl | hy
      · rw [h4 _ hnd.1, List.getElem?_set_self (by rw [hs]; exact hk y (by simp))]
      · exact h3 y hy
    · intro d hd
      rw [List.map_cons, List.mem_cons, not_or] at hd
      rw [h4 d hd.2, List.getElem?_set_ne (fun h => hd.1 h.symm)]

/-- is the degree of freedom free? -/
def Fr (free : Option (List Bool)) (d : ℕ) : Bool :=
  match free with
  | none => true
  | some f => f.getD d false

theorem isFree_eq {free : Option (List Bool)} {n d : ℕ} (hf : ∀ f, free = some f → f.length = n) (hd : d < n) : isFree free d = some (Fr free d) := by
  cases free with
  | none => rfl
  | some f =>
    have := hf f rfl
    simp [isFree, Fr, List.getD_eq_getElem?_getD, this, hd]

variable {B : Type} [Zero B]

/-- the row of a vertex -/
def vRow (one : B) (free : Option (List Bool)) (v d : ℕ) : List (ℕ × B) := [(v, if Fr free d then one else 0)]

/-- the row of the middle of an edge with the vertices `a`, `b`, whose degrees of freedom are `da`, `db` -/
def mRow (half : ℕ → ℕ → B) (free : Option (List Bool)) (vd : ℕ → ℕ) (a b : ℕ) : List (ℕ × B) :=
  [(min a b, if Fr free (vd (min a b)) then half (min a b) (max a b) else 0), (max a b, if Fr free (vd (max a b)) then half (max a b) (min a b) else 0)]

/-- vertices and middles of a list of edges -/
structure Layout (height nv : ℕ) (m : Maps) (ps : List Parent) (vd : ℕ → ℕ) : Prop where
  v2d : m.v2d = (List.range nv).map fun v => some (vd v)
  lt : ∀ v < nv, vd v < height
  inj : ∀ v < nv, ∀ w < nv, vd v = vd w → v = w
  plt : ∀ p ∈ ps, p.dof < height
  pnd : (ps.map Parent.dof).Nodup
  pv : ∀ p ∈ ps, ∀ v < nv, vd v ≠ p.dof
  pp : ∀ p ∈ ps, ∃ a b, p.v0 = some a ∧ p.v1 = some b ∧ a < nv ∧ b < nv

section
variable {height nv : ℕ} {m : Maps} {ps : List Parent} {vd : ℕ → ℕ} (h : Layout height nv m ps vd)

include h in
theorem Layout.vnd : ((List.range nv).map vd).Nodup :=
  List.Nodup.map_on (fun v hv w hw e => h.inj v (List.mem_range.mp hv) w (List.mem_range.mp hw) e) List.nodup_range

include h in
theorem perow_spec : ∃ pr, perow height m ps = some pr ∧ pr.length = height ∧ (∀ v < nv, pr[vd v]? = some 1) ∧ (∀ p ∈ ps, pr[p.dof]? = some 2) ∧
    ∀ d < height, (∀ v < nv, vd v ≠ d) → (∀ p ∈ ps, p.dof ≠ d) → pr[d]? = some 0 := by
  obtain ⟨p1, a1, a2, a3, a4⟩ := setFold (n := height) (β := ℕ)
    (f := fun (p : List ℕ) (d : Option ℕ) => d.bind fun d => if d < p.length then some (p.set d 1) else none)
    (fun d : Option ℕ => d.getD 0) (fun _ => 1) m.v2d
    (by
      rw [h.v2d]
      intro x hx
      obtain ⟨v, hv, rfl⟩ := List.mem_map.mp hx
      exact h.lt v (List.mem_range.mp hv))
    (by
      rw [h.v2d, List.map_map]
      exact h.vnd)
    (by
      rw [h.v2d]
      intro x hx s hs
      obtain ⟨v, hv, rfl⟩ := List.mem_map.mp hx
      rw [Option.bind_some, if_pos (by rw [hs]; exact h.lt v (List.mem_range.mp hv))]
      rfl)
    (List.replicate height 0) (by simp)
  obtain ⟨p2, b1, b2, b3, b4⟩ := setFold (n := height) (β := ℕ)
    (f := fun (p : List ℕ) (e : Parent) => if e.dof < p.length then some (p.set e.dof 2) else none) Parent.dof (fun _ => 2) ps h.plt h.pnd
    (fun x hx s hs => if_pos (by rw [hs]; exact h.plt x hx)) p1 a2
  have hk : m.v2d.map (fun d : Option ℕ => d.getD 0) = (List.range nv).map vd := by
    rw [h.v2d, List.map_map]
    rfl
  refine ⟨p2, ?_, b2, ?_, b3, ?_⟩
  · unfold perow
    rw [a1, Option.bind_some, b1]
  · intro v hv
    have ha := a3 (some (vd v)) (by rw [h.v2d]; exact List.mem_map.mpr ⟨v, List.mem_range.mpr hv, rfl⟩)
    rw [Option.getD_some] at ha
    rw [b4, ha]
    intro hm
    obtain ⟨p, hp, he⟩ := List.mem_map.mp hm
    exact h.pv p hp v hv he.symm
  · intro d hd hv hp
    rw [b4, a4]
    · simp [hd]
    · rw [hk]
      intro hm
      obtain ⟨v, hv', he⟩ := List.mem_map.mp hm
      exact hv v (List.mem_range.mp hv') he
    · intro hm
      obtain ⟨p, hp', he⟩ := List.mem_map.mp hm
      exact hp p hp' he

theorem zipIdx_range {α : Type*} (f : ℕ → α) (n : ℕ) : ((List.range n).map f).zipIdx = (List.range n).map fun v => (f v, v) := by
  refine List.ext_getElem? fun i => ?_
  simp only [List.getElem?_zipIdx, List.getElem?_map, Nat.zero_add, Option.map_map]
  by_cases hi : i < n
  · rw [List.getElem?_range hi]
    rfl
  · rw [List.getElem?_eq_none (by simpa using hi)]
    rfl

include h in
/-- **C112**, `BuildED`: with complete maps and distinct middles that are no vertices, the matrix has the row of the vertex at every degree of freedom of a vertex,
the row of the two given parents at every middle, and empty rows elsewhere; all rows have the announced length -/
theorem buildED_rows (one : B) (half : ℕ → ℕ → B) {free : Option (List Bool)} (hf : ∀ f, free = some f → f.length = height) :
    ∃ rows, buildED one half free height nv m ps = some rows ∧ rows.length = height ∧ (∀ v < nv, rows[vd v]? = some (vRow one free v (vd v))) ∧
      (∀ p ∈ ps, ∀ a b, p.v0 = some a → p.v1 = some b → rows[p.dof]? = some (mRow half free vd a b)) ∧
      ∀ d < height, (∀ v < nv, vd v ≠ d) → (∀ p ∈ ps, p.dof ≠ d) → rows[d]? = some [] := by
  obtain ⟨pr, p1, p2, p3, p4, p5⟩ := perow_spec h
  have hz := zipIdx_range (fun v => some (vd v)) nv
  rw [← h.v2d] at hz
  obtain ⟨r1, a1, a2, a3, a4⟩ := setFold (n := height) (f := vertRow one free)
    (fun e : Option ℕ × ℕ => e.1.getD 0) (fun e => vRow one free e.2 (e.1.getD 0)) m.v2d.zipIdx
    (by
      rw [hz]
      intro x hx
      obtain ⟨v, hv, rfl⟩ := List.mem_map.mp hx
      exact h.lt v (List.mem_range.mp hv))
    (by
      rw [hz, List.map_map]
      exact h.vnd)
    (by
      rw [hz]
      intro x hx s hs
      obtain ⟨v, hv, rfl⟩ := List.mem_map.mp hx
      have hlt := h.lt v (List.mem_range.mp hv)
      unfold vertRow
      rw [Option.bind_some, isFree_eq hf hlt, Option.bind_some, if_pos (by rw [hs]; exact hlt)]
      rfl)
    (List.replicate height []) (by simp)
  have hget : ∀ v < nv, (m.v2d[v]?).join = some (vd v) := by
    intro v hv
    rw [h.v2d, List.getElem?_map, List.getElem?_range hv]
    rfl
  obtain ⟨r2, b1, b2, b3, b4⟩ := setFold (n := height) (f := midRow half free m nv) Parent.dof
    (fun p => mRow half free vd (p.v0.getD 0) (p.v1.getD 0)) ps h.plt h.pnd
    (by
      intro p hp s hs
      obtain ⟨a, b, ha, hb, hal, hbl⟩ := h.pp p hp
      have hmin : min a b < nv := by omega
      have hmax : max a b < nv := by omega
      unfold midRow
      rw [ha, hb, Option.bind_some, Option.bind_some]
      dsimp only
      rw [if_pos ⟨hmin, hmax⟩, hget _ hmin, hget _ hmax, Option.bind_some, Option.bind_some, isFree_eq hf (h.lt _ hmin), isFree_eq hf (h.lt _ hmax),
        Option.bind_some, Option.bind_some, if_pos (by rw [hs]; exact h.plt p hp)]
      rfl) r1 a2
  have hk : m.v2d.zipIdx.map (fun e : Option ℕ × ℕ => e.1.getD 0) = (List.range nv).map vd := by
    rw [hz, List.map_map]
    rfl
  have c1 : ∀ v < nv, r2[vd v]? = some (vRow one free v (vd v)) := by
    intro v hv
    have ha := a3 (some (vd v), v) (by rw [hz]; exact List.mem_map.mpr ⟨v, List.mem_range.mpr hv, rfl⟩)
    dsimp only at ha
    rw [Option.getD_some] at ha
    rw [b4, ha]
    intro hm
    obtain ⟨p, hp, he⟩ := List.mem_map.mp hm
    exact h.pv p hp v hv he.symm
  have c2 : ∀ d < height, (∀ v < nv, vd v ≠ d) → (∀ p ∈ ps, p.dof ≠ d) → r2[d]? = some [] := by
    intro d hd hv hp
    rw [b4, a4]
    · simp [hd]
    · rw [hk]
      intro hm
      obtain ⟨v, hv', he⟩ := List.mem_map.mp hm
      exact hv v (List.mem_range.mp hv') he
    · intro hm
      obtain ⟨p, hp', he⟩ := List.mem_map.mp hm
      exact hp p hp' he
  have hlen : r2.map List.length = pr := by
    refine List.ext_getElem? fun d => ?_
    rw [List.getElem?_map]
    by_cases hd : d < height
    · by_cases hv : ∃ v < nv, vd v = d
      · obtain ⟨v, hv, rfl⟩ := hv
        rw [c1 v hv, p3 v hv]
        rfl
      · by_cases hp : ∃ p ∈ ps, p.dof = d
        · obtain ⟨p, hp, rfl⟩ := hp
          rw [b3 p hp, p4 p hp]
          rfl
        · have hv' : ∀ v < nv, vd v ≠ d := fun v hv' e => hv ⟨v, hv', e⟩
          have hp' : ∀ p ∈ ps, p.dof ≠ d := fun p hp' e => hp ⟨p, hp', e⟩
          rw [c2 d hd hv' hp', p5 d hd hv' hp']
          rfl
    · rw [List.getElem?_eq_none (by omega), List.getElem?_eq_none (by omega)]
      rfl
  refine ⟨r2, ?_, b2, c1, ?_, c2⟩
  · unfold buildED
    rw [p1, Option.bind_some, a1, Option.bind_some, b1, Option.bind_some, if_pos hlen]
  · intro p hp a b ha hb
    rw [b3 p hp, ha, hb]
    rfl

end

example : Layout 5 3 ⟨[some 0, none, some 1, none, some 2], [some 0, some 2, some 4]⟩ [⟨1, some 0, some 1⟩, ⟨3, some 1, some 2⟩] (fun v => 2 * v) :=
  ⟨by decide, fun v hv => by omega, fun v _ w _ e => by omega, by decide, by decide, by intro p hp v hv; simp at hp; rcases hp with rfl | rfl <;> dsimp only <;> omega,
    by intro p hp; simp at hp; rcases hp with rfl | rfl; exacts [⟨0, 1, rfl, rfl, by omega, by omega⟩, ⟨1, 2, rfl, rfl, by omega, by omega⟩]⟩

end NgsAMG.P2E
