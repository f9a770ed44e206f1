import Verif.Model.Options
import Mathlib.Data.List.Basic
import Mathlib.Algebra.Order.Group.Int

/-! C08, C09: per-level options. -/

namespace NgsAMG.Options

variable {OC : Type*}

/-- **C08 (lookup).** The value listed for the level if there is one, the default otherwise. -/
theorem getOpt_correct (o : SpecOpt OC) (level : ℤ) :
    (∀ l : ℕ, level = l → ∀ v, o.spec_opt[l]? = some v → o.getOpt level = v) ∧
    ((level < 0 ∨ o.spec_opt.length ≤ level) → o.getOpt level = o.default_opt) := by
  constructor
  · rintro l rfl v hv
    simp [SpecOpt.getOpt, List.getD, hv]
  · rintro (h | h)
    · simp [SpecOpt.getOpt, not_le.2 h]
    · have h0 : 0 ≤ level := le_trans (by omega) h
      have : o.spec_opt[level.toNat]? = none := by
        rw [List.getElem?_eq_none_iff]; omega
      simp [SpecOpt.getOpt, h0, List.getD, this]

example : (SpecOpt.mk 7 [1, 2]).getOpt 1 = 2 ∧ (SpecOpt.mk 7 [1, 2]).getOpt 2 = 7 ∧
    (SpecOpt.mk 7 [1, 2]).getOpt (-1) = 7 := by decide

/-- **C08 (moving and assigning).** Moving and assigning do not change the answer at any level. -/
theorem move_assign_getOpt (o this : SpecOpt OC) (level : ℤ) :
    o.move.getOpt level = o.getOpt level ∧ (this.assign o).getOpt level = o.getOpt level := ⟨rfl, rfl⟩

/-- **C08 (copying), partial.** A copy-constructed object answers correctly only at the listed levels. Missing:
all other levels (the default value is not copied). -/
theorem copy_getOpt_partial (o : SpecOpt OC) (garbage : OC) (l : ℕ) (h : l < o.spec_opt.length) :
    (o.copy garbage).getOpt l = o.getOpt l := by
  simp [SpecOpt.getOpt, SpecOpt.copy, List.getD, List.getElem?_eq_getElem h]

/-- **C08 (copying) fails.** Behind the listed levels, a copy-constructed object returns the uninitialised memory:
for every option, every level behind the list, and any value other than the default there is a memory content such
that the copy answers wrongly. -/
theorem copy_getOpt_wrong (o : SpecOpt OC) (level : ℤ) (h : o.spec_opt.length ≤ level) (w : OC)
    (hw : w ≠ o.default_opt) : ∃ garbage, (o.copy garbage).getOpt level ≠ o.getOpt level := by
  refine ⟨w, ?_⟩
  rw [(getOpt_correct (o.copy w) level).2 (Or.inr h), (getOpt_correct o level).2 (Or.inr h)]
  exact hw

/-- the property C08 as a whole is false of the code -/
theorem copy_not_correct : ¬ ∀ (o : SpecOpt Bool) (garbage : Bool) (level : ℤ),
    (o.copy garbage).getOpt level = o.getOpt level := by
  intro h
  exact absurd (h ⟨true, []⟩ false 0) (by decide)

/-- **C09, partial.** `|=` is the level-wise disjunction at each level that is listed in the left operand, or is not
listed in the right one. Missing: levels listed only on the right. -/
theorem orAssign_getOpt_partial (a b : SpecOpt Bool) (l : ℕ)
    (h : l < a.spec_opt.length ∨ b.spec_opt.length ≤ l) :
    (a.orAssign b).getOpt l = (a.getOpt l || b.getOpt l) := by
  have hz : ∀ (as bs : List Bool) (l : ℕ), (l < as.length ∨ bs.length ≤ l) →
      ∀ da db : Bool, (List.zipWith (· || ·) as bs ++ (as.drop bs.length).map (· || db)).getD l (da || db) =
        (as.getD l da || bs.getD l db) := by
    intro as
    induction as with
    | nil =>
      intro bs l h da db
      simp only [List.length_nil, Nat.not_lt_zero, false_or] at h
      simp [List.getD, List.getElem?_eq_none_iff.2 h]
    | cons x as ih =>
      intro bs l h da db
      rcases bs with _ | ⟨y, bs⟩
      · rcases l with _ | l
        · simp
        · have := ih [] l (by simp) da db
          simpa using this
      · rcases l with _ | l
        · simp
        · have := ih bs l (by simpa using h) da db
          simpa using this
  simp only [SpecOpt.getOpt, Int.natCast_nonneg, if_true, Int.toNat_natCast, SpecOpt.orAssign]
  exact hz _ _ l h _ _

/-- **C09 fails** for levels that are listed only in the right operand: there the right operand's value is ignored. -/
theorem orAssign_not_correct : ¬ ∀ (a b : SpecOpt Bool) (l : ℕ),
    (a.orAssign b).getOpt l = (a.getOpt l || b.getOpt l) := by
  intro h
  exact absurd (h ⟨false, []⟩ ⟨false, [true]⟩ 0) (by decide)

/-- negative levels are defaults, so the disjunction holds there -/
theorem orAssign_getOpt_neg (a b : SpecOpt Bool) (l : ℤ) (h : l < 0) :
    (a.orAssign b).getOpt l = (a.getOpt l || b.getOpt l) := by
  simp [SpecOpt.getOpt, not_le.2 h, SpecOpt.orAssign]

/-- **C08 (from flags).** Enum options read from flags: with a value for each keyword there is no out-of-bounds read;
a known keyword selects its value, anything else keeps the default; a level list entry is its keyword's value
or the (new) default, and levels behind the list use the default. -/
theorem setFromFlagsEnum_correct (o : SpecOpt OC) (keys : List String) (vals : List OC) (hlen : keys.length = vals.length)
    (str : String) (lst : List String) :
    ∃ o', o.setFromFlagsEnum keys vals str lst = some o' ∧
      (str ∉ keys → o'.default_opt = o.default_opt) ∧
      (∀ i, keys.idxOf str = i → ∀ v, vals[i]? = some v → o'.default_opt = v) ∧
      o'.spec_opt.length = lst.length ∧
      (∀ (l : ℕ) s, lst[l]? = some s → s ∉ keys → o'.getOpt l = o'.default_opt) ∧
      (∀ (l : ℕ) s v, lst[l]? = some s → vals[keys.idxOf s]? = some v → o'.getOpt l = v) := by
  have hset : ∀ (d : OC) (s : String), ∃ r, setoc keys vals d s = some r ∧ (s ∉ keys → r = d) ∧
      (∀ v, vals[keys.idxOf s]? = some v → r = v) := by
    intro d s
    unfold setoc
    by_cases hs : s ∈ keys
    · have h1 : keys.idxOf s < keys.length := List.idxOf_lt_length_of_mem hs
      have h2 : keys.idxOf s < vals.length := by omega
      refine ⟨vals[keys.idxOf s], ?_, fun h => absurd hs h, ?_⟩
      · rw [if_pos h1, List.getElem?_eq_getElem h2]
      · intro v hv; rw [List.getElem?_eq_getElem h2] at hv; simpa using hv
    · have h1 : keys.idxOf s = keys.length := List.idxOf_eq_length hs
      refine ⟨d, ?_, fun _ => rfl, ?_⟩
      · rw [if_neg (by omega)]
      · intro v hv
        rw [h1, hlen, List.getElem?_eq_none_iff.2 le_rfl] at hv; simp at hv
  obtain ⟨d, hd, hd1, hd2⟩ := hset o.default_opt str
  have hm : ∀ lst : List String, ∃ ss, lst.mapM (fun v => setoc keys vals d v) = some ss ∧ ss.length = lst.length ∧
      ∀ (l : ℕ) s, lst[l]? = some s → ∃ r, ss[l]? = some r ∧ (s ∉ keys → r = d) ∧
        (∀ v, vals[keys.idxOf s]? = some v → r = v) := by
    intro lst
    induction lst with
    | nil => exact ⟨[], rfl, rfl, by simp⟩
    | cons x lst ih =>
      obtain ⟨ss, h1, h2, h3⟩ := ih
      obtain ⟨r, hr, hr1, hr2⟩ := hset d x
      refine ⟨r :: ss, by simp [List.mapM_cons, hr, h1], by simp [h2], ?_⟩
      intro l s hs
      rcases l with _ | l
      · simp at hs; subst hs; exact ⟨r, rfl, hr1, hr2⟩
      · exact h3 l s (by simpa using hs)
  obtain ⟨ss, h1, h2, h3⟩ := hm lst
  refine ⟨⟨d, ss⟩, ?_, hd1, ?_, h2, ?_, ?_⟩
  · unfold SpecOpt.setFromFlagsEnum
    rw [hd]
    simp only [Option.bind_eq_bind, Option.bind_some]
    rw [h1]; rfl
  · rintro i rfl v hv; exact hd2 v hv
  · intro l s hs hk
    obtain ⟨r, hr, hr1, -⟩ := h3 l s hs
    rw [(getOpt_correct _ _).1 l rfl r hr]; exact hr1 hk
  · intro l s v hs hv
    obtain ⟨r, hr, -, hr2⟩ := h3 l s hs
    rw [(getOpt_correct _ _).1 l rfl r hr]; exact hr2 v hv

example : ((SpecOpt.mk 0 []).setFromFlagsEnum ["mis", "spw"] [1, 2] "spw" ["mis", "??"]).map (·.spec_opt) =
    some [1, 2] := by decide

/-- **C08 (boolean flag).** An absent flag keeps the default; a present one wins. -/
theorem setFromFlagsBool_correct (o : SpecOpt Bool) (flag : Option Bool) (nz : List Bool) :
    (o.setFromFlagsBool flag nz).default_opt = flag.getD o.default_opt ∧
    (o.setFromFlagsBool flag nz).spec_opt = nz := by
  constructor
  · unfold SpecOpt.setFromFlagsBool
    rcases o with ⟨_ | _, _⟩ <;> rcases flag with _ | _ | _ <;> rfl
  · rfl

/-- **C08 (enum option).** The first matching keyword determines the option, otherwise it is unchanged. -/
theorem setEnumOpt_correct (opt : OC) (val : String) (keys : List String) (vals : List OC)
    (hlen : keys.length = vals.length) :
    (val ∉ keys → setEnumOpt opt val keys vals = some opt) ∧
    (val ∈ keys → setEnumOpt opt val keys vals = vals[keys.idxOf val]?) := by
  induction keys generalizing vals with
  | nil => simp [setEnumOpt]
  | cons k ks ih =>
    rcases vals with _ | ⟨v, vs⟩
    · simp at hlen
    · obtain ⟨h1, h2⟩ := ih vs (by simpa using hlen)
      by_cases hk : val = k
      · subst hk; simp [setEnumOpt]
      · have hk' : k ≠ val := Ne.symm hk
        constructor
        · intro h
          rw [List.mem_cons, not_or] at h
          simp [setEnumOpt, hk, h1 h.2]
        · intro h
          rcases List.mem_cons.1 h with h | h
          · exact absurd h hk
          · simp [setEnumOpt, hk, h2 h, List.idxOf_cons_ne _ hk']

end NgsAMG.Options
