import Mathlib.Data.Nat.Notation
import Mathlib.Data.Int.Notation

/-!
Model of `SpecOpt` and `SetEnumOpt`, `/repo/src/base/utils/SpecOpt.hpp`.
`Flags` (NGSolve) is modelled by partial lookup functions.
-/

namespace NgsAMG.Options

/-- `class SpecOpt<OC>`, SpecOpt.hpp:15-20 -/
structure SpecOpt (OC : Type*) where
  default_opt : OC
  spec_opt : List OC

variable {OC : Type*}

/-- `GetOpt(int level)`, SpecOpt.hpp:64.  `level < spec_opt.Size()` compares `int` with `size_t`, i.e. a negative
level is converted to a huge unsigned number and never smaller than the size. -/
def SpecOpt.getOpt (o : SpecOpt OC) (level : ℤ) : OC :=
  if 0 ≤ level then o.spec_opt.getD level.toNat o.default_opt else o.default_opt

/-- copy constructor, SpecOpt.hpp:26: `default_opt(default_opt)` initialises the member with itself, i.e. with
whatever (`garbage`) is in the memory of the new object. -/
def SpecOpt.copy (garbage : OC) (other : SpecOpt OC) : SpecOpt OC := ⟨garbage, other.spec_opt⟩

/-- move constructor, SpecOpt.hpp:27: new object -/
def SpecOpt.move (other : SpecOpt OC) : SpecOpt OC := ⟨other.default_opt, other.spec_opt⟩

/-- copy assignment, SpecOpt.hpp:40-45 (`SetSize` then element-wise copy) -/
def SpecOpt.assign (_this other : SpecOpt OC) : SpecOpt OC := ⟨other.default_opt, other.spec_opt⟩

/-- assignment of a value, SpecOpt.hpp:34-38 -/
def SpecOpt.assignVal (_this : SpecOpt OC) (v : OC) : SpecOpt OC := ⟨v, []⟩

/-- `operator |=` for `bool`, SpecOpt.hpp:66-76 -/
def SpecOpt.orAssign (a b : SpecOpt Bool) : SpecOpt Bool :=
  ⟨a.default_opt || b.default_opt,
   List.zipWith (· || ·) a.spec_opt b.spec_opt ++
     (a.spec_opt.drop b.spec_opt.length).map (· || b.default_opt)⟩

/-- lambda `setoc` of `SetFromFlagsEnum`, SpecOpt.hpp:49-53: `optkeys.Pos(val)` is the first position.
`enum_vals` must be at least as long as `optkeys` (`none` = out of bounds). -/
def setoc (optkeys : List String) (enum_vals : List OC) (oc : OC) (val : String) : Option OC :=
  if optkeys.idxOf val < optkeys.length then enum_vals[optkeys.idxOf val]? else some oc

/-- `SetFromFlagsEnum`, SpecOpt.hpp:47-59; `str` is the string flag (`""` if absent), `lst` the `_spec` list (empty if absent) -/
def SpecOpt.setFromFlagsEnum (o : SpecOpt OC) (optkeys : List String) (enum_vals : List OC)
    (str : String) (lst : List String) : Option (SpecOpt OC) := do
  let d ← setoc optkeys enum_vals o.default_opt str
  let s ← lst.mapM fun v => setoc optkeys enum_vals d v
  return ⟨d, s⟩

/-- `SpecOpt<bool>::SetFromFlags`, SpecOpt.hpp:88-97; `flag` is the tri-state define flag, `nz` says which list entries are `!= 0` -/
def SpecOpt.setFromFlagsBool (o : SpecOpt Bool) (flag : Option Bool) (nz : List Bool) : SpecOpt Bool :=
  ⟨if o.default_opt then !(flag == some false) else flag == some true, nz⟩

/-- `SpecOpt<double/int/string>::SetFromFlags`, SpecOpt.hpp:109-139 -/
def SpecOpt.setFromFlagsVal (o : SpecOpt OC) (flag : Option OC) (lst : List OC) : SpecOpt OC :=
  ⟨flag.getD o.default_opt, lst⟩

/-- `SetEnumOpt (flags, opt, key, vals, evals)`, SpecOpt.hpp:141-148 -/
def setEnumOpt (opt : OC) (val : String) : List String → List OC → Option OC
  | [], _ => some opt
  | v :: vs, es =>
    if val = v then es.head? else setEnumOpt opt val vs es.tail

/-- `SetEnumOpt (flags, opt, key, vals, evals, default_val)`, SpecOpt.hpp:150-158 -/
def setEnumOptDef (_opt : OC) (val : String) (default_val : OC) (vs : List String) (es : List OC) : Option OC :=
  setEnumOpt default_val val vs es

end NgsAMG.Options
