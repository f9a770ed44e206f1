import Verif.Model.LevelCtrl

/-!
# Specification: the levels of one process

Only options and what a process knows of its meshes is used from the model.
-/

namespace NgsAMG.Spec
open NgsAMG.LC

/-- two processes know the same global numbers of a mesh -/
structure SameMesh (m m' : PMesh) : Prop where
  meas : m.meas = m'.meas
  nv : m.nv = m'.nv
  np : m.np = m'.np
  idle : m.idle = m'.idle

/-- a level has either no mesh (the process has dropped out), or fewer nodes than the level before (by the given factor, if there is redistribution), at least one node and at least as many as the smallest allowed coarse mesh; there is a further level only
after a level with more nodes than the largest allowed coarsest mesh, and none after dropping out -/
def LevelsOK (O : Opts) : ℕ → List (Option PMesh) → Prop
  | _, [] => True
  | _, none :: t => t = []
  | f, some c :: t => c.meas < f ∧ (O.enableRd = true → (c.meas : ℚ) < O.crsThresh * f) ∧ 0 < c.meas ∧ O.minMeas ≤ c.meas ∧ (t ≠ [] → O.maxMeas < c.meas) ∧ LevelsOK O c.meas t

/-- two processes have the same levels until one of them drops out -/
def SameLevels : List (Option PMesh) → List (Option PMesh) → Prop
  | [], [] => True
  | none :: t, none :: t' => t = [] ∧ t' = []
  | none :: t, some _ :: _ => t = []
  | some _ :: _, none :: t' => t' = []
  | some c :: t, some c' :: t' => SameMesh c c' ∧ SameLevels t t'
  | _, _ => False

/-- the number of nodes on the last level -/
def lastMeas : ℕ → List (Option PMesh) → ℕ
  | f, [] => f
  | f, none :: _ => f
  | _, some c :: t => lastMeas c.meas t

/-- a coarse mesh with `c` nodes for a mesh with `f` nodes is not used: it is not smaller, not enough smaller (with redistribution), or too small -/
def Useless (O : Opts) (f c : ℕ) : Prop := f ≤ c ∨ (O.enableRd = true ∧ O.crsThresh * f ≤ c) ∨ c = 0 ∨ c < O.minMeas

end NgsAMG.Spec
