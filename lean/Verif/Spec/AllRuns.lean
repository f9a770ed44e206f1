import Verif.Model.SetupLog

/-!
Specification: what holds for every order in which the operations can be carried out.
-/

namespace NgsAMG.SLog

variable {α : Type}

/-- every execution that starts in `f` is finite and ends in `g`, where nothing is possible any more -/
inductive EndsIn (J : ℕ → List ℕ → ℕ → ℕ) (g : ℕ → Prog α) : (ℕ → Prog α) → Prop
  | mk (f : ℕ → Prog α) (h0 : (f = g ∧ ¬∃ f', Step J f f') ∨ ∃ f', Step J f f') (h : ∀ f', Step J f f' → EndsIn J g f') : EndsIn J g f

/-- every execution is finite, and in the end all processes have finished, with these results -/
def AllFinish (J : ℕ → List ℕ → ℕ → ℕ) (f : ℕ → Prog α) (a : ℕ → α) : Prop := EndsIn J (fun p => .ret (a p)) f

/-- every execution comes to a state where nothing is possible, but the program of `p` is not finished -/
def AllHang (J : ℕ → List ℕ → ℕ → ℕ) (f : ℕ → Prog α) (p : ℕ) : Prop := ∃ g, EndsIn J g f ∧ ∀ a, g p ≠ .ret a

/-- the processes of a level take part in the finer ones, process zero of the finest level is the first one of all levels; no process occurs twice, and
the finest level is that of the communicator in which the processes are numbered -/
structure LevelsOK (n : ℕ) (Ls : List Level) : Prop where
  first : ∀ L, Ls.head? = some L → L.procs = List.range n
  nodup : ∀ L ∈ Ls, L.procs.Nodup
  nested : Ls.Pairwise fun L M => ∀ p ∈ M.procs, p ∈ L.procs
  zero : ∀ L ∈ Ls, L.procs.head? = some 0

/-- size of the matrix of a level: entries times size of an entry, of all processes -/
def Level.size (L : Level) : ℕ := (L.procs.map fun p => L.nze p * L.bs).sum

/-- vertex complexity of the hierarchy -/
def vertexComplexity (Ls : List Level) : ℚ := (Ls.map fun L => (L.nv : ℚ)).sum / ((Ls.map fun L => (L.nv : ℚ)).headD 0)

/-- operator complexity of the hierarchy -/
def operatorComplexity (Ls : List Level) : ℚ := (Ls.map fun L => (L.size : ℚ)).sum / ((Ls.map fun L => (L.size : ℚ)).headD 0)

/-- the levels on which process `p` takes part -/
def own (p : ℕ) (Ls : List Level) : List Level := Ls.filter fun L => decide (p ∈ L.procs)

/-- complexity of the part of process `p`: its vertices (entries of the matrix) on all levels, divided by those on the finest one, at least one -/
def localComplexity (p : ℕ) (Ls : List Level) (m : Level → ℕ) : ℚ :=
  ((own p Ls).map fun L => (m L : ℚ)).sum / max (((own p Ls).map fun L => (m L : ℚ)).headD 0) 1

/-- its components -/
def localComponents (p : ℕ) (Ls : List Level) (m : Level → ℕ) : List ℚ :=
  (own p Ls).map fun L => (m L : ℚ) / max (((own p Ls).map fun L => (m L : ℚ)).headD 0) 1

/-- nothing is written -/
def Opts.quiet (O : Opts) : Prop := O.print = false ∨ O.lev = .none

/-- the lines about the whole hierarchy -/
def globalItems (Ls : List Level) : List Item :=
  [.vComp (vertexComplexity Ls), .opComp (operatorComplexity Ls),
    .vcc (Ls.map fun L => (L.nv : ℚ) / ((Ls.map fun L => (L.nv : ℚ)).headD 0)),
    .occ (Ls.map fun L => (L.size : ℚ) / ((Ls.map fun L => (L.size : ℚ)).headD 0)),
    .nvs (Ls.map Level.nv), .nes (Ls.map Level.ne), .nps (Ls.map fun L => L.procs.length), .nzes (Ls.map fun L => (L.procs.map L.nze).sum)]

/-- the number of vertices of process `p` on a level -/
def ownVerts (p : ℕ) (L : Level) : ℕ := L.nvl p

/-- the size of the part of the matrix of process `p` -/
def ownSize (p : ℕ) (L : Level) : ℕ := L.nze p * L.bs

/-- a line about the local complexities is right: it names a process where the complexity is largest, and this complexity -/
def LocalRight (n : ℕ) (Ls : List Level) (m : ℕ → Level → ℕ) (x : ℚ) (rank : ℕ) : Prop :=
  rank < n ∧ x = localComplexity rank Ls (m rank) ∧ ∀ p < n, localComplexity p Ls (m p) ≤ x

end NgsAMG.SLog
