# Formal model of NgsAMG in Lean 4 — design

(This file is put together by `tools/design.py` from `tools/design_head.md`, `tools/design_rows.py`, the comments of the model and `#print axioms`.)

## Trusted base
* Lean 4.33.0 kernel, Mathlib as installed. No own axioms, nothing that rests on compiled code. The axioms each theorem depends on
  are at most `propext`, `Classical.choice`, `Quot.sound`; section "Axioms" lists them.
* The transcription from C++ to Lean, done by hand. Every definition cites file and lines.
* The meaning given to what is not in the repository (see "General modelling decisions"): NGSolve classes, MPI, mutex / condition variable, LAPACK.

## General modelling decisions
* **Numbers.** `double` is modelled by an exact field / ring (`ℝ`, or a generic ring where nothing more is used).
  Rounding, NaN and overflow of doubles are not modelled. Index types (`int`, `size_t`) are `ℕ`/`ℤ` unless
  wrap-around is the point (sentinels such as `size_t(-1)` and the `int` overflow in `merge_arrays` are modelled).
* **Blocks.** `Mat<N,N>` entries are `Matrix (Fin k) (Fin k) ℝ`; the block size is a variable of the theorems.
* **Memory.** Arrays are lists / functions; out-of-range access is an explicit `none` outcome where the code's
  index arithmetic could leave the array, and the theorems show that it does not happen (or exhibit when it does).
  Uninitialised memory is a universally quantified function.
* **Loops** are structural or well-founded recursion over the loop state; `while` loops keep their loop variables.
* **MPI.** A family of local states indexed by rank and a transition system: a process advances by one send, receive or local phase at
  a time, messages of one pair with one tag do not overtake, receives block. Theorems quantify over every reachable state or every complete
  run (`Reach`, `Final`), and show that no run gets stuck (`no_deadlock`) and that all runs end (`terminates`) (`Model/Exchange`, `Model/Exchange2`).
* **Shared memory.** Tasks are lists of reads and writes of single vector entries; a parallel loop is any interleaving of its tasks (`Lib/Interleave`).
  The thread of `BackgroundMPIThread` is an interleaving transition system with spurious wakeups.
* **NGSolve** (`SparseMatrix`, `BaseVector`, `ParallelDofs`, `BitArray`, `ComputeColoring`, `QuickSort`) is not part of the repository; the used
  operations are given their documented meaning. An unstable sort is any sorted permutation.
* **Dense inverses** (LAPACK, `CalcInverse`, pseudo inverse) are parameters with the mathematical contract stated as hypothesis.
* If the code violates the property, the negation is proved on a concrete reachable witness, and the
  maximal true part is proved with suffix `_partial`.

## Layout
* `lean/Verif/Model/*.lean`  – model of the code, cites `/repo` lines.
* `lean/Verif/Spec/*.lean`   – small independent specifications (no model helpers): dense Gauss-Seidel, block Gauss-Seidel, multigrid recursion,
  rigid motions, energy of auxiliary problems, transfer operators, contract of smoothers.
* `lean/Verif/Lib/*.lean`    – theory without reference to the code (sweeps of projections, interleavings).
* `lean/Verif/Props/*.lean`  – property theorems, each with non-vacuity examples. A number after the name continues a file.
* `tools/props.py`, `tools/props_more.py` – write properties.jsonl; `tools/manifest.py`, `tools/manifest_more.py` – write MANIFEST.json;
  `tools/design.py` – writes this file; `tools/seed.py` – applies wrong edits to the model in a scratch copy, rebuilds, appends to `seeded/LOG.jsonl`.

## Not modelled
Python bindings, file output, timers, TAU profiling, memory allocation failure, floating point rounding,
GPU/SIMD specifics, LAPACK (given by its mathematical contract where used), NGSolve internals, and the
finite-element parts (integrators) of the h1/elasticity/stokes front ends. Of the coarsening, MIS aggregation and the plate test are not modelled.
