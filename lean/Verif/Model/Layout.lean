import Mathlib.Data.Nat.Notation
import Mathlib.Data.List.Basic

/-!
# Layout of the solver memory

Model of the workspaces of a program: `/repo/conex/workspace.h` 8-34, 73-90,
`/repo/conex/memory_utils.h` 4-12, `/repo/conex/newton_step.h` 51-78,
`/repo/conex/linear_workspace.h` 10-29, `/repo/conex/workspace_soc.h` 8-26,
`/repo/conex/psd_constraint.h` 10-31, `/repo/conex/hermitian_psd.h` 10-26,
`/repo/conex/equality_constraint.h` 10-20, `/repo/conex/quadratic_cost.cc` 10-17 and
`/repo/conex/cone_program.h` 174-189.

Offsets and sizes count doubles from the start of the buffer.  Sizes are natural numbers, so that
overflow of `int` (an order above 46340 of a matrix) and a negative iteration limit are not modelled.
-/

namespace Verif.Layout

/-- `get_size_aligned`, `/repo/conex/memory_utils.h` 4-12. -/
def alignedSize (n : Nat) : Nat :=
  let remainder := n % 4
  if remainder ≠ 0 then n + 4 - remainder else n

/-- The kinds of workspaces, with the numbers they are constructed from. -/
inductive Space where
  /-- `WorkspaceLinear(n, num_vars)` -/
  | linear (n m : Nat)
  /-- `WorkspaceSOC(n)` -/
  | soc (n : Nat)
  /-- `WorkspaceDensePSD(n)` and `WorkspaceDenseHermitian(n)`, which are laid out identically -/
  | psd (n : Nat)
  /-- `WorkspaceEqualityConstraints` and the workspace of a quadratic cost -/
  | empty
  /-- `WorkspaceSchurComplement(m)` with `residual_only_` -/
  | schur (m : Nat) (residualOnly : Bool)
  /-- `WorkspaceStats(max_iter)` -/
  | stats (maxIter : Nat)
  deriving DecidableEq, Repr

/-- The overloads of `SizeOf`. -/
def Space.size : Space → Nat
  | .linear n m => 3 * alignedSize n + alignedSize (n * m)
  | .soc n => alignedSize n + 4 * alignedSize n
  | .psd n => 3 * alignedSize (n * n)
  | .empty => 0
  | .schur m residualOnly =>
    let size := 2 * alignedSize m
    if residualOnly then size else size + alignedSize (m * m)
  | .stats maxIter => maxIter * 2 + 2

/-- A part of the buffer used under one name; `view` says that it is accessed through
`Eigen::Map<…, Eigen::Aligned>`, otherwise through a plain pointer. -/
structure Region where
  start : Nat
  len : Nat
  view : Bool
  deriving DecidableEq, Repr

/-- The overloads of `Initialize(o, data)`: the regions handed out, in the order of the source. -/
def Space.regions (data : Nat) : Space → List Region
  | .linear n m =>
    [⟨data, n * 1, true⟩, ⟨data + 1 * alignedSize n, n * 1, true⟩,
     ⟨data + 2 * alignedSize n, n * 1, true⟩, ⟨data + 3 * alignedSize n, n * m, true⟩]
  | .soc n =>
    [⟨data, n * 1, true⟩, ⟨data + alignedSize n, n * 1, true⟩,
     ⟨data + 2 * alignedSize n, n * 1, true⟩, ⟨data + 3 * alignedSize n, n * 1, true⟩,
     ⟨data + 4 * alignedSize n, 1, false⟩]
  | .psd n =>
    [⟨data, n * n, true⟩, ⟨data + 1 * alignedSize (n * n), n * n, true⟩,
     ⟨data + 2 * alignedSize (n * n), n * n, true⟩]
  | .empty => []
  | .schur m residualOnly =>
    [⟨data, m * 1, true⟩, ⟨data + 1 * alignedSize m, m * 1, true⟩] ++
      if residualOnly then [] else [⟨data + 2 * alignedSize m, m * m, true⟩]
  | .stats maxIter =>
    [⟨data, maxIter, false⟩, ⟨data + maxIter, maxIter, false⟩,
     ⟨data + 2 * maxIter, 1, false⟩, ⟨data + 2 * maxIter + 1, 1, false⟩]

/-- `SizeOf(std::vector)`, `/repo/conex/workspace.h` 8-15. -/
def sizeOf : List Space → Nat
  | [] => 0
  | w :: l => w.size + sizeOf l

/-- `Initialize(std::vector*, ptr)`, `/repo/conex/workspace.h` 27-34: the regions of each workspace. -/
def bind : List Space → Nat → List (List Region)
  | [], _ => []
  | w :: l, data => w.regions data :: bind l (data + w.size)

/-- The vector `workspaces` of `InitializeWorkspace`, `/repo/conex/cone_program.h` 175-181: for each
constraint its workspace and its linear system (`cs` holds the workspace and the number of unknowns),
then the statistics, then the residual system of `M` unknowns. -/
def workspaces (cs : List (Space × Nat)) (maxIter M : Nat) : List Space :=
  cs.flatMap (fun c => [c.1, .schur c.2 false]) ++ [.stats maxIter, .schur M true]

/-- The size of the buffer after `InitializeWorkspace`, `/repo/conex/cone_program.h` 182-185. -/
def bufferSize (old : Nat) (l : List Space) : Nat := if old < sizeOf l then sizeOf l else old

/-- The regions of a program, `/repo/conex/cone_program.h` 186. -/
def layout (cs : List (Space × Nat)) (maxIter M : Nat) : List (List Region) :=
  bind (workspaces cs maxIter M) 0

/-- Offset of the entry `sqrt_inv_mu[i]` written in iteration `i`
(`/repo/conex/cone_program.cc` 471) of a program whose statistics were allocated for `cap`
iterations: the pointer is that of `/repo/conex/workspace.h` 76. -/
def statsOffset (cs : List (Space × Nat)) (i : Nat) : Nat :=
  sizeOf (cs.flatMap fun c => [c.1, .schur c.2 false]) + i

end Verif.Layout
