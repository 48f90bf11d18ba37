import Verif.Model.BlockFactor

/-!
# Model of `Factor` and `SolveInPlace` (conex/kkt_solver.cc)

The dense factorisations of Eigen are parameters: `llt` (used by the block Cholesky factorisation)
and `qr`, where `qr N K b` stands for `ColPivHouseholderQR(K).solve(b)`.
-/

namespace Verif.Sup

open Finset

variable {R : Type} [Field R] [LinearOrder R]

/-- What the last call of `Factor` left behind (`mat`, `factorization`, `use_cholesky_`, `qr_decomp_`,
kkt_solver.h 49-66). -/
inductive Fact (R : Type) where
  | chol (S : Store R)
  | ldlt (F : LdltStore R)
  | qr (K : Nat → Nat → R)

/-- The members of `SupernodalKKTSolver` that factorisation and solve use. `saved` is `kkt_matrix_`;
`none` stands for the empty matrix it is at first. -/
structure Solver (R : Type) where
  k : Kkt
  w : Workspace
  mat : Store R
  useQr : Bool
  iters : Nat
  saved : Option (Nat → Nat → R)
  fact : Option (Fact R)

/-- `KKTMatrix` (kkt_solver.cc 265-269) as a dense matrix. All its entries are defined (C17, C18). -/
def Solver.dense (s : Solver R) : Nat → Nat → R := fun u v =>
  ((kktMatrix s.k s.w s.mat u v).toOption).getD 0

/-- kkt_solver.cc 173-177: a dense copy is kept for iterative refinement and for the QR variant. -/
def Solver.save (s : Solver R) : Solver R :=
  if 0 < s.iters ∨ s.useQr = true then { s with saved := some s.dense } else s

/-- kkt_solver.cc 179-198. -/
def Solver.factorCore (llt : Nat → (Nat → Nat → R) → Option (Nat → Nat → R)) (s : Solver R) :
    Outcome (Option (Solver R)) :=
  if s.useQr then
    match s.saved with
    | some K => .ok (some { s with fact := some (.qr K) })
    | none => .ub
  else if s.k.duals.all (fun d => d.length = 0) then
    (blockCholesky llt s.w s.mat).bind fun o =>
    match o with
    | none => .ok none
    | some S => .ok (some { s with mat := S, fact := some (.chol S) })
  else
    (blockLdlt s.w s.mat).bind fun F =>
    .ok (some { s with mat := F.S, fact := some (.ldlt F) })

/-- `Factor` (kkt_solver.cc 172-199). `none`: it returned `false` (only the Cholesky variant does; the
matrix then has unspecified contents). -/
def Solver.factor (llt : Nat → (Nat → Nat → R) → Option (Nat → Nat → R)) (s : Solver R) :
    Outcome (Option (Solver R)) := s.save.factorCore llt

/-- `Pt^T * b`: entry `i` is entry `pt[i]` of `b`. -/
def permute (k : Kkt) (b : Nat → R) : Nat → R := fun i => b (k.pt.getD i 0)

/-- `Pt * y`: entry `pt[i]` is entry `i` of `y`. -/
def unpermute (k : Kkt) (y : Nat → R) : Nat → R := fun u => y (k.pt.idxOf u)

/-- The two substitutions for a permuted right-hand side (kkt_solver.cc 239-245). -/
def Fact.apply (qr : Nat → (Nat → Nat → R) → (Nat → R) → Nat → R) (w : Workspace) :
    Fact R → (Nat → R) → Nat → R
  | .chol S, b => solveCholesky w S b
  | .ldlt F, b => solveLdlt w F b
  | .qr K, b => qr w.N K b

/-- One pass of the refinement loop (kkt_solver.cc 248-261). -/
def refineStep (k : Kkt) (K : Nat → Nat → R) (apply : (Nat → R) → Nat → R) (b y : Nat → R) : Nat → R :=
  let residual := fun u => b u - ∑ v ∈ range k.data.N, K u v * y v
  let temp := unpermute k (apply (permute k residual))
  fun u => y u + temp u

/-- The refinement loop (kkt_solver.cc 248-261). -/
def refine (k : Kkt) (K : Nat → Nat → R) (apply : (Nat → R) → Nat → R) (b : Nat → R) :
    Nat → (Nat → R) → Nat → R
  | 0, y => y
  | n + 1, y => refine k K apply b n (refineStep k K apply b y)

/-- `SolveInPlace` (kkt_solver.cc 220-263) for a right-hand side with one column and `rows` rows.
Undefined: no factorisation, an index of `Pt` out of range, or refinement without a saved matrix (the
number of iterations was raised after `Factor`). -/
def Solver.solveInPlace (qr : Nat → (Nat → Nat → R) → (Nat → R) → Nat → R) (s : Solver R) (rows : Nat)
    (b : Nat → R) : Outcome (Nat → R) :=
  if rows ≠ s.k.data.N then .throws
  else
    match s.fact with
    | none => .ub
    | some (.qr K) => .ok (qr s.w.N K b)
    | some f =>
      if ¬ s.k.pt.all (fun v => decide (v < s.k.data.N)) then .ub
      else
        let x := unpermute s.k (f.apply qr s.w (permute s.k b))
        match s.iters, s.saved with
        | 0, _ => .ok x
        | _ + 1, none => .ub
        | n + 1, some K => .ok (refine s.k K (f.apply qr s.w) b (n + 1) x)

/-- `Solve` (kkt_solver.cc 201-218), which does not refine; `rows` is the number of rows of `b`, and the assertion on
it counts as undefined. -/
def Solver.solve (qr : Nat → (Nat → Nat → R) → (Nat → R) → Nat → R) (s : Solver R) (rows : Nat)
    (b : Nat → R) : Outcome (Nat → R) :=
  if rows ≠ s.k.data.N then .ub
  else
    match s.fact with
    | none => .ub
    | some (.qr K) => .ok (qr s.w.N K b)
    | some f =>
      if ¬ s.k.pt.all (fun v => decide (v < s.k.data.N)) then .ub
      else .ok (unpermute s.k (f.apply qr s.w (permute s.k b)))

end Verif.Sup
