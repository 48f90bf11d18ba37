import Mathlib.Algebra.Field.Basic

/-!
# Solver options in the library and in the C interface
-/

namespace Verif.Options

variable {R : Type}

/-- `SolverConfiguration`, `/repo/conex/cone_program.h` 17-38, in the order of the source.  Numbers of
type `double` are elements of `R`. -/
structure Library (R : Type) where
  prepare_dual_variables : Int
  initialization_mode : Int
  inv_sqrt_mu_max : R
  minimum_mu : R
  maximum_mu : R
  divergence_upper_bound : R
  enable_line_search : Int
  dinf_upper_bound : R
  final_centering_steps : Int
  final_centering_tolerance : R
  initial_centering_steps_warmstart : Int
  initial_centering_steps_coldstart : Int
  warmstart_abort_threshold : R
  max_iterations : Int
  infeasibility_threshold : R
  kkt_error_tolerance : R
  kkt_solver : Int
  enable_rescaling : Int
  iterative_refinement_iterations : Int
  deriving DecidableEq, Repr

/-- `CONEX_SolverConfiguration`, `/repo/interfaces/conex.h` 10-30, in the order of the source. -/
structure Record (R : Type) where
  prepare_dual_variables : Int
  initialization_mode : Int
  inv_sqrt_mu_max : R
  minimum_mu : R
  maximum_mu : R
  divergence_upper_bound : R
  enable_line_search : Int
  dinf_upper_bound : R
  final_centering_steps : Int
  final_centering_tolerance : R
  initial_centering_steps_warmstart : Int
  initial_centering_steps_coldstart : Int
  warmstart_abort_threshold : R
  max_iterations : Int
  iterative_refinement_iterations : Int
  infeasibility_threshold : R
  kkt_error_tolerance : R
  enable_rescaling : Int
  kkt_solver : Int
  deriving DecidableEq, Repr

/-- The default member initialisers of `SolverConfiguration`, `/repo/conex/cone_program.h` 17-38. -/
def Library.default [Field R] : Library R where
  prepare_dual_variables := 0
  initialization_mode := 0
  inv_sqrt_mu_max := 1000
  minimum_mu := 1 / 10 ^ 15
  maximum_mu := 10 ^ 4
  divergence_upper_bound := 1
  enable_line_search := 0
  dinf_upper_bound := 1
  final_centering_steps := 5
  final_centering_tolerance := 1 / 100
  initial_centering_steps_warmstart := 0
  initial_centering_steps_coldstart := 0
  warmstart_abort_threshold := 2
  max_iterations := 25
  infeasibility_threshold := 10 ^ 5
  kkt_error_tolerance := 10 ^ 10
  kkt_solver := 0
  enable_rescaling := 1
  iterative_refinement_iterations := 0

/-- `APIConvertSolverConfiguration`, `/repo/interfaces/conex.cc` 65-90: a default object whose fields
are assigned one by one. -/
def convert [Field R] (config : Record R) : Library R :=
  let c : Library R := Library.default
  let c := { c with prepare_dual_variables := config.prepare_dual_variables }
  let c := { c with initialization_mode := config.initialization_mode }
  let c := { c with inv_sqrt_mu_max := config.inv_sqrt_mu_max }
  let c := { c with minimum_mu := config.minimum_mu }
  let c := { c with maximum_mu := config.maximum_mu }
  let c := { c with divergence_upper_bound := config.divergence_upper_bound }
  let c := { c with enable_line_search := config.enable_line_search }
  let c := { c with dinf_upper_bound := config.dinf_upper_bound }
  let c := { c with final_centering_steps := config.final_centering_steps }
  let c := { c with final_centering_tolerance := config.final_centering_tolerance }
  let c := { c with initial_centering_steps_warmstart := config.initial_centering_steps_warmstart }
  let c := { c with initial_centering_steps_coldstart := config.initial_centering_steps_coldstart }
  let c := { c with warmstart_abort_threshold := config.warmstart_abort_threshold }
  let c := { c with max_iterations := config.max_iterations }
  let c := { c with iterative_refinement_iterations := config.iterative_refinement_iterations }
  let c := { c with infeasibility_threshold := config.infeasibility_threshold }
  let c := { c with kkt_error_tolerance := config.kkt_error_tolerance }
  let c := { c with enable_rescaling := config.enable_rescaling }
  let c := { c with kkt_solver := config.kkt_solver }
  c

/-- `CONEX_SetDefaultOptions`, `/repo/interfaces/conex.cc` 231-257, for a pointer to the record `c`:
`iterative_refinement_iterations` and `kkt_solver` are not assigned. -/
def setDefaultOptions [Field R] (c : Record R) : Record R :=
  let config : Library R := Library.default
  let c := { c with prepare_dual_variables := config.prepare_dual_variables }
  let c := { c with initialization_mode := config.initialization_mode }
  let c := { c with inv_sqrt_mu_max := config.inv_sqrt_mu_max }
  let c := { c with minimum_mu := config.minimum_mu }
  let c := { c with maximum_mu := config.maximum_mu }
  let c := { c with divergence_upper_bound := config.divergence_upper_bound }
  let c := { c with enable_line_search := config.enable_line_search }
  let c := { c with dinf_upper_bound := config.dinf_upper_bound }
  let c := { c with final_centering_steps := config.final_centering_steps }
  let c := { c with final_centering_tolerance := config.final_centering_tolerance }
  let c := { c with initial_centering_steps_warmstart := config.initial_centering_steps_warmstart }
  let c := { c with initial_centering_steps_coldstart := config.initial_centering_steps_coldstart }
  let c := { c with warmstart_abort_threshold := config.warmstart_abort_threshold }
  let c := { c with max_iterations := config.max_iterations }
  let c := { c with infeasibility_threshold := config.infeasibility_threshold }
  let c := { c with kkt_error_tolerance := config.kkt_error_tolerance }
  let c := { c with enable_rescaling := config.enable_rescaling }
  c

end Verif.Options
