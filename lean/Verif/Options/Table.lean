import Mathlib.Data.Rat.Defs
import Mathlib.Algebra.Order.Field.Rat
import Mathlib.Data.Rat.Cast.Order

/-!
# The option registry (`src/Utils/hiopOptions.cpp`)

The options, their types, ranges and defaults, exactly as registered.  Doubles are rationals; a double that
is not a number is `none`.  Infinite doubles lie outside every registered interval, exactly like a rational
beyond its end points, so they need no separate value.
-/

namespace Hiop.Options

/-- `hiopOptions::OptionNum`, `OptionInt`, `OptionStr`: value and range
(`src/Utils/hiopOptions.hpp:155-184`).  An empty list of strings is "no restriction". -/
inductive Opt
  | num (val : Option ℚ) (lb ub : ℚ)
  | int (val lb ub : ℤ)
  | str (val : String) (range : List String)
  deriving DecidableEq

/-- The preprocessor flags the registry and the consistency rules depend on
(`HIOP_USE_CUDA`, `_HIP`, `_EIGEN`, `_RAJA`, `_GPU`, `_AXOM`, `_GINKGO`,
`src/Utils/hiopOptions.cpp:972-974, 1210-1214, 1249-1257, 1276-1284, 1414-1590`). -/
structure Build where
  cuda : Bool
  hip : Bool
  eigen : Bool
  raja : Bool
  gpu : Bool
  axom : Bool
  ginkgo : Bool

/-- The memory spaces a build knows (`src/Utils/hiopOptions.cpp:1210-1214, 1624-1633`). -/
def memSpaces (b : Build) : List String :=
  if b.raja then ["default", "host", "device", "um"] else ["default"]

/-- Ranges of `mem_backend` and `exec_policies`, grown by `push_back` under the build flags
(`src/Utils/hiopOptions.cpp:1248-1257, 1275-1284`). -/
def backends (b : Build) (base rj : String) : List String :=
  ["auto", base] ++ (if b.raja then [rj] else []) ++ (if b.cuda then ["cuda"] else []) ++
    (if b.hip then ["hip"] else [])

/-- The permutations of the sparse Cholesky solver (`src/Utils/hiopOptions.cpp:970`). -/
def orderings : List String :=
  ["metis", "symamd-cuda", "symamd-eigen", "symrcm", "amd-ssparse", "colamd-ssparse"]

/-- Default of `linear_solver_sparse_ordering` (`src/Utils/hiopOptions.cpp:971-974`). -/
def orderingDflt (b : Build) : String := if b.eigen then "symamd-eigen" else "symamd-cuda"

/-- `hiopOptionsNLP::register_options` (`src/Utils/hiopOptions.cpp:563-1310`); the number in front of each
entry is the line of its `register_*_option` call. -/
def nlpTable (b : Build) : List (String × Opt) :=
  [ /- 566 -/ ("mu0", .num (some (1)) (1 / 10 ^ 16) (1000)),
    /- 567 -/ ("kappa_mu", .num (some (1 / 5)) (1 / 10 ^ 8) (999 / 1000)),
    /- 572 -/ ("theta_mu", .num (some (3 / 2)) (1) (2)),
    /- 577 -/ ("eta_phi", .num (some (1 / 10 ^ 8)) (0) (1 / 100)),
    /- 578 -/ ("tolerance", .num (some (1 / 10 ^ 8)) (1 / 10 ^ 14) (1 / 10)),
    /- 580 -/ ("cons_tol", .num (some (1 / 10 ^ 4)) (1 / 10 ^ 16) (10 ^ 10)),
    /- 586 -/ ("dual_tol", .num (some (1)) (1 / 10 ^ 16) (10 ^ 10)),
    /- 592 -/ ("comp_tol", .num (some (1 / 10 ^ 4)) (1 / 10 ^ 16) (10 ^ 10)),
    /- 598 -/ ("rel_tolerance", .num (some (0)) (0) (1 / 10)),
    /- 604 -/ ("tau_min", .num (some (99 / 100)) (9 / 10) (99999 / 10 ^ 5)),
    /- 610 -/ ("kappa_eps", .num (some (10)) (1 / 10 ^ 6) (1000)),
    /- 611 -/ ("kappa1", .num (some (1 / 100)) (1 / 10 ^ 16) (1)),
    /- 616 -/ ("kappa2", .num (some (1 / 100)) (1 / 10 ^ 16) (49999 / 10 ^ 5)),
    /- 621 -/ ("smax", .num (some (100)) (1) (10 ^ 7)),
    /- 634 -/ ("duals_update_type", .str "lsq" ["lsq", "linear"]),
    /- 641 -/ ("recalc_lsq_duals_tol", .num (some (1 / 10 ^ 6)) (0) (10 ^ 10)),
    /- 651 -/ ("duals_init", .str "lsq" ["lsq", "zero"]),
    /- 653 -/ ("duals_lsq_ini_max", .num (some (1000)) (1 / 10 ^ 16) (10 ^ 10)),
    /- 662 -/ ("max_iter", .int 3000 (1) (10 ^ 6)),
    /- 664 -/ ("acceptable_tolerance", .num (some (1 / 10 ^ 6)) (1 / 10 ^ 14) (1 / 10)),
    /- 670 -/ ("acceptable_iterations", .int 10 (1) (10 ^ 6)),
    /- 675 -/ ("sigma0", .num (some (1)) (0) (10 ^ 7)),
    /- 683 -/ ("accept_every_trial_step", .str "no" ["no", "yes"]),
    /- 685 -/ ("min_step_size", .num (some (1 / 10 ^ 16)) (0) (10 ^ 6)),
    /- 695 -/ ("moving_lim_abs", .num (some (0)) (0) (10 ^ 8)),
    /- 699 -/ ("moving_lim_rel", .num (some (0)) (0) (1)),
    /- 701 -/ ("theta_max_fact", .num (some (10 ^ 4)) (0) (10 ^ 7)),
    /- 708 -/ ("theta_min_fact", .num (some (1 / 10 ^ 4)) (0) (10 ^ 7)),
    /- 719 -/ ("sigma_update_strategy", .str "sty" ["sigma0", "sty", "sty_inv", "snrm_ynrm", "sty_srnm_ynrm"]),
    /- 724 -/ ("secant_memory_len", .int 6 (0) (256)),
    /- 726 -/ ("verbosity_level", .int 3 (0) (12)),
    /- 732 -/ ("fixed_var", .str "none" ["remove", "relax", "none"]),
    /- 739 -/ ("fixed_var_tolerance", .num (some (1 / 10 ^ 15)) (1 / 10 ^ 30) (1 / 100)),
    /- 745 -/ ("fixed_var_perturb", .num (some (1 / 10 ^ 8)) (1 / 10 ^ 14) (1 / 10)),
    /- 757 -/ ("warm_start", .str "no" ["no", "yes"]),
    /- 766 -/ ("scaling_type", .str "gradient" ["none", "gradient"]),
    /- 773 -/ ("scaling_max_grad", .num (some (100)) (1 / 10 ^ 20) (10 ^ 20)),
    /- 780 -/ ("scaling_max_obj_grad", .num (some (0)) (0) (10 ^ 20)),
    /- 788 -/ ("scaling_max_con_grad", .num (some (0)) (0) (10 ^ 20)),
    /- 796 -/ ("scaling_min_grad", .num (some (1 / 10 ^ 8)) (0) (10 ^ 20)),
    /- 806 -/ ("ir_outer_tol_factor", .num (some (1 / 100)) (1 / 10 ^ 20) (1)),
    /- 813 -/ ("ir_outer_tol_min", .num (some (1 / 10 ^ 6)) (1 / 10 ^ 20) (10 ^ 20)),
    /- 820 -/ ("ir_outer_maxit", .int 8 (0) (100)),
    /- 830 -/ ("bound_relax_perturb", .num (some (1 / 10 ^ 8)) (0) (10 ^ 20)),
    /- 836 -/ ("eq_relax_factor", .num (some (1 / 10 ^ 8)) (1 / 10 ^ 15) (1)),
    /- 847 -/ ("max_soc_iter", .int 4 (0) (10 ^ 6)),
    /- 849 -/ ("kappa_soc", .num (some (99 / 100)) (0) (10 ^ 20)),
    /- 855 -/ ("options_file_fr_prob", .str "hiop_fr.options" []),
    /- 859 -/ ("kappa_resto", .num (some (9 / 10)) (0) (1)),
    /- 866 -/ ("force_resto", .str "no" ["no", "yes"]),
    /- 872 -/ ("Hessian", .str "quasinewton_approx" ["quasinewton_approx", "analytical_exact"]),
    /- 881 -/ ("KKTLinsys", .str "auto" ["auto", "xycyd", "xdycyd", "full", "condensed", "normaleqn"]),
    /- 913 -/ ("linear_solver_sparse", .str "auto"
      ["auto", "ma57", "pardiso", "strumpack", "resolve", "ginkgo", "cusolver-chol"]),
    /- 927 -/ ("duals_init_linear_solver_sparse", .str "auto"
      ["auto", "ma57", "pardiso", "resolve", "strumpack", "ginkgo"]),
    /- 939 -/ ("ginkgo_exec", .str "reference" ["cuda", "hip", "reference"]),
    /- 952 -/ ("ginkgo_trisolve", .str "syncfree" ["syncfree", "sparselib"]),
    /- 975 -/ ("linear_solver_sparse_ordering", .str (orderingDflt b) orderings),
    /- 988 -/ ("resolve_factorization", .str "klu" ["klu"]),
    /- 998 -/ ("resolve_refactorization", .str "glu" ["glu", "rf"]),
    /- 1005 -/ ("ir_inner_restart", .int 20 (1) (100)),
    /- 1011 -/ ("ir_inner_tol", .num (some (1 / 10 ^ 12)) (1 / 10 ^ 16) (1 / 10)),
    /- 1017 -/ ("ir_inner_tol_min", .num (some (1 / 10 ^ 6)) (1 / 10 ^ 16) (1 / 10)),
    /- 1022 -/ ("ir_inner_conv_cond", .int 0 (0) (2)),
    /- 1027 -/ ("ir_inner_tol_factor", .num (some (1 / 100)) (1 / 10 ^ 20) (1)),
    /- 1033 -/ ("ir_inner_maxit", .int 50 (0) (1000)),
    /- 1042 -/ ("ir_inner_gs_scheme", .str "mgs" ["mgs", "cgs2", "mgs_two_synch", "mgs_pm"]),
    /- 1055 -/ ("linsol_mode", .str "stable" ["stable", "speculative", "forcequick"]),
    /- 1063 -/ ("fact_acceptor", .str "inertia_correction" ["inertia_correction", "inertia_free"]),
    /- 1068 -/ ("neg_curv_test_fact", .num (some (1 / 10 ^ 11)) (0) (10 ^ 20)),
    /- 1080 -/ ("delta_w_min_bar", .num (some (1 / 10 ^ 20)) (0) (1000)),
    /- 1085 -/ ("delta_w_max_bar", .num (some (10 ^ 20)) (1 / 10 ^ 40) (10 ^ 40)),
    /- 1090 -/ ("delta_0_bar", .num (some (1 / 10 ^ 4)) (0) (10 ^ 40)),
    /- 1095 -/ ("kappa_w_minus", .num (some (1 / 3)) (1 / 10 ^ 20) (1 - 1 / 10 ^ 20)),
    /- 1099 -/ ("kappa_w_plus", .num (some (8)) (1 + 1 / 10 ^ 20) (10 ^ 40)),
    /- 1105 -/ ("kappa_w_plus_bar", .num (some (100)) (1 + 1 / 10 ^ 20) (10 ^ 40)),
    /- 1112 -/ ("delta_c_bar", .num (some (1 / 10 ^ 8)) (1 / 10 ^ 20) (10 ^ 40)),
    /- 1118 -/ ("kappa_c", .num (some (1 / 4)) (0) (10 ^ 40)),
    /- 1126 -/ ("normaleqn_regularization_priority", .str "dual_first" ["primal_first", "dual_first"]),
    /- 1135 -/ ("regularization_method", .str "scalar" ["scalar", "randomized"]),
    /- 1148 -/ ("time_kkt", .str "off" ["on", "off"]),
    /- 1158 -/ ("elastic_mode", .str "none" ["none", "tighten_bound", "correct_it", "correct_it_adjust_bound"]),
    /- 1168 -/ ("elastic_bound_strategy", .str "mu_projected" ["mu_projected", "mu_scaled"]),
    /- 1176 -/ ("elastic_mode_bound_relax_initial", .num (some (1 / 100)) (1 / 10 ^ 8) (1 / 10)),
    /- 1185 -/ ("elastic_mode_bound_relax_final", .num (some (1 / 10 ^ 12)) (1 / 10 ^ 16) (1 / 10)),
    /- 1198 -/ ("write_kkt", .str "no" ["no", "yes"]),
    /- 1202 -/ ("print_options", .str "no" ["yes", "no", "short"]),
    /- 1215 -/ ("mem_space", .str "default" (memSpaces b)),
    /- 1222 -/ ("callback_mem_space", .str "default" (memSpaces b)),
    /- 1232 -/ ("compute_mode", .str "auto" ["auto", "cpu", "hybrid", "gpu"]),
    /- 1259 -/ ("mem_backend", .str "auto" (backends b "stdcpp" "umpire")),
    /- 1286 -/ ("exec_policies", .str "auto" (backends b "seq" "raja")),
    /- 1298 -/ ("checkpoint_save", .str "no" ["yes", "no"]),
    /- 1301 -/ ("checkpoint_save_every_N_iter", .int 10 (1) (10 ^ 6)),
    /- 1304 -/ ("checkpoint_file", .str "hiop_state_chk" []),
    /- 1308 -/ ("checkpoint_load_on_start", .str "no" ["yes", "no"]) ]

/-- `hiopOptionsPriDec::register_options` (`src/Utils/hiopOptions.cpp:1607-1709`); the number in front of
each entry is the line of its `register_*_option` call. -/
def priDecTable (b : Build) : List (String × Opt) :=
  [ /- 1615 -/ ("options_file_master_prob", .str "hiop_pridec_master.options" []),
    /- 1634 -/ ("mem_space", .str "default" (memSpaces b)),
    /- 1643 -/ ("accum_local", .str "false" ["yes", "no"]),
    /- 1653 -/ ("alpha_max", .num (some (10 ^ 6)) (1) (10 ^ 14)),
    /- 1659 -/ ("alpha_min", .num (some (1 / 10 ^ 5)) (1 / 10 ^ 8) (1000)),
    /- 1667 -/ ("tolerance", .num (some (1 / 10 ^ 5)) (1 / 10 ^ 14) (1 / 10)),
    /- 1677 -/ ("acceptable_tolerance", .num (some (1 / 1000)) (1 / 10 ^ 14) (1 / 10)),
    /- 1684 -/ ("acceptable_iterations", .int 25 (1) (10 ^ 6)),
    /- 1690 -/ ("max_iter", .int 30000 (1) (10 ^ 9)),
    /- 1697 -/ ("verbosity_level", .int 2 (0) (12)),
    /- 1704 -/ ("print_options", .str "no" ["yes", "no"]) ]

end Hiop.Options
