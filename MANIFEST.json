{"claims":[
{"property": "C01", "status": "proved", "theorems": ["Verif.C01_max_it", "Verif.C01_max_it_exact", "Verif.C01_memory"], "note": ""},
{"property": "C02", "status": "proved", "theorems": ["Verif.C02_active_iff", "Verif.C02_optimize_done", "Verif.C02_not_early", "Verif.C02_memory"], "note": ""},
{"property": "C03", "status": "proved", "theorems": ["Verif.C03_frozen", "Verif.C03_fixed"], "note": "built-in stateless criteria (energy_tol, diff_tol, max_eval, max_it, max_time), post processing acting particle by particle"},
{"property": "C04", "status": "partial", "theorems": ["Verif.C04_max_eval_partial", "Verif.C04_optimize_partial", "Verif.C04_memory_partial", "Verif.C04_memory_batch_false", "Verif.C04_heaviside_partial", "Verif.C04_heaviside_false", "Verif.C04_stagnation_false"], "note": "the bound holds without correction and with stateless criteria; it is false with heavi_side (where the excess is at most one evaluation per run, C04_heaviside_partial) with the stagnation criterion, and for CBOMemory and PSO with batches, which evaluate all N particles while the check adds batch_size (all negations proved; excess at most N - batch_size in the last case)"},
{"property": "C05", "status": "proved", "theorems": ["Verif.C05_max_time", "Verif.C05_memory"], "note": ""},
{"property": "C09", "status": "proved", "theorems": ["Verif.C09_best_energy", "Verif.C09_monotone"], "note": ""},
{"property": "C10", "status": "proved", "theorems": ["Verif.C10_best_particle", "Verif.C10_optimize"], "note": ""},
{"property": "C13", "status": "partial", "theorems": ["Verif.C13_count_general", "Verif.C13_cbo_partial", "Verif.C13_memory_partial", "Verif.C13_memory_closed", "Verif.C13_memory_optimize", "Verif.C13_heaviside_overcounts"], "note": "exact for dynamics without correction, including the memory dynamics and PSO, with or without batches; false with heavi_side and several runs (negation proved)"},
{"property": "C14", "status": "proved", "theorems": ["Verif.C14_batch_valid", "Verif.C14_concat_false"], "note": ""},
{"property": "C15", "status": "proved", "theorems": ["Verif.C15_concat_fair", "Verif.C15_resample_epochs"], "note": ""},
{"property": "C16", "status": "proved", "theorems": ["Verif.C16_only_selected", "Verif.C16_update"], "note": ""},
{"property": "C19", "status": "partial", "theorems": ["Verif.C19_never_raises_partial", "Verif.C19_optimize_partial", "Verif.C19_idle_false", "Verif.C19_heaviside_partial", "Verif.C19_covariance_partial", "Verif.C19_cov_optimize_partial", "Verif.C19_mirror_cov_partial", "Verif.C19_adam_cov_partial", "Verif.C19_covariance_stopped_false", "Verif.C19_covariance_batched_false", "Verif.C19_memory_partial", "Verif.C19_pso_partial", "Verif.C19_memory_stopped_false"], "note": "constant, isotropic and anisotropic noise never raise, in particular not in optimize(); a step called by hand when all runs have stopped can raise (C19_idle_false); covariance noise does not raise while all runs are active and nothing is batched, and is proved to raise otherwise; CBOMemory and PSO do not raise when all runs stop together and are proved to raise when only some runs have stopped; the energy stagnation criterion raises with several runs (C07)"},
{"property": "C06", "status": "proved", "theorems": ["Verif.C06_stagnation", "Verif.C06_not_early"], "note": ""},
{"property": "C07", "status": "partial", "theorems": ["Verif.C07_single_partial", "Verif.C07_false", "Verif.C07_optimize_false"], "note": "false for two or more active runs (proved); holds for a single run"},
{"property": "C08", "status": "partial", "theorems": ["Verif.C08_reset_partial", "Verif.C08_rerun_partial", "Verif.C08_false"], "note": "holds for max_it/max_time; false after a stop by energy_tol, diff_tol or max_eval (proved)"},
{"property": "C39", "status": "proved", "theorems": ["Verif.C39_length", "Verif.C39_entry"], "note": ""},
{"property": "C17", "status": "partial", "theorems": ["Verif.C17_independent_partial", "Verif.C17_covariance_partial", "Verif.C17_heaviside_partial", "Verif.C17_effective_false", "Verif.C17_heaviside_false"], "note": "holds for schedulers that treat each run separately (none, multiply), all noise models, and for values also with Heaviside corrections; false for sched='effective' and for max_eval with a Heaviside correction, whose counter depends on the number of runs (negations proved)"},
{"property": "C26", "status": "proved", "theorems": ["Verif.C26_grow", "Verif.C26_shrink", "Verif.C26_capped", "Verif.C26_default"], "note": ""},
{"property": "C27", "status": "proved", "theorems": ["Verif.C27_stops", "Verif.C27_bracket", "Verif.C27_sign", "Verif.C27_accuracy"], "note": ""},
{"property": "C28", "status": "proved", "theorems": ["Verif.C28_gap", "Verif.C28_range", "Verif.C28_zero", "Verif.C28_continuous", "Verif.C28_antitone", "Verif.C28_shift"], "note": ""},
{"property": "C29", "status": "proved", "theorems": ["Verif.C29_range", "Verif.C29_early", "Verif.C29_accuracy"], "note": ""},
{"property": "C20", "status": "proved", "theorems": ["Verif.C20_weights", "Verif.C20_convex", "Verif.C20_coordinates", "Verif.C20_step"], "note": ""},
{"property": "C21", "status": "proved", "theorems": ["Verif.C21_shift", "Verif.C21_perm", "Verif.C21_mean", "Verif.C21_rescale"], "note": ""},
{"property": "C22", "status": "proved", "theorems": ["Verif.C22_laplace", "Verif.C22_best", "Verif.C22_energy_antitone", "Verif.C22_energy_mean"], "note": ""},
{"property": "C23", "status": "proved", "theorems": ["Verif.C23_absorbing", "Verif.C23_isotropic", "Verif.C23_anisotropic", "Verif.C23_covariance"], "note": "C23_absorbing is the theorem; the other three show that the noise models meet its hypotheses"},
{"property": "C24", "status": "proved", "theorems": ["Verif.C24_hull", "Verif.C24_contract", "Verif.C24_range"], "note": ""},
{"property": "C38", "status": "partial", "theorems": ["Verif.C38_bounded", "Verif.C38_unchanged", "Verif.C38_values", "Verif.C38_step", "Verif.C38_forever_partial", "Verif.C38_finite", "Verif.C38_regcombination_false"], "note": "holds for every dynamic with the default post processing; false for RegCombinationCBO, whose variant keeps NaN (negation proved)"},
{"property": "C52", "status": "proved", "theorems": ["Verif.C52_sqrt", "Verif.C52_psd", "Verif.C52_step", "Verif.C52_covariance", "Verif.C52_mean"], "note": ""},
{"property": "C53", "status": "proved", "theorems": ["Verif.C53_isotropic", "Verif.C53_anisotropic", "Verif.C53_constant"], "note": ""},
{"property": "C42", "status": "partial", "theorems": ["Verif.C42_three_hump", "Verif.C42_rosenbrock", "Verif.C42_rastrigin", "Verif.C42_ackley", "Verif.C42_multimodal", "Verif.C42_easom", "Verif.C42_snowflake", "Verif.C42_quadratic", "Verif.C42_himmelblau_partial", "Verif.C42_drop_wave_partial", "Verif.C42_holder_table", "Verif.C42_cross_in_tray_partial", "Verif.C42_mccormick_partial", "Verif.C42_michalewicz_partial", "Verif.C42_mccormick_false", "Verif.C42_himmelblau_false", "Verif.C42_bukin6_false", "Verif.C42_drop_wave_false", "Verif.C42_eggholder_false", "Verif.C42_michalewicz_false", "Verif.C42_cross_in_tray_false", "Verif.C42_multimodal_init_false"], "note": "proved for the objectives whose documented minima are right; negations for the others; Holder table on its documented domain up to the rounding of the listed points; cross-in-tray, McCormick and Michalewicz on bounded domains"},
{"property": "C30", "status": "partial", "theorems": ["Verif.C30_projections", "Verif.C30_l2", "Verif.C30_elastic", "Verif.C30_nonsmooth", "Verif.C30_stiefel", "Verif.C30_log_barrier_partial", "Verif.C30_simplex_partial", "Verif.C30_entropy_partial", "Verif.C30_square_partial", "Verif.C30_log_barrier_false", "Verif.C30_simplex_false", "Verif.C30_entropy_false", "Verif.C30_weighted_false", "Verif.C30_square_false"], "note": "proved for L2, ElasticNet, NonsmoothBarrier, ball, hyperplane, sphere, Stiefel; the code violates it for LogBarrierBox at 0, the simplex boundary, Entropy, weighted_L2 and squares of half-width other than 1"},
{"property": "C31", "status": "partial", "theorems": ["Verif.C31_ball", "Verif.C31_plane", "Verif.C31_simplex", "Verif.C31_stiefel", "Verif.C31_sphere_partial", "Verif.C31_square_partial", "Verif.C31_box_partial", "Verif.C31_plane_default_partial", "Verif.C31_sphere_false", "Verif.C31_square_false", "Verif.C31_plane_default_false"], "note": "proved for ball, hyperplane with given normal, simplex, Stiefel; false for the sphere at 0 (NaN), the default hyperplane in dimension > 1, the square unless r = 1"},
{"property": "C32", "status": "proved", "theorems": ["Verif.C32_ball", "Verif.C32_plane", "Verif.C32_sphere"], "note": ""},
{"property": "C33", "status": "partial", "theorems": ["Verif.C33_image", "Verif.C33_dual", "Verif.C33_feasible", "Verif.C33_total", "Verif.C33_ball", "Verif.C33_simplex", "Verif.C33_plane_partial", "Verif.C33_plane_false"], "note": "First half proved for every history. Feasibility proved for every mirror map whose image post processing keeps (ball, simplex); false for the hyperplane because clipping moves points off it (partial theorem: exact while clipping does not act)."},
{"property": "C51", "status": "partial", "theorems": ["Verif.C51_moments", "Verif.C51_drift", "Verif.C51_update", "Verif.C51_mean", "Verif.C51_constant", "Verif.C51_selected", "Verif.C51_nonneg", "Verif.C51_reset_false", "Verif.C51_batch_false"], "note": "Closed form and non-negativity for every history; the bias-correction claim holds for particles selected in every step since the counter was zero and is false after reset() and with batches."},
{"property": "C18", "status": "partial", "theorems": ["Verif.C18_all_active_partial", "Verif.C18_all_active_total_partial", "Verif.C18_raises_false", "Verif.C18_reached_false", "Verif.C18_stopped_moves_false"], "note": "The claim is false: with stopped runs the step raises or moves the stopped runs (witnesses). What holds is independence and totality while all runs are active."},
{"property": "C35", "status": "partial", "theorems": ["Verif.C35_plane", "Verif.C35_sphere", "Verif.C35_quadric_partial", "Verif.C35_quadric_symmetric_iff", "Verif.C35_quadric_false"], "note": "Gradient and Hessian are the derivatives for plane and sphere; for the quadric exactly when A is symmetric."},
{"property": "C36", "status": "partial", "theorems": ["Verif.C36_plane", "Verif.C36_sphere", "Verif.C36_sphere_singular", "Verif.C36_quadric_partial", "Verif.C36_quadric_false", "Verif.C36_hessian_partial", "Verif.C36_call_hessian", "Verif.C36_empty_false", "Verif.C36_plane_hessian_total", "Verif.C36_list"], "note": "The solves solve the documented systems; exceptions proved: sphere at singular points, quadric with non-symmetric A, empty constraint list."},
{"property": "C37", "status": "partial", "theorems": ["Verif.C37_regcombination_partial", "Verif.C37_regcombination_optimize_partial", "Verif.C37_drift_false", "Verif.C37_drift_witness_false"], "note": "Proved for RegCombinationCBO while all runs are active; false for DriftConstrainedCBO, whose particles never move without constraints."},
{"property": "C34", "status": "partial", "theorems": ["Verif.C34_tangent_sphere", "Verif.C34_tangent_plane", "Verif.C34_tangent_stiefel", "Verif.C34_proj_sphere", "Verif.C34_proj_plane", "Verif.C34_proj_stiefel", "Verif.C34_plane_partial", "Verif.C34_stiefel", "Verif.C34_sphere_partial", "Verif.C34_sphere_false", "Verif.C34_plane_clip_false", "Verif.C34_at_consensus", "Verif.C34_proj_matrix"], "note": "Stiefel: proved for every step. Plane: up to particles clipped by the post-processing. Sphere: for small steps; for large steps a particle can be mapped to NaN. Increments are tangential on all three surfaces."},
{"property": "C11", "status": "partial", "theorems": ["Verif.C11_partial", "Verif.C11_optimize_partial", "Verif.C11_memory_partial", "Verif.C11_memory_false", "Verif.C11_pso_false"], "note": "The claim is false for both dynamics (witnesses). What holds: best_energy is the minimum of all evaluations of the run and is attained by the historical best position y; for CBOMemory best_particle attains it once it improves on the start and nothing is clipped."},
{"property": "C12", "status": "proved", "theorems": ["Verif.C12_memory", "Verif.C12_pso", "Verif.C12_many", "Verif.C12_optimize", "Verif.C12_stopped_raises"], "note": "With or without batches, objective never NaN, steps only while a run is active (automatic for M >= 2)."},
{"property": "C61", "status": "partial", "theorems": ["Verif.C61_pso_step", "Verif.C61_repelled", "Verif.C61_diverges", "Verif.C61_attraction_false"], "note": "The claim is false: the code adds lamda*dt*(x - c) and lamda_memory*dt*(x - y), so a noise-free step from rest pushes every particle away from the consensus point, by an exactly given factor."},
{"property": "C49", "status": "partial", "theorems": ["Verif.C49_call", "Verif.C49_laws", "Verif.C49_documented_partial", "Verif.C49_gaussian_arrays", "Verif.C49_taz", "Verif.C49_constant_false", "Verif.C49_inverseQuadratic_false", "Verif.C49_gaussian_points_false", "Verif.C49_taz_false"], "note": "kernel = exp(-neg_log), non-negativity, symmetry and zero diagonal are proved for all kernels and points; documented values for Gaussian and Laplace everywhere. The code violates the rest: the constant kernel is exp(-1) at distance exactly kappa, the inverse quadratic kernel squares 1/kappa, the Gaussian __call__ on bare points is coordinatewise, the Taz kernel is NaN on collapsed ensembles."},
{"property": "C50", "status": "partial", "theorems": ["Verif.C50_weights", "Verif.C50_convex", "Verif.C50_cbo", "Verif.C50_runs_partial", "Verif.C50_step", "Verif.C50_mode", "Verif.C50_never_raises", "Verif.C50_taz_false", "Verif.C50_batch_raises", "Verif.C50_covariance_partial", "Verif.C50_covariance_raises", "Verif.C50_covariance_false"], "note": "weights, convexity, agreement with the CBO consensus proved for all kernels; independence of the runs for all kernels but Taz, where it is false (C50_taz_false). batch_partial=False and covariance noise with several runs raise or mix runs."},
{"property": "C41", "status": "proved", "theorems": ["Verif.C41_1D", "Verif.C41_2D", "Verif.C41_agree", "Verif.C41_check", "Verif.C41_trailing_false"], "note": "For (M, N, d) ensembles with at least one run, particle and coordinate. For particles with more axes (M, N, d1, d2) the promotion works on the last axis only and check_f_dims rejects it (C41_trailing_false)."},
{"property": "C55", "status": "proved", "theorems": ["Verif.C55_tiles", "Verif.C55_roundtrip", "Verif.C55_onto", "Verif.C55_names", "Verif.C55_duplicates_false"], "note": "pnames without repetitions (parameter names of a module are distinct); with a repeated name the claim fails (C55_duplicates_false)."},
{"property": "C56", "status": "proved", "theorems": ["Verif.C56_given", "Verif.C56_drawn", "Verif.C56_axes"], "note": "All shapes; an array without axes raises."},
{"property": "C43", "status": "partial", "theorems": ["Verif.C43_value", "Verif.C43_bounds", "Verif.C43_membership", "Verif.C43_distance", "Verif.C43_L0_false", "Verif.C43_default_plane_false", "Verif.C43_stopped_false"], "note": "f where the regulariser vanishes, at least f, monotone in lamda; membership for L1, plane, sphere and quadric, plane (vector normal) and sphere are the Euclidean distances. L0 counts entries within the isclose tolerance as zero (C43_L0_false), the plane with a scalar normal is not a distance (C43_default_plane_false), and with stopped runs a per-run lamda no longer matches the rows (C43_stopped_false)."},
{"property": "C44", "status": "partial", "theorems": ["Verif.C44_update", "Verif.C44_exactly", "Verif.C44_partial", "Verif.C44_theta_partial", "Verif.C44_mean", "Verif.C44_theta_false"], "note": "lamda claims for all update sequences; theta stays positive and bounded by what one factor allows, but theta_max is not enforced (C44_theta_false)."},
{"property": "C45", "status": "proved", "theorems": ["Verif.C45_resample", "Verif.C45_count", "Verif.C45_criterion"], "note": "default apply function on x; all criteria outputs with indices below M."},
{"property": "C46", "status": "proved", "theorems": ["Verif.C46_loss"], "note": "wait_thresh at least 1."},
{"property": "C47", "status": "partial", "theorems": ["Verif.C47_partial", "Verif.C47_full", "Verif.C47_early_false"], "note": "with fewer than patience recorded differences the maximum runs over those that exist, so a run may be selected earlier than the statement allows (C47_early_false)."},
{"property": "C48", "status": "proved", "theorems": ["Verif.C48_evaluation", "Verif.C48_returns", "Verif.C48_criteria", "Verif.C48_default_distance", "Verif.C48_rejected"], "note": "all criteria lists; an empty or missing list raises."},
{"property": "C62", "status": "partial", "theorems": ["Verif.C62_track", "Verif.C62_history", "Verif.C62_charge_false", "Verif.C62_stopped_raises", "Verif.C62_stopped_false"], "note": "record right while all runs are active; every active run is charged an evaluation although only the resampled ones are evaluated (C62_charge_false); with stopped runs the call raises or uses the consensus of another run."},
{"property": "C54", "status": "partial", "theorems": ["Verif.C54_heaviside", "Verif.C54_stopped_raises", "Verif.C54_batch_raises", "Verif.C54_regularised", "Verif.C54_regularised_drift", "Verif.C54_names", "Verif.C54_succeeds_iff", "Verif.C54_regularised_all", "Verif.C54_regularised_nan_false", "Verif.C54_heaviside_nan"], "note": "The gate is proved for ensembles with all runs active and without partial batches, including infinite and NaN energies. With stopped runs, and in every partial-batch step, the correction raises (exact characterisation in C54_succeeds_iff). With a NaN energy gap (e.g. objective +inf at particle and consensus) the regularised variant moves the particle to the corner of the domain (C54_regularised_nan_false)."},
{"property": "C58", "status": "partial", "theorems": ["Verif.C58_noise", "Verif.C58_terms", "Verif.C58_term_list", "Verif.C58_mirror", "Verif.C58_mirror_maps", "Verif.C58_kernels", "Verif.C58_regularisers", "Verif.C58_constraints", "Verif.C58_fdim", "Verif.C54_names", "Verif.C58_noise_none_false", "Verif.C58_quadric_false", "Verif.C58_rule_mean_false"], "note": "All dispatch tables, over all strings. Disagreements: noise=None is documented but raises; the string 'Quadric' selects a regulariser that always fails; rule_mean accepts every string."},
{"property": "C57", "status": "partial", "theorems": ["Verif.C57_frames", "Verif.C57_covered", "Verif.C57_history_partial", "Verif.C57_single_run", "Verif.C57_window_partial", "Verif.C57_fresh_false", "Verif.C57_stopped_false", "Verif.C57_window_false", "Verif.C57_axes_false"], "note": "Frame counts and frame contents for all histories and frequencies; no access out of range for CBO as long as all runs were active in every step (always so for a single run). The code violates the rest: IndexError before the first step with plot_consensus, and for runs behind a stopped run (consensus and drift are recorded for active runs only); y_min=0 or y_max=0 are ignored, and the vertical axis limits are the horizontal ones."},
{"property": "C40", "status": "partial", "theorems": ["Verif.C40_caller", "Verif.C40_reset_false", "Verif.C40_rebind", "Verif.C40_inplace_false", "Verif.C40_equal_false", "Verif.C40_extra_tracks_false", "Verif.C40_first_false"], "note": "The caller's array is never modified (all dynamics, store model refined to the value model) and history['x'][0] is kept by dynamics that bind a new array. For in-place dynamics (CBO) the first step overwrites history['x'][0]: proved as negation. After reset() positions are no longer recorded although the user asked for them (C40_reset_false)."},
{"property": "C60", "status": "partial", "theorems": ["Verif.C60_walk", "Verif.C60_untouched", "Verif.C60_none_left", "Verif.C60_endless", "Verif.C60_best_partial", "Verif.C60_mismatch_false", "Verif.C60_best_false", "Verif.C60_stopped_false"], "note": "Loop part proved for all ensembles and random outcomes (partial correctness; the loop has no bound, C60_endless). Consistency of best_particle only as long as no run is collapsed; otherwise false: energies are evaluated after the perturbation, best_particle is taken from before it (negations proved). Stopped runs are perturbed too (C60_stopped_false)."},
{"property": "C59", "status": "partial", "theorems": ["Verif.C59_seed_partial", "Verif.C59_adequate", "Verif.C59_global", "Verif.C59_batch_seed", "Verif.C59_draws", "Verif.C59_adequate_constrained", "Verif.C59_x_false", "Verif.C59_sampler_false", "Verif.C59_indep_false"], "note": "With a seed, a given initial ensemble and the default sampler the complete state is independent of the global generator (all generators, seeds, interleaved code). Without a given ensemble, with exponential_sampler, or with independent noise the claim is false (negations proved). The adequacy theorems connect generator objects with the random-outcome functions used by all other theorems."},
{"property": "C25", "status": "partial", "theorems": ["Verif.C25_translation_partial", "Verif.C25_scaling", "Verif.C25_corrections", "Verif.C25_rules", "Verif.C25_scaling_anisotropic", "Verif.C25_scaling_isotropic", "Verif.C25_inside_partial", "Verif.C25_clip_false", "Verif.C25_reflect_false", "Verif.C25_constant_false"], "note": "Scaling is proved with the default clipping (bound and tolerances scaled); isotropic noise needs a positive factor (reflection with the same random numbers is false: C25_reflect_false). Translation holds for post processing that commutes with it, and with the default clipping as long as particles stay inside the bounds; clipping itself breaks it (C25_clip_false). All corrections that can be selected by name are covered; custom criteria and schedules must not read absolute positions."},
{"property": "C63", "status": "proved", "theorems": ["Verif.C63_points", "Verif.C63_best", "Verif.C63_total", "Verif.C63_off", "Verif.C63_best_cur_false"], "note": "For all dynamics using CBXDynamic.compute_consensus; PolarCBO, CBOMemory and PSO override it and ignore the option. C63_best_cur_false: with batch_partial=False best_cur_particle itself need not have energy best_cur_energy, the saved point does."},
{"property": "C64", "status": "partial", "theorems": ["Verif.C64_construct", "Verif.C64_run", "Verif.C64_step", "Verif.C64_stopped_false"], "note": "Construction and run proved for a single run with any stateless criteria, and for any number of runs with max_it / max_time. With several runs and a criterion that stops runs one by one (energy_tol, diff_tol, max_eval) the run raises in the next step: proved as C64_stopped_false. The covariance square root uses an arbitrary eigh. CBS.optimize returns None, unlike the base class."},
{"property": "C65", "status": "partial", "theorems": ["Verif.C65_best", "Verif.C65_history", "Verif.C65_max_it", "Verif.C65_criteria_false", "Verif.C65_history_false", "Verif.C65_late_false"], "note": "Proved: max_it, and best particle for inner steps that evaluate at the beginning of the step. The rest is false: max_eval, max_time and energy_stagnation raise AttributeError on the base class; the history is written before post processing; an inner step that evaluates after moving gets a wrong best_particle."},
{"property": "C66", "status": "partial", "theorems": ["Verif.C66_raises", "Verif.C66_ensemble", "Verif.C66_uniform", "Verif.C66_normal", "Verif.C66_shape_false"], "note": "Everything but the shape is proved; the documented shape (M, N, d) fails for uniform initialisation with shape (N, d), which returns (N, d), but after init_x the ensemble has it. The singular value decomposition inside multivariate_normal is an arbitrary orthogonal matrix."},
{"property": "C67", "status": "partial", "theorems": ["Verif.C67_post", "Verif.C67_runs_partial", "Verif.C67_step", "Verif.C67_effective_range", "Verif.C67_effective_partial", "Verif.C67_seed_ignored", "Verif.C67_regcombination_false", "Verif.C67_effective_false", "Verif.C67_seed_false"], "note": "Equality of post-processing, runs and scheduler proved. False: for RegCombinationCBO the two versions post-process differently; with maximum below minimum the schedulers differ; the seed is ignored by PyTorch dynamics (proved for all programs), so runs are not reproducible by seed."},
{"property": "C68", "status": "partial", "theorems": ["Verif.C68_l2_partial", "Verif.C68_log_barrier", "Verif.C68_nonsmooth_partial", "Verif.C68_elastic", "Verif.C68_weighted_partial", "Verif.C68_l2_hessian_false", "Verif.C68_entropy_false", "Verif.C68_hessian_raises"], "note": "Proved for L2 (Hessian for lamda = 1), the barriers, the elastic net and single vectors of weighted L2. False: the Hessian of L2 ignores lamda, the gradient of Entropy contains an extra constant, every hessian raises on three-dimensional ensembles."},
{"property": "C69", "status": "partial", "theorems": ["Verif.C69_l2", "Verif.C69_ball_partial", "Verif.C69_log_barrier", "Verif.C69_elastic", "Verif.C69_nonsmooth_partial", "Verif.C69_ball_false", "Verif.C69_nonsmooth_false", "Verif.C69_entropy_false", "Verif.C69_weighted_false"], "note": "Proved for L2, the ball around 0, the logarithmic barrier, the elastic net and the non-smooth barrier on one particle. False for other centres, several particles of the non-smooth barrier, Entropy (concave), and weighted L2 on arrays. The other maps have no function, so Bregman_distance raises NotImplementedError."},
{"property": "C70", "status": "partial", "theorems": ["Verif.C70_feasible", "Verif.C70_sets", "Verif.C70_stiefel", "Verif.C70_prox_elastic", "Verif.C70_best_partial", "Verif.C70_frozen_partial", "Verif.C70_best_false", "Verif.C70_stopped_false", "Verif.C70_simplex_false"], "note": "Feasibility of all particles proved for every dynamic. best_particle is feasible if the initial ensemble is, otherwise not (C70_best_false). Stopped runs are frozen for projections; maps that move feasible points (L2 with lamda different from 1, the softmax) also move the particles of stopped runs."},
{"property": "C71", "status": "partial", "theorems": ["Verif.C71_adam_partial", "Verif.C71_mirror_partial", "Verif.C71_mirror_frozen", "Verif.C71_adam_covariance_partial", "Verif.C71_mirror_covariance_partial"], "note": "Proved for all noise models and schedulers that treat each run separately; with sched='effective' it is false as for CBO (C17_effective_false)."},
{"property": "C72", "status": "partial", "theorems": ["Verif.C72_step_partial", "Verif.C72_iso_empty_false", "Verif.C72_diff_partial", "Verif.C72_diff_false", "Verif.C72_covariance_shape", "Verif.C72_covariance_false"], "note": "The step is proved for constant, isotropic and anisotropic noise without correction, for any particle shape. The rest of the statement is false for two or more trailing axes: update_diff has shape (M, N, ...) and diff_tol raises, covariance noise raises."},
{"property": "C73", "status": "partial", "theorems": ["Verif.C73_shape_partial", "Verif.C73_index_raises", "Verif.C73_squeeze_partial", "Verif.C73_squeeze_false", "Verif.C73_p4", "Verif.C73_accelerated_sinus", "Verif.C73_nd_sinus", "Verif.C73_banana", "Verif.C73_bimodal", "Verif.C73_multimodal", "Verif.C73_centre_false"], "note": "The shape statement is false for accelerated_sinus, nd_sinus, p_4th_order and Multimodal with one run (the default) or one particle, because their results are squeezed, and the constructors of Bimodal and Unimodal raise for arrays; the minima are proved."},
{"property": "C74", "status": "partial", "theorems": ["Verif.C74_infinite_partial", "Verif.C74_refines", "Verif.C74_between", "Verif.C74_iff", "Verif.C74_nan_false", "Verif.C74_alpha_zero_false", "Verif.C74_rescale_partial", "Verif.C74_rescale_nan_false", "Verif.C74_check_useless", "Verif.C74_step_false", "Verif.C74_stuck_false", "Verif.C74_lost_false"], "note": "True for +inf energies as long as one energy of the sample is finite and alpha is positive. False otherwise: one NaN or -inf energy makes the whole consensus NaN, the step sends the run to the corner max_thresh, where it stays for ever, and the optional check never raises."},
{"property": "C75", "status": "partial", "theorems": ["Verif.C75_number_partial", "Verif.C75_array_partial", "Verif.C75_form_false", "Verif.C75_alpha_int_false", "Verif.C75_step_int_false", "Verif.C75_best_int_false"], "note": "True for float ensembles with a Python number or an (M, 1) array. False for integer ensembles (alpha truncated, in-place updates raise, best_particle truncated) and for NumPy scalars, lists and (M,) arrays as alpha."},
{"property": "C76", "status": "proved", "theorems": ["Verif.C76_step_isotropic", "Verif.C76_step_anisotropic", "Verif.C76_decay_isotropic", "Verif.C76_decay_anisotropic", "Verif.C76_growth_isotropic", "Verif.C76_growth_anisotropic"], "note": "The expectation after k steps is the k-fold iterated integral over the numbers drawn in each step; a step that raises would count as infinity. Without correction, unbatched or with batch_partial=False."},
{"property": "C77", "status": "partial", "theorems": ["Verif.C77_resume_partial", "Verif.C77_split_partial", "Verif.C77_raises_partial", "Verif.C77_dynamics_partial", "Verif.C77_memory_partial", "Verif.C77_stagnation_false"], "note": "True for all criteria except energy_stagnation (schedulers without internal state). False with energy_stagnation: the second call always raises, because the criterion is evaluated without active runs."},
{"property": "C78", "status": "partial", "theorems": ["Verif.C78_cbo_partial", "Verif.C78_hypersurface_false", "Verif.C78_adam_dt_false", "Verif.C78_correction_false"], "note": "True for lamda in CBO. False: HyperSurfaceCBO ignores lamda; the drift of AdamCBO ignores dt; AdamCBO, DriftConstrainedCBO, RegCombinationCBO and HyperSurfaceCBO ignore correction."},
{"property": "C79", "status": "partial", "theorems": ["Verif.C79_entries_partial", "Verif.C79_drift_partial", "Verif.C79_best_partial", "Verif.C79_interval_false", "Verif.C79_batch_false", "Verif.C79_energy_doc_false"], "note": "True when every step is tracked and nothing is batched (runs may stop; the best energy also with batches). False for save_int > 1 (energies are those before the step, positions those after it) and with batches; entry 0 of history['x'] is overwritten by dynamics working in place (C40); history['energy'] holds the whole energy array, not the documented best energies."},
{"property": "C80", "status": "proved", "theorems": ["Verif.C80_losses", "Verif.C80_networks", "Verif.C80_accuracy", "Verif.C80_empty"], "note": "Networks are arbitrary functions of their parameters and input; the accuracy is for networks that treat the inputs of a batch one by one, with one label per input; rounding of the quotient and NaN outputs are not modelled."},
{"property": "C81", "status": "proved", "theorems": ["Verif.C81_memory_step", "Verif.C81_pso_step", "Verif.C81_memory_independent", "Verif.C81_pso_independent"], "note": "Unbatched, no correction, one consensus point per run, noise and post processing acting particle by particle, criteria without internal state; with several runs optimize finishes only if the runs stop together (C19_memory_stopped_false)."},
{"property": "C82", "status": "proved", "theorems": ["Verif.C82_isotropic", "Verif.C82_anisotropic"], "note": "Exact real arithmetic, no correction, unbatched or batch_partial=False, the run stays active (steps only, no termination); post processing that is idempotent and does not increase distances between coordinates (clipping or none)."},
{"property": "C83", "status": "partial", "theorems": ["Verif.C83_adam", "Verif.C83_memory_partial", "Verif.C83_memory_one_partial", "Verif.C83_pso_partial", "Verif.C83_memory_false", "Verif.C83_pso_false"], "note": "True for AdamCBO here, for CBO by C19_never_raises_partial, for MirrorCBO by C33_total, for PolarCBO with batch_partial=True by C50_never_raises (false with batch_partial=False: C50_batch_raises). False for CBOMemory unless B=1 and batch_partial=False, and for PSO with batch_partial=True (the default): every step raises."},
{"property": "C84", "status": "partial", "theorems": ["Verif.C84_result_partial", "Verif.C84_output", "Verif.C84_none", "Verif.C84_cbs", "Verif.C84_zero_false", "Verif.C84_text_false"], "note": "The result is independent of verbosity and of print_int except for print_int=0, which raises ZeroDivisionError after the first step even with verbosity 0; a string that names no scheduler is not rejected but fails after the first step (not at all if there is none), except in CBS.run, which also rejects 'effective'."},
{"property": "C85", "status": "proved", "theorems": ["Verif.C85_tail", "Verif.C85_mean", "Verif.C85_stops"], "note": "Exact real arithmetic, the default (Frobenius) norm on positions that are vectors, no correction, unbatched or batch_partial=False, scheduler that maps each parameter by itself (multiply, None; not the adaptive effective-sample-size scheduler); post processing that is idempotent and does not increase distances between coordinates (clipping or none). With the energy stagnation or user-defined criteria stopped runs may become active again; they are excluded."},
{"property": "C86", "status": "partial", "theorems": ["Verif.C86_default_partial", "Verif.C86_rescaled", "Verif.C86_lost", "Verif.C86_false"], "note": "The error is bounded by (10 u W + 130 n^2 (u + eta)) X + 2 n eta if W bounds |alpha * energy| and the factor is at most 1, and without any bound on the energies for the rescaled rule of HyperSurfaceCBO. For the default rule the claim is false: if log n is below half a unit in the last place of alpha * energy, n particles of equal energy get coefficient 1 each and the consensus is their sum (single precision: alpha=1e5, objective value 400). Overflow is not modelled; logsumexp is modelled as log(sum(exp(w - max))) + max."},
{"property": "C87", "status": "partial", "theorems": ["Verif.C87_ess_partial", "Verif.C87_lost", "Verif.C87_false"], "note": "The error is bounded by n (20 u W + 110 n^2 (u + eta)) if W bounds |alpha * energy| and 10 u W + 60 n^2 (u + eta) <= 1. Without a bound on the weights the claim is false: for large alpha * energy n particles of equal energy give effective sample size 1 instead of n, and the gap has the wrong sign. Overflow is not modelled."},
{"property": "C88", "status": "partial", "theorems": ["Verif.C88_clock", "Verif.C88_exact", "Verif.C88_bounds", "Verif.C88_dyadic", "Verif.C88_more_false", "Verif.C88_fewer_false", "Verif.C88_endless_false"], "note": "In exact arithmetic the loop ends after ceil((T - t)/dt) steps (unless a step raises). In floating point arithmetic the clock after k steps is k*dt up to factors (1 +- u)^k, and the claim holds if the multiples of dt are representable (dt a power of two). In general it is false: in every format there are dt and T = 8*dt with 9 steps, dt and T with 3 steps although 3*dt < T, and loops that never end because the clock is stuck at 2^p * dt. Overflow is not modelled."},
{"property": "C89", "status": "partial", "theorems": ["Verif.C89_energy", "Verif.C89_memory_partial", "Verif.C89_memory_false"], "note": "The energies are exact in any arithmetic. Positions: false in every format, because a position is replaced by adding the difference (two steps suffice to store a position with objective value +inf beside a finite energy); proved instead: every coordinate of y differs from that of a visited position attaining the energy by at most 4 u B, where B bounds the evaluated coordinates, however many steps were made (at least 3 bits, no overflow or underflow)."},
{"property": "C90", "status": "partial", "theorems": ["Verif.C90_hull_partial", "Verif.C90_default_partial", "Verif.C90_rescaled_partial", "Verif.C90_false"], "note": "False without an error term, in every format. Proved: after k steps the ensemble has left the box by at most ((1 + g + 10u)^k - 1) B, with g = 10uW + 130 n^2 u for the default rule (W bounds |alpha f|) and g = 100 n^2 u for the rescaled rule; finite objective, no correction, scheduler keeps sigma = 0 and lamda*dt in [0,1]; at least 3 bits, no overflow or underflow."},
{"property": "C91", "status": "partial", "theorems": ["Verif.C91_multiply", "Verif.C91_reaches", "Verif.C91_multiply_false", "Verif.C91_machine", "Verif.C91_stops", "Verif.C91_bracket", "Verif.C91_root", "Verif.C91_effective"], "note": "The product is right up to relative errors (1 +- u)^k, and not exactly (C91_multiply_false); the cap is exact and is reached. Bisection: exact bracket, sign change within (high - low)/2^max_it + 2uB. The effective sample size is eta*N up to the threshold and n(20uW + 110 n^2 u), if W bounds alpha*energy (without such a bound the computed size is wrong, C87_false); no overflow or underflow."},
{"property": "C92", "status": "partial", "theorems": ["Verif.C92_hull", "Verif.C92_absorbing", "Verif.C92_contract_false"], "note": "Hull and absorption are proved. Contraction to consensus is false for lamda_memory*dt > 0: from an ensemble of minimisers all differences stay at least lamda_memory*dt times the initial ones (C92_contract_false). No batches, no correction, step only while a run is active."},
{"property": "C93", "status": "proved", "theorems": ["Verif.C93_consensus", "Verif.C93_mean", "Verif.C93_worst", "Verif.C93_limit", "Verif.C93_best", "Verif.C93_nonconvex_false"], "note": "Convexity is needed: C93_nonconvex_false. Exact arithmetic; post processing is the identity on the convex set considered."},
{"property": "C94", "status": "partial", "theorems": ["Verif.C94_history_partial", "Verif.C94_total", "Verif.C94_shared_false", "Verif.C94_key_false", "Verif.C94_off_false"], "note": "Proved if no list extra_tracks is used for two dynamics and no key is written by two trackers. Otherwise false: init_history uses and extends the list of the caller, so dynamics made from the same track_args all record every value several times, or raise KeyError in the next step if the names differ."},
{"property": "C95", "status": "proved", "theorems": ["Verif.C95_hull", "Verif.C95_absorbing", "Verif.C95_clusters", "Verif.C95_group", "Verif.C95_contract", "Verif.C95_consensus_false"], "note": "The Taz kernel (NaN weights for coinciding particles) is outside the quantifier; groups exclude batch_partial=False, where the batch of a run need not be a set of whole groups. C95_consensus_false is a concrete dynamic that never gathers at one point."},
{"property": "C96", "status": "partial", "theorems": ["Verif.C96_stagnation_partial", "Verif.C96_stagnation_early", "Verif.C96_stagnation_false", "Verif.C96_loss_partial", "Verif.C96_loss_stale", "Verif.C96_loss_false", "Verif.C96_consensus_partial", "Verif.C96_used", "Verif.C96_consensus_false"], "note": "False as stated (proved): the objects keep buffers, best energies and consensus points of the earlier dynamic. Proved: energy stagnation and consensus stagnation agree with new objects from patience steps on, loss stagnation from the first energy below the stored one on; before that the exact decisions are given. Objects used on a dynamic with another number of runs are not modelled."},
{"property": "C97", "status": "partial", "theorems": ["Verif.C97_partial", "Verif.C97_rows", "Verif.C97_plot_false"], "note": "False as stated (proved): the first evaluation turns lamda into a column with as many rows as its argument. Proved for arrays with that many rows, and for all arrays if the first one had one row; otherwise the call raises or returns too many rows."},
{"property": "C98", "status": "partial", "theorems": ["Verif.C98_iff", "Verif.C98_accurate_partial", "Verif.C98_rescaled", "Verif.C98_overflow_false", "Verif.C98_run", "Verif.C98_corner_false"], "note": "False as stated (proved): if alpha*energy overflows for all particles the consensus point is NaN and the step throws the particles to the corner of the box. Proved exactly when the point is finite, accuracy for moderate weights, the rescaled rule without restriction, and the invariant over runs for objectives bounded on the box"},
{"property": "C99", "status": "partial", "theorems": ["Verif.C99_live_partial", "Verif.C99_history_partial", "Verif.C99_index_false", "Verif.C99_wrong_run_false", "Verif.C99_fresh_false", "Verif.C99_stopped_false", "Verif.C99_interval_false"], "note": "False as stated (proved): consensus and drift have one row per active run, so after a run has stopped the plot of run r shows the consensus and arrows of another run or raises IndexError; with save_int > 1 the arrows do not end in the consensus point; before the first step update() raises. Proved as long as row r of the active runs is run r, and history = live plot for save_int = 1"},
{"property": "C100", "status": "partial", "theorems": ["Verif.C100_partial", "Verif.C100_l2_partial", "Verif.C100_clip_false", "Verif.C100_nan_false", "Verif.C100_nan_run_false"], "note": "False as stated (proved): post processing changes x but not y, so after a particle has been clipped or repaired from NaN the runs differ, and a NaN in y stays for ever. Proved for all runs in which post processing changes no particle"},
{"property": "C101", "status": "proved", "theorems": ["Verif.C101_dual_history"], "note": "Equality of lists for every interval and operation sequence"},
{"property": "C102", "status": "proved", "theorems": ["Verif.C102_cbo", "Verif.C102_mirror", "Verif.C102_adam", "Verif.C102_default", "Verif.C102_rescale", "Verif.C102_polar", "Verif.C102_correction", "Verif.C102_multiply", "Verif.C102_alpha_false", "Verif.C102_sched_false", "Verif.C102_reg_false", "Verif.C102_polar_alpha_false"], "note": "Lockstep simulation for every successful operation sequence; the four failures named in the statement are proved with witnesses"},
{"property": "C103", "status": "proved", "theorems": ["Verif.C103_stay", "Verif.C103_descent", "Verif.C103_uncorrected_false", "Verif.C103_hill_false"], "note": "Any consensus rule; the two failures named in the statement are proved with witnesses"},
{"property": "C104", "status": "proved", "theorems": ["Verif.C104_run", "Verif.C104_optimize", "Verif.C104_best", "Verif.C104_default", "Verif.C104_best_particle_false"], "note": "Simulation by induction over operation sequences and over the loop of optimize; the failure for best_particle named in the statement is proved with a witness"},
{"property": "C105", "status": "proved", "theorems": ["Verif.C105_run", "Verif.C105_optimize", "Verif.C105_kappa", "Verif.C105_rule", "Verif.C105_kernel", "Verif.C105_consensus", "Verif.C105_taz_false", "Verif.C105_stagnation_false"], "note": "Lockstep simulation by induction over operation sequences and over the loop of optimize; the two exceptions named in the statement are proved with witnesses. The covariance noise of PolarCBO is a different function and outside the quantifier (C50_covariance_false)"},
{"property": "C106", "status": "proved", "theorems": ["Verif.C106_anisotropic", "Verif.C106_isotropic", "Verif.C106_constant", "Verif.C106_covariance", "Verif.C106_law_anisotropic", "Verif.C106_law_isotropic", "Verif.C106_normal"], "note": "Exact moments over real arithmetic; the noise of earlier steps is arbitrary, the noise of the step in question is a family of samples on a probability space"},
{"property": "C107", "status": "proved", "theorems": ["Verif.C107_tail", "Verif.C107_ends", "Verif.C107_run"], "note": "Real arithmetic; the loop of the model has a bound on the number of tests, which is shown to be irrelevant almost surely. C60_endless shows that dt = 0 makes the loop endless"},
{"property": "C108", "status": "proved", "theorems": ["Verif.C108_consensus", "Verif.C108_run", "Verif.C108_uniform"], "note": "Real arithmetic. The run bound is for noise-free CBO without batches (the consensus bound for all noise models and batches) and for a convex set on which post processing does nothing"},
{"property": "C109", "status": "proved", "theorems": ["Verif.C109_similarity", "Verif.C109_law", "Verif.C109_anisotropic_false", "Verif.C109_clip_false"], "note": "Real arithmetic, default consensus rule, eigh with its contract; the two failures named in the statement are proved with witnesses. With Q = 1 this covers translations and scalings for covariance noise, which C25 does not"},
{"property": "C110", "status": "proved", "theorems": ["Verif.C110_isotropic", "Verif.C110_anisotropic"], "note": "Exact real arithmetic, no correction, unbatched, alpha fixed (steps only, no scheduler), the run stays active; for a constant objective K = 0 and q agrees with the lower bound of C76_growth, so that the bound is sharp."},
{"property": "C111", "status": "proved", "theorems": ["Verif.C111_isotropic", "Verif.C111_anisotropic"], "note": "Exact real arithmetic, no correction, unbatched, alpha fixed (steps only), the run stays active; time-discrete and with independent noise for every particle, as in the code."},
{"property": "C112", "status": "proved", "theorems": ["Verif.C112_steps", "Verif.C112_law", "Verif.C112_trajectories", "Verif.C112_isotropic_false"], "note": "Exact real arithmetic, no correction, unbatched, all runs active, parameters fixed (steps only); eigh by its contract. Measurable objective and post processing for the law of the trajectories. Criteria that read norms of updates are not invariant and not part of the statement."},
{"property": "C113", "status": "proved", "theorems": ["Verif.C113_covariance", "Verif.C113_few", "Verif.C113_anisotropic", "Verif.C113_isotropic"], "note": "Exact real arithmetic, no drift correction, default consensus rule and finite objective (isotropic: any rule with one point per run). The statement for few particles is without post processing: clipping can leave an affine span that is not parallel to the axes."},
{"property": "C114", "status": "proved", "theorems": ["Verif.C114_reach", "Verif.C114_best", "Verif.C114_isotropic", "Verif.C114_anisotropic", "Verif.C114_constant"], "note": "Exact real arithmetic, no drift correction, any rule with one consensus point per run, post processing particle by particle (none or clipping)."},
{"property": "C115", "status": "proved", "theorems": ["Verif.C115_large_alpha"], "note": "Exact real arithmetic, no drift correction, default consensus rule, post processing particle by particle. The dynamic that follows the best particle is a comparison object, not code of the library. Without uniqueness of the best particle the limit is a mean of the best particles (C22)."},
{"property": "C116", "status": "proved", "theorems": ["Verif.C116_steps"], "note": "Exact real arithmetic, no drift correction, default consensus rule, post processing particle by particle that fits the new units (none, or clipping to the rescaled box). For isotropic noise the statement is false (C112_isotropic_false)."},
{"property": "C117", "status": "proved", "theorems": ["Verif.C117_tail", "Verif.C117_minimum", "Verif.C117_particle"], "note": "Exact real arithmetic, no drift correction, default consensus rule, constant parameters, finite measurable objective; batches without batch_partial (all particles move) or none. With isotropic or anisotropic noise it is false: an ensemble at one point never moves (C113_isotropic)."},
{"property": "C118", "status": "partial", "theorems": ["Verif.C118_gaussian", "Verif.C118_norm_partial", "Verif.C118_consensus_partial", "Verif.C118_kernels_false"], "note": "Proved for the Gaussian kernel and any particle shape, and for the other kernels with one trailing axis. For the other kernels with two or more trailing axes the statement is false: neg_log keeps axes and the consensus raises ValueError (C118_kernels_false)."},
{"property": "C119", "status": "proved", "theorems": ["Verif.C119_violation", "Verif.C119_weight", "Verif.C119_limit", "Verif.C119_step"], "note": "In exact arithmetic; the step theorem is for plain CBO with the default consensus rule and a penalty common to all runs."},
{"property": "C120", "status": "proved", "theorems": ["Verif.C120_tail", "Verif.C120_mean", "Verif.C120_stops", "Verif.C120_result"], "note": "Exact real arithmetic, the default (Frobenius) norm on positions that are vectors, no correction, unbatched or batch_partial=False, a scheduler that leaves lamda, sigma and dt unchanged; post processing into a box that is idempotent and does not increase distances between coordinates (clipping). Energy stagnation and user-defined criteria are excluded."},
{"property": "C121", "status": "proved", "theorems": ["Verif.C121_shape", "Verif.C121_update", "Verif.C121_alone", "Verif.C121_mismatch_raises", "Verif.C121_uncalled_raises", "Verif.C121_count", "Verif.C121_plot_raises", "Verif.C121_contour_raises"], "note": "Exact real arithmetic; objective and regulariser act point by point. lamda given as a number (lamda_broadcasted=False, the default)."},
{"property": "C122", "status": "proved", "theorems": ["Verif.C122_collapsed", "Verif.C122_noise_free"], "note": "Exact real arithmetic, standard environment; the recorded energies and minimum of the run are assumed not below the tolerance in the start state (true after construction, where they are +inf)."},
{"property": "C123", "status": "proved", "theorems": ["Verif.C123_step", "Verif.C123_bounds", "Verif.C123_flat", "Verif.C123_sampling_expands"], "note": "One step from any reachable state, exact real arithmetic, without correction and post processing; the square root of the covariance uses any correct eigh."},
{"property": "C124", "status": "proved", "theorems": ["Verif.C124_init", "Verif.C124_runs", "Verif.C124_optimize", "Verif.C124_lamda_one", "Verif.C124_row_noise", "Verif.C124_cov_noise", "Verif.C124_multiply_sched", "Verif.C124_multiply_unit"], "note": "Plain CBO in exact real arithmetic, all consensus rules and corrections of the model; post processing, user-defined corrections and criteria must not read lamda, sigma, dt, t, and the scheduler must act in proportion (hypothesis Unitless)."},
{"property": "C125", "status": "partial", "theorems": ["Verif.C125_inertia_partial", "Verif.C125_step", "Verif.C125_not_kept", "Verif.C125_coast", "Verif.C125_stops"], "note": "The statement holds for dt = 1 only. For every other step size and m != 0 it is violated by every moving particle (C125_not_kept): pso.py:128 multiplies m*v by dt. Without friction and with dt < 1 a particle never moves farther than dt^2/(1-dt) times its velocity (C125_stops). Unbatched, no correction, no clipping, one consensus point per run."}
]}
