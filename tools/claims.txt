# property | status | theorems | note
C01 | proved | C01_max_it C01_max_it_exact C01_memory |
C02 | proved | C02_active_iff C02_optimize_done C02_not_early C02_memory |
C03 | proved | C03_frozen C03_fixed | built-in stateless criteria (energy_tol, diff_tol, max_eval, max_it, max_time), post processing acting particle by particle
C04 | partial | C04_max_eval_partial C04_optimize_partial C04_memory_partial C04_memory_batch_false C04_heaviside_partial C04_heaviside_false C04_stagnation_false | the bound holds without correction and with stateless criteria; it is false with heavi_side (where the excess is at most one evaluation per run, C04_heaviside_partial) with the stagnation criterion, and for CBOMemory and PSO with batches, which evaluate all N particles while the check adds batch_size (all negations proved; excess at most N - batch_size in the last case)
C05 | proved | C05_max_time C05_memory |
C09 | proved | C09_best_energy C09_monotone |
C10 | proved | C10_best_particle C10_optimize |
C13 | partial | C13_count_general C13_cbo_partial C13_memory_partial C13_memory_closed C13_memory_optimize C13_heaviside_overcounts | exact for dynamics without correction, including the memory dynamics and PSO, with or without batches; false with heavi_side and several runs (negation proved)
C14 | proved | C14_batch_valid C14_concat_false |
C15 | proved | C15_concat_fair C15_resample_epochs |
C16 | proved | C16_only_selected C16_update |
C19 | partial | C19_never_raises_partial C19_optimize_partial C19_idle_false C19_heaviside_partial C19_covariance_partial C19_cov_optimize_partial C19_mirror_cov_partial C19_adam_cov_partial C19_covariance_stopped_false C19_covariance_batched_false C19_memory_partial C19_pso_partial C19_memory_stopped_false | constant, isotropic and anisotropic noise never raise, in particular not in optimize(); a step called by hand when all runs have stopped can raise (C19_idle_false); covariance noise does not raise while all runs are active and nothing is batched, and is proved to raise otherwise; CBOMemory and PSO do not raise when all runs stop together and are proved to raise when only some runs have stopped; the energy stagnation criterion raises with several runs (C07)
C06 | proved | C06_stagnation C06_not_early |
C07 | partial | C07_single_partial C07_false C07_optimize_false | false for two or more active runs (proved); holds for a single run
C08 | partial | C08_reset_partial C08_rerun_partial C08_false | holds for max_it/max_time; false after a stop by energy_tol, diff_tol or max_eval (proved)
C39 | proved | C39_length C39_entry |
C17 | partial | C17_independent_partial C17_covariance_partial C17_heaviside_partial C17_effective_false C17_heaviside_false | holds for schedulers that treat each run separately (none, multiply), all noise models, and for values also with Heaviside corrections; false for sched='effective' and for max_eval with a Heaviside correction, whose counter depends on the number of runs (negations proved)
C26 | proved | C26_grow C26_shrink C26_capped C26_default |
C27 | proved | C27_stops C27_bracket C27_sign C27_accuracy |
C28 | proved | C28_gap C28_range C28_zero C28_continuous C28_antitone C28_shift |
C29 | proved | C29_range C29_early C29_accuracy |
C20 | proved | C20_weights C20_convex C20_coordinates C20_step |
C21 | proved | C21_shift C21_perm C21_mean C21_rescale |
C22 | proved | C22_laplace C22_best C22_energy_antitone C22_energy_mean |
C23 | proved | C23_absorbing C23_isotropic C23_anisotropic C23_covariance | C23_absorbing is the theorem; the other three show that the noise models meet its hypotheses
C24 | proved | C24_hull C24_contract C24_range |
C38 | partial | C38_bounded C38_unchanged C38_values C38_step C38_forever_partial C38_finite C38_regcombination_false | holds for every dynamic with the default post processing; false for RegCombinationCBO, whose variant keeps NaN (negation proved)
C52 | proved | C52_sqrt C52_psd C52_step C52_covariance C52_mean |
C53 | proved | C53_isotropic C53_anisotropic C53_constant |
C42 | partial | C42_three_hump C42_rosenbrock C42_rastrigin C42_ackley C42_multimodal C42_easom C42_snowflake C42_quadratic C42_himmelblau_partial C42_drop_wave_partial C42_holder_table C42_cross_in_tray_partial C42_mccormick_partial C42_michalewicz_partial C42_mccormick_false C42_himmelblau_false C42_bukin6_false C42_drop_wave_false C42_eggholder_false C42_michalewicz_false C42_cross_in_tray_false C42_multimodal_init_false | proved for the objectives whose documented minima are right; negations for the others; Holder table on its documented domain up to the rounding of the listed points; cross-in-tray, McCormick and Michalewicz on bounded domains
C30 | partial | C30_projections C30_l2 C30_elastic C30_nonsmooth C30_stiefel C30_log_barrier_partial C30_simplex_partial C30_entropy_partial C30_square_partial C30_log_barrier_false C30_simplex_false C30_entropy_false C30_weighted_false C30_square_false | proved for L2, ElasticNet, NonsmoothBarrier, ball, hyperplane, sphere, Stiefel; the code violates it for LogBarrierBox at 0, the simplex boundary, Entropy, weighted_L2 and squares of half-width other than 1
C31 | partial | C31_ball C31_plane C31_simplex C31_stiefel C31_sphere_partial C31_square_partial C31_box_partial C31_plane_default_partial C31_sphere_false C31_square_false C31_plane_default_false | proved for ball, hyperplane with given normal, simplex, Stiefel; false for the sphere at 0 (NaN), the default hyperplane in dimension > 1, the square unless r = 1
C32 | proved | C32_ball C32_plane C32_sphere |
C33 | partial | C33_image C33_dual C33_feasible C33_total C33_ball C33_simplex C33_plane_partial C33_plane_false | First half proved for every history. Feasibility proved for every mirror map whose image post processing keeps (ball, simplex); false for the hyperplane because clipping moves points off it (partial theorem: exact while clipping does not act).
C51 | partial | C51_moments C51_drift C51_update C51_mean C51_constant C51_selected C51_nonneg C51_reset_false C51_batch_false | Closed form and non-negativity for every history; the bias-correction claim holds for particles selected in every step since the counter was zero and is false after reset() and with batches.
C18 | partial | C18_all_active_partial C18_all_active_total_partial C18_raises_false C18_reached_false C18_stopped_moves_false | The claim is false: with stopped runs the step raises or moves the stopped runs (witnesses). What holds is independence and totality while all runs are active.
C35 | partial | C35_plane C35_sphere C35_quadric_partial C35_quadric_symmetric_iff C35_quadric_false | Gradient and Hessian are the derivatives for plane and sphere; for the quadric exactly when A is symmetric.
C36 | partial | C36_plane C36_sphere C36_sphere_singular C36_quadric_partial C36_quadric_false C36_hessian_partial C36_call_hessian C36_empty_false C36_plane_hessian_total C36_list | The solves solve the documented systems; exceptions proved: sphere at singular points, quadric with non-symmetric A, empty constraint list.
C37 | partial | C37_regcombination_partial C37_regcombination_optimize_partial C37_drift_false C37_drift_witness_false | Proved for RegCombinationCBO while all runs are active; false for DriftConstrainedCBO, whose particles never move without constraints.
C34 | partial | C34_tangent_sphere C34_tangent_plane C34_tangent_stiefel C34_proj_sphere C34_proj_plane C34_proj_stiefel C34_plane_partial C34_stiefel C34_sphere_partial C34_sphere_false C34_plane_clip_false C34_at_consensus C34_proj_matrix | Stiefel: proved for every step. Plane: up to particles clipped by the post-processing. Sphere: for small steps; for large steps a particle can be mapped to NaN. Increments are tangential on all three surfaces.
C11 | partial | C11_partial C11_optimize_partial C11_memory_partial C11_memory_false C11_pso_false | The claim is false for both dynamics (witnesses). What holds: best_energy is the minimum of all evaluations of the run and is attained by the historical best position y; for CBOMemory best_particle attains it once it improves on the start and nothing is clipped.
C12 | proved | C12_memory C12_pso C12_many C12_optimize C12_stopped_raises | With or without batches, objective never NaN, steps only while a run is active (automatic for M >= 2).
C61 | partial | C61_pso_step C61_repelled C61_diverges C61_attraction_false | The claim is false: the code adds lamda*dt*(x - c) and lamda_memory*dt*(x - y), so a noise-free step from rest pushes every particle away from the consensus point, by an exactly given factor.
C49 | partial | C49_call C49_laws C49_documented_partial C49_gaussian_arrays C49_taz C49_constant_false C49_inverseQuadratic_false C49_gaussian_points_false C49_taz_false | kernel = exp(-neg_log), non-negativity, symmetry and zero diagonal are proved for all kernels and points; documented values for Gaussian and Laplace everywhere. The code violates the rest: the constant kernel is exp(-1) at distance exactly kappa, the inverse quadratic kernel squares 1/kappa, the Gaussian __call__ on bare points is coordinatewise, the Taz kernel is NaN on collapsed ensembles.
C50 | partial | C50_weights C50_convex C50_cbo C50_runs_partial C50_step C50_mode C50_never_raises C50_taz_false C50_batch_raises C50_covariance_partial C50_covariance_raises C50_covariance_false | weights, convexity, agreement with the CBO consensus proved for all kernels; independence of the runs for all kernels but Taz, where it is false (C50_taz_false). batch_partial=False and covariance noise with several runs raise or mix runs.
C41 | proved | C41_1D C41_2D C41_agree C41_check C41_trailing_false | For (M, N, d) ensembles with at least one run, particle and coordinate. For particles with more axes (M, N, d1, d2) the promotion works on the last axis only and check_f_dims rejects it (C41_trailing_false).
C55 | proved | C55_tiles C55_roundtrip C55_onto C55_names C55_duplicates_false | pnames without repetitions (parameter names of a module are distinct); with a repeated name the claim fails (C55_duplicates_false).
C56 | proved | C56_given C56_drawn C56_axes | All shapes; an array without axes raises.
C43 | partial | C43_value C43_bounds C43_membership C43_distance C43_L0_false C43_default_plane_false C43_stopped_false | f where the regulariser vanishes, at least f, monotone in lamda; membership for L1, plane, sphere and quadric, plane (vector normal) and sphere are the Euclidean distances. L0 counts entries within the isclose tolerance as zero (C43_L0_false), the plane with a scalar normal is not a distance (C43_default_plane_false), and with stopped runs a per-run lamda no longer matches the rows (C43_stopped_false).
C44 | partial | C44_update C44_exactly C44_partial C44_theta_partial C44_mean C44_theta_false | lamda claims for all update sequences; theta stays positive and bounded by what one factor allows, but theta_max is not enforced (C44_theta_false).
C45 | proved | C45_resample C45_count C45_criterion | default apply function on x; all criteria outputs with indices below M.
C46 | proved | C46_loss | wait_thresh at least 1.
C47 | partial | C47_partial C47_full C47_early_false | with fewer than patience recorded differences the maximum runs over those that exist, so a run may be selected earlier than the statement allows (C47_early_false).
C48 | proved | C48_evaluation C48_returns C48_criteria C48_default_distance C48_rejected | all criteria lists; an empty or missing list raises.
C62 | partial | C62_track C62_history C62_charge_false C62_stopped_raises C62_stopped_false | record right while all runs are active; every active run is charged an evaluation although only the resampled ones are evaluated (C62_charge_false); with stopped runs the call raises or uses the consensus of another run.
C54 | partial | C54_heaviside C54_stopped_raises C54_batch_raises C54_regularised C54_regularised_drift C54_names C54_succeeds_iff C54_regularised_all C54_regularised_nan_false C54_heaviside_nan | The gate is proved for ensembles with all runs active and without partial batches, including infinite and NaN energies. With stopped runs, and in every partial-batch step, the correction raises (exact characterisation in C54_succeeds_iff). With a NaN energy gap (e.g. objective +inf at particle and consensus) the regularised variant moves the particle to the corner of the domain (C54_regularised_nan_false).
C58 | partial | C58_noise C58_terms C58_term_list C58_mirror C58_mirror_maps C58_kernels C58_regularisers C58_constraints C58_fdim C54_names C58_noise_none_false C58_quadric_false C58_rule_mean_false | All dispatch tables, over all strings. Disagreements: noise=None is documented but raises; the string 'Quadric' selects a regulariser that always fails; rule_mean accepts every string.
C57 | partial | C57_frames C57_covered C57_history_partial C57_single_run C57_window_partial C57_fresh_false C57_stopped_false C57_window_false C57_axes_false | Frame counts and frame contents for all histories and frequencies; no access out of range for CBO as long as all runs were active in every step (always so for a single run). The code violates the rest: IndexError before the first step with plot_consensus, and for runs behind a stopped run (consensus and drift are recorded for active runs only); y_min=0 or y_max=0 are ignored, and the vertical axis limits are the horizontal ones.
C40 | partial | C40_caller C40_reset_false C40_rebind C40_inplace_false C40_equal_false C40_extra_tracks_false C40_first_false | The caller's array is never modified (all dynamics, store model refined to the value model) and history['x'][0] is kept by dynamics that bind a new array. For in-place dynamics (CBO) the first step overwrites history['x'][0]: proved as negation. After reset() positions are no longer recorded although the user asked for them (C40_reset_false).
C60 | partial | C60_walk C60_untouched C60_none_left C60_endless C60_best_partial C60_mismatch_false C60_best_false C60_stopped_false | Loop part proved for all ensembles and random outcomes (partial correctness; the loop has no bound, C60_endless). Consistency of best_particle only as long as no run is collapsed; otherwise false: energies are evaluated after the perturbation, best_particle is taken from before it (negations proved). Stopped runs are perturbed too (C60_stopped_false).
C59 | partial | C59_seed_partial C59_adequate C59_global C59_batch_seed C59_draws C59_adequate_constrained C59_x_false C59_sampler_false C59_indep_false | With a seed, a given initial ensemble and the default sampler the complete state is independent of the global generator (all generators, seeds, interleaved code). Without a given ensemble, with exponential_sampler, or with independent noise the claim is false (negations proved). The adequacy theorems connect generator objects with the random-outcome functions used by all other theorems.
C25 | partial | C25_translation_partial C25_scaling C25_corrections C25_rules C25_scaling_anisotropic C25_scaling_isotropic C25_inside_partial C25_clip_false C25_reflect_false C25_constant_false | Scaling is proved with the default clipping (bound and tolerances scaled); isotropic noise needs a positive factor (reflection with the same random numbers is false: C25_reflect_false). Translation holds for post processing that commutes with it, and with the default clipping as long as particles stay inside the bounds; clipping itself breaks it (C25_clip_false). All corrections that can be selected by name are covered; custom criteria and schedules must not read absolute positions.
C63 | proved | C63_points C63_best C63_total C63_off C63_best_cur_false | For all dynamics using CBXDynamic.compute_consensus; PolarCBO, CBOMemory and PSO override it and ignore the option. C63_best_cur_false: with batch_partial=False best_cur_particle itself need not have energy best_cur_energy, the saved point does.
C64 | partial | C64_construct C64_run C64_step C64_stopped_false | Construction and run proved for a single run with any stateless criteria, and for any number of runs with max_it / max_time. With several runs and a criterion that stops runs one by one (energy_tol, diff_tol, max_eval) the run raises in the next step: proved as C64_stopped_false. The covariance square root uses an arbitrary eigh. CBS.optimize returns None, unlike the base class.
C65 | partial | C65_best C65_history C65_max_it C65_criteria_false C65_history_false C65_late_false | Proved: max_it, and best particle for inner steps that evaluate at the beginning of the step. The rest is false: max_eval, max_time and energy_stagnation raise AttributeError on the base class; the history is written before post processing; an inner step that evaluates after moving gets a wrong best_particle.
C66 | partial | C66_raises C66_ensemble C66_uniform C66_normal C66_shape_false | Everything but the shape is proved; the documented shape (M, N, d) fails for uniform initialisation with shape (N, d), which returns (N, d), but after init_x the ensemble has it. The singular value decomposition inside multivariate_normal is an arbitrary orthogonal matrix.
C67 | partial | C67_post C67_runs_partial C67_step C67_effective_range C67_effective_partial C67_seed_ignored C67_regcombination_false C67_effective_false C67_seed_false | Equality of post-processing, runs and scheduler proved. False: for RegCombinationCBO the two versions post-process differently; with maximum below minimum the schedulers differ; the seed is ignored by PyTorch dynamics (proved for all programs), so runs are not reproducible by seed.
C68 | partial | C68_l2_partial C68_log_barrier C68_nonsmooth_partial C68_elastic C68_weighted_partial C68_l2_hessian_false C68_entropy_false C68_hessian_raises | Proved for L2 (Hessian for lamda = 1), the barriers, the elastic net and single vectors of weighted L2. False: the Hessian of L2 ignores lamda, the gradient of Entropy contains an extra constant, every hessian raises on three-dimensional ensembles.
C69 | partial | C69_l2 C69_ball_partial C69_log_barrier C69_elastic C69_nonsmooth_partial C69_ball_false C69_nonsmooth_false C69_entropy_false C69_weighted_false | Proved for L2, the ball around 0, the logarithmic barrier, the elastic net and the non-smooth barrier on one particle. False for other centres, several particles of the non-smooth barrier, Entropy (concave), and weighted L2 on arrays. The other maps have no function, so Bregman_distance raises NotImplementedError.
C70 | partial | C70_feasible C70_sets C70_stiefel C70_prox_elastic C70_best_partial C70_frozen_partial C70_best_false C70_stopped_false C70_simplex_false | Feasibility of all particles proved for every dynamic. best_particle is feasible if the initial ensemble is, otherwise not (C70_best_false). Stopped runs are frozen for projections; maps that move feasible points (L2 with lamda different from 1, the softmax) also move the particles of stopped runs.
C71 | partial | C71_adam_partial C71_mirror_partial C71_mirror_frozen C71_adam_covariance_partial C71_mirror_covariance_partial | Proved for all noise models and schedulers that treat each run separately; with sched='effective' it is false as for CBO (C17_effective_false).
C72 | partial | C72_step_partial C72_iso_empty_false C72_diff_partial C72_diff_false C72_covariance_shape C72_covariance_false | The step is proved for constant, isotropic and anisotropic noise without correction, for any particle shape. The rest of the statement is false for two or more trailing axes: update_diff has shape (M, N, ...) and diff_tol raises, covariance noise raises.
C73 | partial | C73_shape_partial C73_index_raises C73_squeeze_partial C73_squeeze_false C73_p4 C73_accelerated_sinus C73_nd_sinus C73_banana C73_bimodal C73_multimodal C73_centre_false | The shape statement is false for accelerated_sinus, nd_sinus, p_4th_order and Multimodal with one run (the default) or one particle, because their results are squeezed, and the constructors of Bimodal and Unimodal raise for arrays; the minima are proved.
C74 | partial | C74_infinite_partial C74_refines C74_between C74_iff C74_nan_false C74_alpha_zero_false C74_rescale_partial C74_rescale_nan_false C74_check_useless C74_step_false C74_stuck_false C74_lost_false | True for +inf energies as long as one energy of the sample is finite and alpha is positive. False otherwise: one NaN or -inf energy makes the whole consensus NaN, the step sends the run to the corner max_thresh, where it stays for ever, and the optional check never raises.
C75 | partial | C75_number_partial C75_array_partial C75_form_false C75_alpha_int_false C75_step_int_false C75_best_int_false | True for float ensembles with a Python number or an (M, 1) array. False for integer ensembles (alpha truncated, in-place updates raise, best_particle truncated) and for NumPy scalars, lists and (M,) arrays as alpha.
C76 | proved | C76_step_isotropic C76_step_anisotropic C76_decay_isotropic C76_decay_anisotropic C76_growth_isotropic C76_growth_anisotropic | The expectation after k steps is the k-fold iterated integral over the numbers drawn in each step; a step that raises would count as infinity. Without correction, unbatched or with batch_partial=False.
C77 | partial | C77_resume_partial C77_split_partial C77_raises_partial C77_dynamics_partial C77_memory_partial C77_stagnation_false | True for all criteria except energy_stagnation (schedulers without internal state). False with energy_stagnation: the second call always raises, because the criterion is evaluated without active runs.
C78 | partial | C78_cbo_partial C78_hypersurface_false C78_adam_dt_false C78_correction_false | True for lamda in CBO. False: HyperSurfaceCBO ignores lamda; the drift of AdamCBO ignores dt; AdamCBO, DriftConstrainedCBO, RegCombinationCBO and HyperSurfaceCBO ignore correction.
C79 | partial | C79_entries_partial C79_drift_partial C79_best_partial C79_interval_false C79_batch_false C79_energy_doc_false | True when every step is tracked and nothing is batched (runs may stop; the best energy also with batches). False for save_int > 1 (energies are those before the step, positions those after it) and with batches; entry 0 of history['x'] is overwritten by dynamics working in place (C40); history['energy'] holds the whole energy array, not the documented best energies.
C80 | proved | C80_losses C80_networks C80_accuracy C80_empty | Networks are arbitrary functions of their parameters and input; the accuracy is for networks that treat the inputs of a batch one by one, with one label per input; rounding of the quotient and NaN outputs are not modelled.
C81 | proved | C81_memory_step C81_pso_step C81_memory_independent C81_pso_independent | Unbatched, no correction, one consensus point per run, noise and post processing acting particle by particle, criteria without internal state; with several runs optimize finishes only if the runs stop together (C19_memory_stopped_false).
C82 | proved | C82_isotropic C82_anisotropic | Exact real arithmetic, no correction, unbatched or batch_partial=False, the run stays active (steps only, no termination); post processing that is idempotent and does not increase distances between coordinates (clipping or none).
C83 | partial | C83_adam C83_memory_partial C83_memory_one_partial C83_pso_partial C83_memory_false C83_pso_false | True for AdamCBO here, for CBO by C19_never_raises_partial, for MirrorCBO by C33_total, for PolarCBO with batch_partial=True by C50_never_raises (false with batch_partial=False: C50_batch_raises). False for CBOMemory unless B=1 and batch_partial=False, and for PSO with batch_partial=True (the default): every step raises.
C84 | partial | C84_result_partial C84_output C84_none C84_cbs C84_zero_false C84_text_false | The result is independent of verbosity and of print_int except for print_int=0, which raises ZeroDivisionError after the first step even with verbosity 0; a string that names no scheduler is not rejected but fails after the first step (not at all if there is none), except in CBS.run, which also rejects 'effective'.
C85 | proved | C85_tail C85_mean C85_stops | Exact real arithmetic, the default (Frobenius) norm on positions that are vectors, no correction, unbatched or batch_partial=False, scheduler that maps each parameter by itself (multiply, None; not the adaptive effective-sample-size scheduler); post processing that is idempotent and does not increase distances between coordinates (clipping or none). With the energy stagnation or user-defined criteria stopped runs may become active again; they are excluded.
C86 | partial | C86_default_partial C86_rescaled C86_lost C86_false | The error is bounded by (10 u W + 130 n^2 (u + eta)) X + 2 n eta if W bounds |alpha * energy| and the factor is at most 1, and without any bound on the energies for the rescaled rule of HyperSurfaceCBO. For the default rule the claim is false: if log n is below half a unit in the last place of alpha * energy, n particles of equal energy get coefficient 1 each and the consensus is their sum (single precision: alpha=1e5, objective value 400). Overflow is not modelled; logsumexp is modelled as log(sum(exp(w - max))) + max.
C87 | partial | C87_ess_partial C87_lost C87_false | The error is bounded by n (20 u W + 110 n^2 (u + eta)) if W bounds |alpha * energy| and 10 u W + 60 n^2 (u + eta) <= 1. Without a bound on the weights the claim is false: for large alpha * energy n particles of equal energy give effective sample size 1 instead of n, and the gap has the wrong sign. Overflow is not modelled.
C88 | partial | C88_clock C88_exact C88_bounds C88_dyadic C88_more_false C88_fewer_false C88_endless_false | In exact arithmetic the loop ends after ceil((T - t)/dt) steps (unless a step raises). In floating point arithmetic the clock after k steps is k*dt up to factors (1 +- u)^k, and the claim holds if the multiples of dt are representable (dt a power of two). In general it is false: in every format there are dt and T = 8*dt with 9 steps, dt and T with 3 steps although 3*dt < T, and loops that never end because the clock is stuck at 2^p * dt. Overflow is not modelled.
C89 | partial | C89_energy C89_memory_partial C89_memory_false | The energies are exact in any arithmetic. Positions: false in every format, because a position is replaced by adding the difference (two steps suffice to store a position with objective value +inf beside a finite energy); proved instead: every coordinate of y differs from that of a visited position attaining the energy by at most 4 u B, where B bounds the evaluated coordinates, however many steps were made (at least 3 bits, no overflow or underflow).
C90 | partial | C90_hull_partial C90_default_partial C90_rescaled_partial C90_false | False without an error term, in every format. Proved: after k steps the ensemble has left the box by at most ((1 + g + 10u)^k - 1) B, with g = 10uW + 130 n^2 u for the default rule (W bounds |alpha f|) and g = 100 n^2 u for the rescaled rule; finite objective, no correction, scheduler keeps sigma = 0 and lamda*dt in [0,1]; at least 3 bits, no overflow or underflow.
C91 | partial | C91_multiply C91_reaches C91_multiply_false C91_machine C91_stops C91_bracket C91_root C91_effective | The product is right up to relative errors (1 +- u)^k, and not exactly (C91_multiply_false); the cap is exact and is reached. Bisection: exact bracket, sign change within (high - low)/2^max_it + 2uB. The effective sample size is eta*N up to the threshold and n(20uW + 110 n^2 u), if W bounds alpha*energy (without such a bound the computed size is wrong, C87_false); no overflow or underflow.
C92 | partial | C92_hull C92_absorbing C92_contract_false | Hull and absorption are proved. Contraction to consensus is false for lamda_memory*dt > 0: from an ensemble of minimisers all differences stay at least lamda_memory*dt times the initial ones (C92_contract_false). No batches, no correction, step only while a run is active.
C93 | proved | C93_consensus C93_mean C93_worst C93_limit C93_best C93_nonconvex_false | Convexity is needed: C93_nonconvex_false. Exact arithmetic; post processing is the identity on the convex set considered.
C94 | partial | C94_history_partial C94_total C94_shared_false C94_key_false C94_off_false | Proved if no list extra_tracks is used for two dynamics and no key is written by two trackers. Otherwise false: init_history uses and extends the list of the caller, so dynamics made from the same track_args all record every value several times, or raise KeyError in the next step if the names differ.
C95 | proved | C95_hull C95_absorbing C95_clusters C95_group C95_contract C95_consensus_false | The Taz kernel (NaN weights for coinciding particles) is outside the quantifier; groups exclude batch_partial=False, where the batch of a run need not be a set of whole groups. C95_consensus_false is a concrete dynamic that never gathers at one point.
C96 | partial | C96_stagnation_partial C96_stagnation_early C96_stagnation_false C96_loss_partial C96_loss_stale C96_loss_false C96_consensus_partial C96_used C96_consensus_false | False as stated (proved): the objects keep buffers, best energies and consensus points of the earlier dynamic. Proved: energy stagnation and consensus stagnation agree with new objects from patience steps on, loss stagnation from the first energy below the stored one on; before that the exact decisions are given. Objects used on a dynamic with another number of runs are not modelled.
C97 | partial | C97_partial C97_rows C97_plot_false | False as stated (proved): the first evaluation turns lamda into a column with as many rows as its argument. Proved for arrays with that many rows, and for all arrays if the first one had one row; otherwise the call raises or returns too many rows.
C98 | partial | C98_iff C98_accurate_partial C98_rescaled C98_overflow_false C98_run C98_corner_false | False as stated (proved): if alpha*energy overflows for all particles the consensus point is NaN and the step throws the particles to the corner of the box. Proved exactly when the point is finite, accuracy for moderate weights, the rescaled rule without restriction, and the invariant over runs for objectives bounded on the box
C99 | partial | C99_live_partial C99_history_partial C99_index_false C99_wrong_run_false C99_fresh_false C99_stopped_false C99_interval_false | False as stated (proved): consensus and drift have one row per active run, so after a run has stopped the plot of run r shows the consensus and arrows of another run or raises IndexError; with save_int > 1 the arrows do not end in the consensus point; before the first step update() raises. Proved as long as row r of the active runs is run r, and history = live plot for save_int = 1
C100 | partial | C100_partial C100_l2_partial C100_clip_false C100_nan_false C100_nan_run_false | False as stated (proved): post processing changes x but not y, so after a particle has been clipped or repaired from NaN the runs differ, and a NaN in y stays for ever. Proved for all runs in which post processing changes no particle
C101 | proved | C101_dual_history | Equality of lists for every interval and operation sequence
C102 | proved | C102_cbo C102_mirror C102_adam C102_default C102_rescale C102_polar C102_correction C102_multiply C102_alpha_false C102_sched_false C102_reg_false C102_polar_alpha_false | Lockstep simulation for every successful operation sequence; the four failures named in the statement are proved with witnesses
C103 | proved | C103_stay C103_descent C103_uncorrected_false C103_hill_false | Any consensus rule; the two failures named in the statement are proved with witnesses
C104 | proved | C104_run C104_optimize C104_best C104_default C104_best_particle_false | Simulation by induction over operation sequences and over the loop of optimize; the failure for best_particle named in the statement is proved with a witness
C105 | proved | C105_run C105_optimize C105_kappa C105_rule C105_kernel C105_consensus C105_taz_false C105_stagnation_false | Lockstep simulation by induction over operation sequences and over the loop of optimize; the two exceptions named in the statement are proved with witnesses. The covariance noise of PolarCBO is a different function and outside the quantifier (C50_covariance_false)
C106 | proved | C106_anisotropic C106_isotropic C106_constant C106_covariance C106_law_anisotropic C106_law_isotropic C106_normal | Exact moments over real arithmetic; the noise of earlier steps is arbitrary, the noise of the step in question is a family of samples on a probability space
C107 | proved | C107_tail C107_ends C107_run | Real arithmetic; the loop of the model has a bound on the number of tests, which is shown to be irrelevant almost surely. C60_endless shows that dt = 0 makes the loop endless
C108 | proved | C108_consensus C108_run C108_uniform | Real arithmetic. The run bound is for noise-free CBO without batches (the consensus bound for all noise models and batches) and for a convex set on which post processing does nothing
C109 | proved | C109_similarity C109_law C109_anisotropic_false C109_clip_false | Real arithmetic, default consensus rule, eigh with its contract; the two failures named in the statement are proved with witnesses. With Q = 1 this covers translations and scalings for covariance noise, which C25 does not
C110 | proved | C110_isotropic C110_anisotropic | Exact real arithmetic, no correction, unbatched, alpha fixed (steps only, no scheduler), the run stays active; for a constant objective K = 0 and q agrees with the lower bound of C76_growth, so that the bound is sharp.
C111 | proved | C111_isotropic C111_anisotropic | Exact real arithmetic, no correction, unbatched, alpha fixed (steps only), the run stays active; time-discrete and with independent noise for every particle, as in the code.
C112 | proved | C112_steps C112_law C112_trajectories C112_isotropic_false | Exact real arithmetic, no correction, unbatched, all runs active, parameters fixed (steps only); eigh by its contract. Measurable objective and post processing for the law of the trajectories. Criteria that read norms of updates are not invariant and not part of the statement.
C113 | proved | C113_covariance C113_few C113_anisotropic C113_isotropic | Exact real arithmetic, no drift correction, default consensus rule and finite objective (isotropic: any rule with one point per run). The statement for few particles is without post processing: clipping can leave an affine span that is not parallel to the axes.
C114 | proved | C114_reach C114_best C114_isotropic C114_anisotropic C114_constant | Exact real arithmetic, no drift correction, any rule with one consensus point per run, post processing particle by particle (none or clipping).
C115 | proved | C115_large_alpha | Exact real arithmetic, no drift correction, default consensus rule, post processing particle by particle. The dynamic that follows the best particle is a comparison object, not code of the library. Without uniqueness of the best particle the limit is a mean of the best particles (C22).
C116 | proved | C116_steps | Exact real arithmetic, no drift correction, default consensus rule, post processing particle by particle that fits the new units (none, or clipping to the rescaled box). For isotropic noise the statement is false (C112_isotropic_false).
C117 | proved | C117_tail C117_minimum C117_particle | Exact real arithmetic, no drift correction, default consensus rule, constant parameters, finite measurable objective; batches without batch_partial (all particles move) or none. With isotropic or anisotropic noise it is false: an ensemble at one point never moves (C113_isotropic).
C118 | partial | C118_gaussian C118_norm_partial C118_consensus_partial C118_kernels_false | Proved for the Gaussian kernel and any particle shape, and for the other kernels with one trailing axis. For the other kernels with two or more trailing axes the statement is false: neg_log keeps axes and the consensus raises ValueError (C118_kernels_false).
C119 | proved | C119_violation C119_weight C119_limit C119_step | In exact arithmetic; the step theorem is for plain CBO with the default consensus rule and a penalty common to all runs.
C120 | proved | C120_tail C120_mean C120_stops C120_result | Exact real arithmetic, the default (Frobenius) norm on positions that are vectors, no correction, unbatched or batch_partial=False, a scheduler that leaves lamda, sigma and dt unchanged; post processing into a box that is idempotent and does not increase distances between coordinates (clipping). Energy stagnation and user-defined criteria are excluded.
C121 | proved | C121_shape C121_update C121_alone C121_mismatch_raises C121_uncalled_raises C121_count C121_plot_raises C121_contour_raises | Exact real arithmetic; objective and regulariser act point by point. lamda given as a number (lamda_broadcasted=False, the default).
C122 | proved | C122_collapsed C122_noise_free | Exact real arithmetic, standard environment; the recorded energies and minimum of the run are assumed not below the tolerance in the start state (true after construction, where they are +inf).
C123 | proved | C123_step C123_bounds C123_flat C123_sampling_expands | One step from any reachable state, exact real arithmetic, without correction and post processing; the square root of the covariance uses any correct eigh.
C124 | proved | C124_init C124_runs C124_optimize C124_lamda_one C124_row_noise C124_cov_noise C124_multiply_sched C124_multiply_unit | Plain CBO in exact real arithmetic, all consensus rules and corrections of the model; post processing, user-defined corrections and criteria must not read lamda, sigma, dt, t, and the scheduler must act in proportion (hypothesis Unitless).
C125 | partial | C125_inertia_partial C125_step C125_not_kept C125_coast C125_stops | The statement holds for dt = 1 only. For every other step size and m != 0 it is violated by every moving particle (C125_not_kept): pso.py:128 multiplies m*v by dt. Without friction and with dt < 1 a particle never moves farther than dt^2/(1-dt) times its velocity (C125_stops). Unbatched, no correction, no clipping, one consensus point per run.
