# Axioms per theorem

Output of `#print axioms`, written by `tools/axioms.py`.

| theorem | axioms |
|---|---|
| C01_max_it | Classical.choice, Quot.sound, propext |
| C01_max_it_exact | Classical.choice, Quot.sound, propext |
| C01_memory | Classical.choice, Quot.sound, propext |
| C02_active_iff | Quot.sound, propext |
| C02_memory | Classical.choice, Quot.sound, propext |
| C02_not_early | Quot.sound, propext |
| C02_optimize_done | Classical.choice, Quot.sound, propext |
| C03_fixed | Quot.sound, propext |
| C03_frozen | Classical.choice, Quot.sound, propext |
| C04_heaviside_false | Classical.choice, Quot.sound, propext |
| C04_heaviside_partial | Classical.choice, Quot.sound, propext |
| C04_max_eval_partial | Classical.choice, Quot.sound, propext |
| C04_memory_batch_false | Classical.choice, Quot.sound, propext |
| C04_memory_partial | Classical.choice, Quot.sound, propext |
| C04_optimize_partial | Classical.choice, Quot.sound, propext |
| C04_stagnation_false | Classical.choice, Quot.sound, propext |
| C05_max_time | Classical.choice, Quot.sound, propext |
| C05_memory | Classical.choice, Quot.sound, propext |
| C06_not_early | Classical.choice, Quot.sound, propext |
| C06_stagnation | Classical.choice, Quot.sound, propext |
| C07_false | Classical.choice, Quot.sound, propext |
| C07_optimize_false | Classical.choice, Quot.sound, propext |
| C07_single_partial | Quot.sound, propext |
| C08_false | Classical.choice, Quot.sound, propext |
| C08_rerun_partial | Classical.choice, Quot.sound, propext |
| C08_reset_partial | Classical.choice, Quot.sound, propext |
| C09_best_energy | Quot.sound, propext |
| C09_monotone | Quot.sound, propext |
| C100_clip_false | Classical.choice, Quot.sound, propext |
| C100_l2_partial | Classical.choice, Quot.sound, propext |
| C100_nan_false | Classical.choice, Quot.sound, propext |
| C100_nan_run_false | Classical.choice, Quot.sound, propext |
| C100_partial | Classical.choice, Quot.sound, propext |
| C101_dual_history | Classical.choice, Quot.sound, propext |
| C102_adam | Classical.choice, Quot.sound, propext |
| C102_alpha_false | Classical.choice, Quot.sound, propext |
| C102_cbo | Classical.choice, Quot.sound, propext |
| C102_correction | Classical.choice, Quot.sound, propext |
| C102_default | Classical.choice, Quot.sound, propext |
| C102_mirror | Classical.choice, Quot.sound, propext |
| C102_multiply | Classical.choice, Quot.sound, propext |
| C102_polar | Classical.choice, Quot.sound, propext |
| C102_polar_alpha_false | Classical.choice, Quot.sound, propext |
| C102_reg_false | Classical.choice, Quot.sound, propext |
| C102_rescale | Classical.choice, Quot.sound, propext |
| C102_sched_false | Classical.choice, Quot.sound, propext |
| C103_descent | Classical.choice, Quot.sound, propext |
| C103_hill_false | Classical.choice, Quot.sound, propext |
| C103_stay | Classical.choice, Quot.sound, propext |
| C103_uncorrected_false | Classical.choice, Quot.sound, propext |
| C104_best | Classical.choice, Quot.sound, propext |
| C104_best_particle_false | Classical.choice, Quot.sound, propext |
| C104_default | Classical.choice, Quot.sound, propext |
| C104_optimize | Classical.choice, Quot.sound, propext |
| C104_run | Classical.choice, Quot.sound, propext |
| C105_consensus | Classical.choice, Quot.sound, propext |
| C105_kappa | Classical.choice, Quot.sound, propext |
| C105_kernel | Classical.choice, Quot.sound, propext |
| C105_optimize | Quot.sound, propext |
| C105_rule | Classical.choice, Quot.sound, propext |
| C105_run | Quot.sound, propext |
| C105_stagnation_false | Classical.choice, Quot.sound, propext |
| C105_taz_false | Classical.choice, Quot.sound, propext |
| C106_anisotropic | Classical.choice, Quot.sound, propext |
| C106_constant | Classical.choice, Quot.sound, propext |
| C106_covariance | Classical.choice, Quot.sound, propext |
| C106_isotropic | Classical.choice, Quot.sound, propext |
| C106_law_anisotropic | Classical.choice, Quot.sound, propext |
| C106_law_isotropic | Classical.choice, Quot.sound, propext |
| C106_normal | Classical.choice, Quot.sound, propext |
| C107_ends | Classical.choice, Quot.sound, propext |
| C107_run | Classical.choice, Quot.sound, propext |
| C107_tail | Classical.choice, Quot.sound, propext |
| C108_consensus | Classical.choice, Quot.sound, propext |
| C108_run | Classical.choice, Quot.sound, propext |
| C108_uniform | Classical.choice, Quot.sound, propext |
| C109_anisotropic_false | Classical.choice, Quot.sound, propext |
| C109_clip_false | Classical.choice, Quot.sound, propext |
| C109_law | Classical.choice, Quot.sound, propext |
| C109_similarity | Classical.choice, Quot.sound, propext |
| C10_best_particle | Quot.sound, propext |
| C10_optimize | Quot.sound, propext |
| C110_anisotropic | Classical.choice, Quot.sound, propext |
| C110_isotropic | Classical.choice, Quot.sound, propext |
| C111_anisotropic | Classical.choice, Quot.sound, propext |
| C111_isotropic | Classical.choice, Quot.sound, propext |
| C112_isotropic_false | Classical.choice, Quot.sound, propext |
| C112_law | Classical.choice, Quot.sound, propext |
| C112_steps | Classical.choice, Quot.sound, propext |
| C112_trajectories | Classical.choice, Quot.sound, propext |
| C113_anisotropic | Classical.choice, Quot.sound, propext |
| C113_covariance | Classical.choice, Quot.sound, propext |
| C113_few | Classical.choice, Quot.sound, propext |
| C113_isotropic | Classical.choice, Quot.sound, propext |
| C114_anisotropic | Classical.choice, Quot.sound, propext |
| C114_best | Classical.choice, Quot.sound, propext |
| C114_constant | Classical.choice, Quot.sound, propext |
| C114_isotropic | Classical.choice, Quot.sound, propext |
| C114_reach | Classical.choice, Quot.sound, propext |
| C115_large_alpha | Classical.choice, Quot.sound, propext |
| C116_steps | Classical.choice, Quot.sound, propext |
| C117_minimum | Classical.choice, Quot.sound, propext |
| C117_particle | Classical.choice, Quot.sound, propext |
| C117_tail | Classical.choice, Quot.sound, propext |
| C118_consensus_partial | Classical.choice, Quot.sound, propext |
| C118_gaussian | Classical.choice, Quot.sound, propext |
| C118_kernels_false | Classical.choice, Quot.sound, propext |
| C118_norm_partial | Classical.choice, Quot.sound, propext |
| C119_limit | Classical.choice, Quot.sound, propext |
| C119_step | Classical.choice, Quot.sound, propext |
| C119_violation | Classical.choice, Quot.sound, propext |
| C119_weight | Classical.choice, Quot.sound, propext |
| C11_memory_false | Classical.choice, Quot.sound, propext |
| C11_memory_partial | Classical.choice, Quot.sound, propext |
| C11_optimize_partial | Classical.choice, Quot.sound, propext |
| C11_partial | Classical.choice, Quot.sound, propext |
| C11_pso_false | Classical.choice, Quot.sound, propext |
| C120_mean | Classical.choice, Quot.sound, propext |
| C120_result | Classical.choice, Quot.sound, propext |
| C120_stops | Classical.choice, Quot.sound, propext |
| C120_tail | Classical.choice, Quot.sound, propext |
| C121_alone | Classical.choice, Quot.sound, propext |
| C121_contour_raises | Classical.choice, Quot.sound, propext |
| C121_count | Classical.choice, Quot.sound, propext |
| C121_mismatch_raises | Classical.choice, Quot.sound, propext |
| C121_plot_raises | Classical.choice, Quot.sound, propext |
| C121_shape | Classical.choice, Quot.sound, propext |
| C121_uncalled_raises | Classical.choice, Quot.sound, propext |
| C121_update | Classical.choice, Quot.sound, propext |
| C122_collapsed | Classical.choice, Quot.sound, propext |
| C122_noise_free | Classical.choice, Quot.sound, propext |
| C123_bounds | Classical.choice, Quot.sound, propext |
| C123_flat | Classical.choice, Quot.sound, propext |
| C123_sampling_expands | Classical.choice, Quot.sound, propext |
| C123_step | Classical.choice, Quot.sound, propext |
| C124_cov_noise | Classical.choice, Quot.sound, propext |
| C124_init | Classical.choice, Quot.sound, propext |
| C124_lamda_one | Classical.choice, Quot.sound, propext |
| C124_multiply_sched | Classical.choice, Quot.sound, propext |
| C124_multiply_unit | Classical.choice, Quot.sound, propext |
| C124_optimize | Classical.choice, Quot.sound, propext |
| C124_row_noise | Classical.choice, Quot.sound, propext |
| C124_runs | Classical.choice, Quot.sound, propext |
| C125_coast | Classical.choice, Quot.sound, propext |
| C125_inertia_partial | Classical.choice, Quot.sound, propext |
| C125_not_kept | Classical.choice, Quot.sound, propext |
| C125_step | Classical.choice, Quot.sound, propext |
| C125_stops | Classical.choice, Quot.sound, propext |
| C12_many | Classical.choice, Quot.sound, propext |
| C12_memory | Classical.choice, Quot.sound, propext |
| C12_optimize | Classical.choice, Quot.sound, propext |
| C12_pso | Classical.choice, Quot.sound, propext |
| C12_stopped_raises | Classical.choice, Quot.sound, propext |
| C13_cbo_partial | Classical.choice, Quot.sound, propext |
| C13_count_general | Classical.choice, Quot.sound, propext |
| C13_heaviside_overcounts | Classical.choice, Quot.sound, propext |
| C13_memory_closed | Classical.choice, Quot.sound, propext |
| C13_memory_optimize | Classical.choice, Quot.sound, propext |
| C13_memory_partial | Classical.choice, Quot.sound, propext |
| C14_batch_valid | Quot.sound, propext |
| C14_concat_false | Classical.choice, Quot.sound, propext |
| C15_concat_fair | Classical.choice, Quot.sound, propext |
| C15_resample_epochs | Quot.sound, propext |
| C16_only_selected | Quot.sound, propext |
| C16_update | Classical.choice, Quot.sound, propext |
| C17_covariance_partial | Classical.choice, Quot.sound, propext |
| C17_effective_false | Classical.choice, Quot.sound, propext |
| C17_heaviside_false | Classical.choice, Quot.sound, propext |
| C17_heaviside_partial | Classical.choice, Quot.sound, propext |
| C17_independent_partial | Classical.choice, Quot.sound, propext |
| C18_all_active_partial | Quot.sound, propext |
| C18_all_active_total_partial | Quot.sound, propext |
| C18_raises_false | Classical.choice, Quot.sound, propext |
| C18_reached_false | Classical.choice, Quot.sound, propext |
| C18_stopped_moves_false | Classical.choice, Quot.sound, propext |
| C19_adam_cov_partial | Classical.choice, Quot.sound, propext |
| C19_cov_optimize_partial | Classical.choice, Quot.sound, propext |
| C19_covariance_batched_false | Classical.choice, Quot.sound, propext |
| C19_covariance_partial | Classical.choice, Quot.sound, propext |
| C19_covariance_stopped_false | Classical.choice, Quot.sound, propext |
| C19_heaviside_partial | Classical.choice, Quot.sound, propext |
| C19_idle_false | Quot.sound, propext |
| C19_memory_partial | Classical.choice, Quot.sound, propext |
| C19_memory_stopped_false | Classical.choice, Quot.sound, propext |
| C19_mirror_cov_partial | Classical.choice, Quot.sound, propext |
| C19_never_raises_partial | Quot.sound, propext |
| C19_optimize_partial | Quot.sound, propext |
| C19_pso_partial | Classical.choice, Quot.sound, propext |
| C20_convex | Classical.choice, Quot.sound, propext |
| C20_coordinates | Classical.choice, Quot.sound, propext |
| C20_step | Classical.choice, Quot.sound, propext |
| C20_weights | Classical.choice, Quot.sound, propext |
| C21_mean | Classical.choice, Quot.sound, propext |
| C21_perm | Classical.choice, Quot.sound, propext |
| C21_rescale | Classical.choice, Quot.sound, propext |
| C21_shift | Classical.choice, Quot.sound, propext |
| C22_best | Classical.choice, Quot.sound, propext |
| C22_energy_antitone | Classical.choice, Quot.sound, propext |
| C22_energy_mean | Classical.choice, Quot.sound, propext |
| C22_laplace | Classical.choice, Quot.sound, propext |
| C23_absorbing | Classical.choice, Quot.sound, propext |
| C23_anisotropic | Classical.choice, Quot.sound, propext |
| C23_covariance | Classical.choice, Quot.sound, propext |
| C23_isotropic | Classical.choice, Quot.sound, propext |
| C24_contract | Classical.choice, Quot.sound, propext |
| C24_hull | Classical.choice, Quot.sound, propext |
| C24_range | Classical.choice, Quot.sound, propext |
| C25_clip_false | Classical.choice, Quot.sound, propext |
| C25_constant_false | Classical.choice, Quot.sound, propext |
| C25_corrections | Classical.choice, Quot.sound, propext |
| C25_inside_partial | Classical.choice, Quot.sound, propext |
| C25_reflect_false | Classical.choice, Quot.sound, propext |
| C25_rules | Classical.choice, Quot.sound, propext |
| C25_scaling | Classical.choice, Quot.sound, propext |
| C25_scaling_anisotropic | Classical.choice, Quot.sound, propext |
| C25_scaling_isotropic | Classical.choice, Quot.sound, propext |
| C25_translation_partial | Classical.choice, Quot.sound, propext |
| C26_capped | Quot.sound, propext |
| C26_default | Classical.choice, Quot.sound, propext |
| C26_grow | Classical.choice, Quot.sound, propext |
| C26_shrink | Classical.choice, Quot.sound, propext |
| C27_accuracy | Classical.choice, Quot.sound, propext |
| C27_bracket | Classical.choice, Quot.sound, propext |
| C27_sign | Classical.choice, Quot.sound, propext |
| C27_stops | Quot.sound, propext |
| C28_antitone | Classical.choice, Quot.sound, propext |
| C28_continuous | Classical.choice, Quot.sound, propext |
| C28_gap | Classical.choice, Quot.sound, propext |
| C28_range | Classical.choice, Quot.sound, propext |
| C28_shift | Classical.choice, Quot.sound, propext |
| C28_zero | Classical.choice, Quot.sound, propext |
| C29_accuracy | Classical.choice, Quot.sound, propext |
| C29_early | Classical.choice, Quot.sound, propext |
| C29_range | Classical.choice, Quot.sound, propext |
| C30_elastic | Classical.choice, Quot.sound, propext |
| C30_entropy_false | Classical.choice, Quot.sound, propext |
| C30_entropy_partial | Classical.choice, Quot.sound, propext |
| C30_l2 | Classical.choice, Quot.sound, propext |
| C30_log_barrier_false | Classical.choice, Quot.sound, propext |
| C30_log_barrier_partial | Classical.choice, Quot.sound, propext |
| C30_nonsmooth | Classical.choice, Quot.sound, propext |
| C30_projections | Classical.choice, Quot.sound, propext |
| C30_simplex_false | Classical.choice, Quot.sound, propext |
| C30_simplex_partial | Classical.choice, Quot.sound, propext |
| C30_square_false | Classical.choice, Quot.sound, propext |
| C30_square_partial | Classical.choice, Quot.sound, propext |
| C30_stiefel | Classical.choice, Quot.sound, propext |
| C30_weighted_false | Classical.choice, Quot.sound, propext |
| C31_ball | Classical.choice, Quot.sound, propext |
| C31_box_partial | Classical.choice, Quot.sound, propext |
| C31_plane | Classical.choice, Quot.sound, propext |
| C31_plane_default_false | Classical.choice, Quot.sound, propext |
| C31_plane_default_partial | Classical.choice, Quot.sound, propext |
| C31_simplex | Classical.choice, Quot.sound, propext |
| C31_sphere_false | Classical.choice, Quot.sound, propext |
| C31_sphere_partial | Classical.choice, Quot.sound, propext |
| C31_square_false | Classical.choice, Quot.sound, propext |
| C31_square_partial | Classical.choice, Quot.sound, propext |
| C31_stiefel | Classical.choice, Quot.sound, propext |
| C32_ball | Classical.choice, Quot.sound, propext |
| C32_plane | Classical.choice, Quot.sound, propext |
| C32_sphere | Classical.choice, Quot.sound, propext |
| C33_ball | Classical.choice, Quot.sound, propext |
| C33_dual | Quot.sound, propext |
| C33_feasible | Quot.sound, propext |
| C33_image | Quot.sound, propext |
| C33_plane_false | Classical.choice, Quot.sound, propext |
| C33_plane_partial | Classical.choice, Quot.sound, propext |
| C33_simplex | Classical.choice, Quot.sound, propext |
| C33_total | Quot.sound, propext |
| C34_at_consensus | Classical.choice, Quot.sound, propext |
| C34_plane_clip_false | Classical.choice, Quot.sound, propext |
| C34_plane_partial | Classical.choice, Quot.sound, propext |
| C34_proj_matrix | Classical.choice, Quot.sound, propext |
| C34_proj_plane | Classical.choice, Quot.sound, propext |
| C34_proj_sphere | Classical.choice, Quot.sound, propext |
| C34_proj_stiefel | Classical.choice, Quot.sound, propext |
| C34_sphere_false | Classical.choice, Quot.sound, propext |
| C34_sphere_partial | Classical.choice, Quot.sound, propext |
| C34_stiefel | Classical.choice, Quot.sound, propext |
| C34_tangent_plane | Classical.choice, Quot.sound, propext |
| C34_tangent_sphere | Classical.choice, Quot.sound, propext |
| C34_tangent_stiefel | Classical.choice, Quot.sound, propext |
| C35_plane | Classical.choice, Quot.sound, propext |
| C35_quadric_false | Classical.choice, Quot.sound, propext |
| C35_quadric_partial | Classical.choice, Quot.sound, propext |
| C35_quadric_symmetric_iff | Classical.choice, Quot.sound, propext |
| C35_sphere | Classical.choice, Quot.sound, propext |
| C36_call_hessian | Classical.choice, Quot.sound, propext |
| C36_empty_false | Classical.choice, Quot.sound, propext |
| C36_hessian_partial | Classical.choice, Quot.sound, propext |
| C36_list | Classical.choice, Quot.sound, propext |
| C36_plane | Classical.choice, Quot.sound, propext |
| C36_plane_hessian_total | Classical.choice, Quot.sound, propext |
| C36_quadric_false | Classical.choice, Quot.sound, propext |
| C36_quadric_partial | Classical.choice, Quot.sound, propext |
| C36_sphere | Classical.choice, Quot.sound, propext |
| C36_sphere_singular | Classical.choice, Quot.sound, propext |
| C37_drift_false | Classical.choice, Quot.sound, propext |
| C37_drift_witness_false | Classical.choice, Quot.sound, propext |
| C37_regcombination_optimize_partial | Classical.choice, Quot.sound, propext |
| C37_regcombination_partial | Classical.choice, Quot.sound, propext |
| C38_bounded | Classical.choice, Quot.sound, propext |
| C38_finite | Classical.choice, Quot.sound, propext |
| C38_forever_partial | Classical.choice, Quot.sound, propext |
| C38_regcombination_false | propext |
| C38_step | Classical.choice, Quot.sound, propext |
| C38_unchanged | Classical.choice, Quot.sound, propext |
| C38_values | Classical.choice, Quot.sound, propext |
| C39_entry | Quot.sound, propext |
| C39_length | Quot.sound, propext |
| C40_caller | Classical.choice, Quot.sound, propext |
| C40_equal_false | Classical.choice, Quot.sound, propext |
| C40_extra_tracks_false | Quot.sound, propext |
| C40_first_false | Classical.choice, Quot.sound, propext |
| C40_inplace_false | Classical.choice, Quot.sound, propext |
| C40_rebind | Classical.choice, Quot.sound, propext |
| C40_reset_false | Quot.sound, propext |
| C41_1D | Quot.sound, propext |
| C41_2D | Quot.sound, propext |
| C41_agree | Classical.choice, Quot.sound, propext |
| C41_check | Quot.sound, propext |
| C41_trailing_false | Quot.sound, propext |
| C42_ackley | Classical.choice, Quot.sound, propext |
| C42_bukin6_false | Classical.choice, Quot.sound, propext |
| C42_cross_in_tray_false | Classical.choice, Quot.sound, propext |
| C42_cross_in_tray_partial | Classical.choice, Quot.sound, propext |
| C42_drop_wave_false | Classical.choice, Quot.sound, propext |
| C42_drop_wave_partial | Classical.choice, Quot.sound, propext |
| C42_easom | Classical.choice, Quot.sound, propext |
| C42_eggholder_false | Classical.choice, Quot.sound, propext |
| C42_himmelblau_false | Classical.choice, Quot.sound, propext |
| C42_himmelblau_partial | Classical.choice, Quot.sound, propext |
| C42_holder_table | Classical.choice, Quot.sound, propext |
| C42_mccormick_false | Classical.choice, Quot.sound, propext |
| C42_mccormick_partial | Classical.choice, Quot.sound, propext |
| C42_michalewicz_false | Classical.choice, Quot.sound, propext |
| C42_michalewicz_partial | Classical.choice, Quot.sound, propext |
| C42_multimodal | Classical.choice, Quot.sound, propext |
| C42_multimodal_init_false | Classical.choice, Quot.sound, propext |
| C42_quadratic | Classical.choice, Quot.sound, propext |
| C42_rastrigin | Classical.choice, Quot.sound, propext |
| C42_rosenbrock | Classical.choice, Quot.sound, propext |
| C42_snowflake | Classical.choice, Quot.sound, propext |
| C42_three_hump | Classical.choice, Quot.sound, propext |
| C43_L0_false | Classical.choice, Quot.sound, propext |
| C43_bounds | Classical.choice, Quot.sound, propext |
| C43_default_plane_false | Classical.choice, Quot.sound, propext |
| C43_distance | Classical.choice, Quot.sound, propext |
| C43_membership | Classical.choice, Quot.sound, propext |
| C43_stopped_false | Classical.choice, Quot.sound, propext |
| C43_value | Classical.choice, Quot.sound, propext |
| C44_exactly | Classical.choice, Quot.sound, propext |
| C44_mean | Classical.choice, Quot.sound, propext |
| C44_partial | Classical.choice, Quot.sound, propext |
| C44_theta_false | Classical.choice, Quot.sound, propext |
| C44_theta_partial | Classical.choice, Quot.sound, propext |
| C44_update | Classical.choice, Quot.sound, propext |
| C45_count | Classical.choice, Quot.sound, propext |
| C45_criterion | Classical.choice, Quot.sound, propext |
| C45_resample | Classical.choice, Quot.sound, propext |
| C46_loss | Classical.choice, Quot.sound, propext |
| C47_early_false | Classical.choice, Quot.sound, propext |
| C47_full | Classical.choice, Quot.sound, propext |
| C47_partial | Classical.choice, Quot.sound, propext |
| C48_criteria | Classical.choice, Quot.sound, propext |
| C48_default_distance | Classical.choice, Quot.sound, propext |
| C48_evaluation | Classical.choice, Quot.sound, propext |
| C48_rejected | Classical.choice, Quot.sound, propext |
| C48_returns | Classical.choice, Quot.sound, propext |
| C49_call | Classical.choice, Quot.sound, propext |
| C49_constant_false | Classical.choice, Quot.sound, propext |
| C49_documented_partial | Classical.choice, Quot.sound, propext |
| C49_gaussian_arrays | Classical.choice, Quot.sound, propext |
| C49_gaussian_points_false | Classical.choice, Quot.sound, propext |
| C49_inverseQuadratic_false | Classical.choice, Quot.sound, propext |
| C49_laws | Classical.choice, Quot.sound, propext |
| C49_taz | Classical.choice, Quot.sound, propext |
| C49_taz_false | Classical.choice, Quot.sound, propext |
| C50_batch_raises | Classical.choice, Quot.sound, propext |
| C50_cbo | Classical.choice, Quot.sound, propext |
| C50_convex | Classical.choice, Quot.sound, propext |
| C50_covariance_false | Classical.choice, Quot.sound, propext |
| C50_covariance_partial | Classical.choice, Quot.sound, propext |
| C50_covariance_raises | Classical.choice, Quot.sound, propext |
| C50_mode | Classical.choice, Quot.sound, propext |
| C50_never_raises | Quot.sound, propext |
| C50_runs_partial | Classical.choice, Quot.sound, propext |
| C50_step | Classical.choice, Quot.sound, propext |
| C50_taz_false | Classical.choice, Quot.sound, propext |
| C50_weights | Classical.choice, Quot.sound, propext |
| C51_batch_false | Classical.choice, Quot.sound, propext |
| C51_constant | Classical.choice, Quot.sound, propext |
| C51_drift | Classical.choice, Quot.sound, propext |
| C51_mean | Classical.choice, Quot.sound, propext |
| C51_moments | Classical.choice, Quot.sound, propext |
| C51_nonneg | Classical.choice, Quot.sound, propext |
| C51_reset_false | Classical.choice, Quot.sound, propext |
| C51_selected | Classical.choice, Quot.sound, propext |
| C51_update | Classical.choice, Quot.sound, propext |
| C52_covariance | Classical.choice, Quot.sound, propext |
| C52_mean | Classical.choice, Quot.sound, propext |
| C52_psd | Classical.choice, Quot.sound, propext |
| C52_sqrt | Classical.choice, Quot.sound, propext |
| C52_step | Classical.choice, Quot.sound, propext |
| C53_anisotropic | Classical.choice, Quot.sound, propext |
| C53_constant | Classical.choice, Quot.sound, propext |
| C53_isotropic | Classical.choice, Quot.sound, propext |
| C54_batch_raises | Classical.choice, Quot.sound, propext |
| C54_heaviside | Classical.choice, Quot.sound, propext |
| C54_heaviside_nan | Classical.choice, Quot.sound, propext |
| C54_names | Classical.choice, Quot.sound, propext |
| C54_regularised | Classical.choice, Quot.sound, propext |
| C54_regularised_all | Classical.choice, Quot.sound, propext |
| C54_regularised_drift | Classical.choice, Quot.sound, propext |
| C54_regularised_nan_false | Classical.choice, Quot.sound, propext |
| C54_stopped_raises | Classical.choice, Quot.sound, propext |
| C54_succeeds_iff | Classical.choice, Quot.sound, propext |
| C55_duplicates_false | Classical.choice, Quot.sound, propext |
| C55_names | Quot.sound, propext |
| C55_onto | Classical.choice, Quot.sound, propext |
| C55_roundtrip | Classical.choice, Quot.sound, propext |
| C55_tiles | Classical.choice, Quot.sound, propext |
| C56_axes | Classical.choice, Quot.sound, propext |
| C56_drawn | Quot.sound, propext |
| C56_given | Classical.choice, Quot.sound, propext |
| C57_axes_false | Classical.choice, Quot.sound, propext |
| C57_covered | Quot.sound, propext |
| C57_frames | Quot.sound, propext |
| C57_fresh_false | Quot.sound, propext |
| C57_history_partial | Classical.choice, Quot.sound, propext |
| C57_single_run | Classical.choice, Quot.sound, propext |
| C57_stopped_false | Classical.choice, Quot.sound, propext |
| C57_window_false | Quot.sound, propext |
| C57_window_partial | Classical.choice, Quot.sound, propext |
| C58_constraints | Classical.choice, Quot.sound, propext |
| C58_fdim | Classical.choice, Quot.sound, propext |
| C58_kernels | Classical.choice, Quot.sound, propext |
| C58_mirror | Classical.choice, Quot.sound, propext |
| C58_mirror_maps | Classical.choice, Quot.sound, propext |
| C58_noise | Classical.choice, Quot.sound, propext |
| C58_noise_none_false | Classical.choice, Quot.sound, propext |
| C58_quadric_false | Classical.choice, Quot.sound, propext |
| C58_regularisers | Classical.choice, Quot.sound, propext |
| C58_rule_mean_false | propext |
| C58_term_list | Classical.choice, Quot.sound, propext |
| C58_terms | Classical.choice, Quot.sound, propext |
| C59_adequate | Quot.sound, propext |
| C59_adequate_constrained | Quot.sound, propext |
| C59_batch_seed | Quot.sound, propext |
| C59_draws | Classical.choice, Quot.sound, propext |
| C59_global | Quot.sound, propext |
| C59_indep_false | Classical.choice, Quot.sound, propext |
| C59_sampler_false | Classical.choice, Quot.sound, propext |
| C59_seed_partial | Quot.sound, propext |
| C59_x_false | Classical.choice, Quot.sound, propext |
| C60_best_false | Classical.choice, Quot.sound, propext |
| C60_best_partial | Classical.choice, Quot.sound, propext |
| C60_endless | Classical.choice, Quot.sound, propext |
| C60_mismatch_false | Quot.sound, propext |
| C60_none_left | Classical.choice, Quot.sound, propext |
| C60_stopped_false | Classical.choice, Quot.sound, propext |
| C60_untouched | Classical.choice, Quot.sound, propext |
| C60_walk | Classical.choice, Quot.sound, propext |
| C61_attraction_false | Classical.choice, Quot.sound, propext |
| C61_diverges | Classical.choice, Quot.sound, propext |
| C61_pso_step | Classical.choice, Quot.sound, propext |
| C61_repelled | Classical.choice, Quot.sound, propext |
| C62_charge_false | Classical.choice, Quot.sound, propext |
| C62_history | Classical.choice, Quot.sound, propext |
| C62_stopped_false | Classical.choice, Quot.sound, propext |
| C62_stopped_raises | Quot.sound, propext |
| C62_track | Classical.choice, Quot.sound, propext |
| C63_best | Quot.sound, propext |
| C63_best_cur_false | Classical.choice, Quot.sound, propext |
| C63_off | Quot.sound, propext |
| C63_points | Quot.sound, propext |
| C63_total | Quot.sound, propext |
| C64_construct | Classical.choice, Quot.sound, propext |
| C64_run | Classical.choice, Quot.sound, propext |
| C64_step | Classical.choice, Quot.sound, propext |
| C64_stopped_false | Classical.choice, Quot.sound, propext |
| C65_best | Quot.sound, propext |
| C65_criteria_false | Classical.choice, Quot.sound, propext |
| C65_history | Quot.sound, propext |
| C65_history_false | Classical.choice, Quot.sound, propext |
| C65_late_false | Classical.choice, Quot.sound, propext |
| C65_max_it | Classical.choice, Quot.sound, propext |
| C66_ensemble | Classical.choice, Quot.sound, propext |
| C66_normal | Classical.choice, Quot.sound, propext |
| C66_raises | Classical.choice, Quot.sound, propext |
| C66_shape_false | Classical.choice, Quot.sound, propext |
| C66_uniform | Classical.choice, Quot.sound, propext |
| C67_effective_false | Classical.choice, Quot.sound, propext |
| C67_effective_partial | Classical.choice, Quot.sound, propext |
| C67_effective_range | Classical.choice, Quot.sound, propext |
| C67_post | Classical.choice, Quot.sound, propext |
| C67_regcombination_false | Classical.choice, Quot.sound, propext |
| C67_runs_partial | Classical.choice, Quot.sound, propext |
| C67_seed_false | Classical.choice, Quot.sound, propext |
| C67_seed_ignored | Quot.sound, propext |
| C67_step | Classical.choice, Quot.sound, propext |
| C68_elastic | Classical.choice, Quot.sound, propext |
| C68_entropy_false | Classical.choice, Quot.sound, propext |
| C68_hessian_raises | Quot.sound, propext |
| C68_l2_hessian_false | Classical.choice, Quot.sound, propext |
| C68_l2_partial | Classical.choice, Quot.sound, propext |
| C68_log_barrier | Classical.choice, Quot.sound, propext |
| C68_nonsmooth_partial | Classical.choice, Quot.sound, propext |
| C68_weighted_partial | Classical.choice, Quot.sound, propext |
| C69_ball_false | Classical.choice, Quot.sound, propext |
| C69_ball_partial | Classical.choice, Quot.sound, propext |
| C69_elastic | Classical.choice, Quot.sound, propext |
| C69_entropy_false | Classical.choice, Quot.sound, propext |
| C69_l2 | Classical.choice, Quot.sound, propext |
| C69_log_barrier | Classical.choice, Quot.sound, propext |
| C69_nonsmooth_false | Classical.choice, Quot.sound, propext |
| C69_nonsmooth_partial | Classical.choice, Quot.sound, propext |
| C69_weighted_false | propext |
| C70_best_false | Classical.choice, Quot.sound, propext |
| C70_best_partial | Quot.sound, propext |
| C70_feasible | Quot.sound, propext |
| C70_frozen_partial | Quot.sound, propext |
| C70_prox_elastic | Classical.choice, Quot.sound, propext |
| C70_sets | Classical.choice, Quot.sound, propext |
| C70_simplex_false | Classical.choice, Quot.sound, propext |
| C70_stiefel | Classical.choice, Quot.sound, propext |
| C70_stopped_false | Classical.choice, Quot.sound, propext |
| C71_adam_covariance_partial | Classical.choice, Quot.sound, propext |
| C71_adam_partial | Classical.choice, Quot.sound, propext |
| C71_mirror_covariance_partial | Classical.choice, Quot.sound, propext |
| C71_mirror_frozen | Classical.choice, Quot.sound, propext |
| C71_mirror_partial | Classical.choice, Quot.sound, propext |
| C72_covariance_false | Classical.choice, Quot.sound, propext |
| C72_covariance_shape | Quot.sound, propext |
| C72_diff_false | Classical.choice, Quot.sound, propext |
| C72_diff_partial | Classical.choice, Quot.sound, propext |
| C72_iso_empty_false | Classical.choice, Quot.sound, propext |
| C72_step_partial | Classical.choice, Quot.sound, propext |
| C73_accelerated_sinus | Classical.choice, Quot.sound, propext |
| C73_banana | Classical.choice, Quot.sound, propext |
| C73_bimodal | Classical.choice, Quot.sound, propext |
| C73_centre_false | Classical.choice, Quot.sound, propext |
| C73_index_raises | Classical.choice, Quot.sound, propext |
| C73_multimodal | Classical.choice, Quot.sound, propext |
| C73_nd_sinus | Classical.choice, Quot.sound, propext |
| C73_p4 | Classical.choice, Quot.sound, propext |
| C73_shape_partial | Classical.choice, Quot.sound, propext |
| C73_squeeze_false | Classical.choice, Quot.sound, propext |
| C73_squeeze_partial | Classical.choice, Quot.sound, propext |
| C74_alpha_zero_false | Classical.choice, Quot.sound, propext |
| C74_between | Classical.choice, Quot.sound, propext |
| C74_check_useless | Classical.choice, Quot.sound, propext |
| C74_iff | Classical.choice, Quot.sound, propext |
| C74_infinite_partial | Classical.choice, Quot.sound, propext |
| C74_lost_false | Classical.choice, Quot.sound, propext |
| C74_nan_false | Classical.choice, Quot.sound, propext |
| C74_refines | Classical.choice, Quot.sound, propext |
| C74_rescale_nan_false | Classical.choice, Quot.sound, propext |
| C74_rescale_partial | Classical.choice, Quot.sound, propext |
| C74_step_false | Classical.choice, Quot.sound, propext |
| C74_stuck_false | Classical.choice, Quot.sound, propext |
| C75_alpha_int_false | Classical.choice, Quot.sound, propext |
| C75_array_partial | Quot.sound, propext |
| C75_best_int_false | Classical.choice, Quot.sound, propext |
| C75_form_false | Quot.sound, propext |
| C75_number_partial | Classical.choice, Quot.sound, propext |
| C75_step_int_false | Quot.sound, propext |
| C76_decay_anisotropic | Classical.choice, Quot.sound, propext |
| C76_decay_isotropic | Classical.choice, Quot.sound, propext |
| C76_growth_anisotropic | Classical.choice, Quot.sound, propext |
| C76_growth_isotropic | Classical.choice, Quot.sound, propext |
| C76_step_anisotropic | Classical.choice, Quot.sound, propext |
| C76_step_isotropic | Classical.choice, Quot.sound, propext |
| C77_dynamics_partial | Quot.sound, propext |
| C77_memory_partial | Classical.choice, Quot.sound, propext |
| C77_raises_partial | Classical.choice, Quot.sound, propext |
| C77_resume_partial | Classical.choice, Quot.sound, propext |
| C77_split_partial | Classical.choice, Quot.sound, propext |
| C77_stagnation_false | Classical.choice, Quot.sound, propext |
| C78_adam_dt_false | Classical.choice, Quot.sound, propext |
| C78_cbo_partial | Classical.choice, Quot.sound, propext |
| C78_correction_false | Quot.sound, propext |
| C78_hypersurface_false | Quot.sound, propext |
| C79_batch_false | Classical.choice, Quot.sound, propext |
| C79_best_partial | Quot.sound, propext |
| C79_drift_partial | Classical.choice, Quot.sound, propext |
| C79_energy_doc_false | Classical.choice, Quot.sound, propext |
| C79_entries_partial | Classical.choice, Quot.sound, propext |
| C79_interval_false | Classical.choice, Quot.sound, propext |
| C80_accuracy | Classical.choice, Quot.sound, propext |
| C80_empty | Classical.choice, Quot.sound, propext |
| C80_losses | Classical.choice, Quot.sound, propext |
| C80_networks | Classical.choice, Quot.sound, propext |
| C81_memory_independent | Classical.choice, Quot.sound, propext |
| C81_memory_step | Classical.choice, Quot.sound, propext |
| C81_pso_independent | Classical.choice, Quot.sound, propext |
| C81_pso_step | Classical.choice, Quot.sound, propext |
| C82_anisotropic | Classical.choice, Quot.sound, propext |
| C82_isotropic | Classical.choice, Quot.sound, propext |
| C83_adam | Classical.choice, Quot.sound, propext |
| C83_memory_false | Classical.choice, Quot.sound, propext |
| C83_memory_one_partial | Classical.choice, Quot.sound, propext |
| C83_memory_partial | Quot.sound, propext |
| C83_pso_false | Classical.choice, Quot.sound, propext |
| C83_pso_partial | Classical.choice, Quot.sound, propext |
| C84_cbs | Quot.sound, propext |
| C84_none | Quot.sound, propext |
| C84_output | Classical.choice, Quot.sound, propext |
| C84_result_partial | Quot.sound, propext |
| C84_text_false | Quot.sound, propext |
| C84_zero_false | Quot.sound, propext |
| C85_mean | Classical.choice, Quot.sound, propext |
| C85_stops | Classical.choice, Quot.sound, propext |
| C85_tail | Classical.choice, Quot.sound, propext |
| C86_default_partial | Classical.choice, Quot.sound, propext |
| C86_false | Classical.choice, Quot.sound, propext |
| C86_lost | Classical.choice, Quot.sound, propext |
| C86_rescaled | Classical.choice, Quot.sound, propext |
| C87_ess_partial | Classical.choice, Quot.sound, propext |
| C87_false | Classical.choice, Quot.sound, propext |
| C87_lost | Classical.choice, Quot.sound, propext |
| C88_bounds | Classical.choice, Quot.sound, propext |
| C88_clock | Classical.choice, Quot.sound, propext |
| C88_dyadic | Classical.choice, Quot.sound, propext |
| C88_endless_false | Classical.choice, Quot.sound, propext |
| C88_exact | Classical.choice, Quot.sound, propext |
| C88_fewer_false | Classical.choice, Quot.sound, propext |
| C88_more_false | Classical.choice, Quot.sound, propext |
| C89_energy | Classical.choice, Quot.sound, propext |
| C89_memory_false | Classical.choice, Quot.sound, propext |
| C89_memory_partial | Classical.choice, Quot.sound, propext |
| C90_default_partial | Classical.choice, Quot.sound, propext |
| C90_false | Classical.choice, Quot.sound, propext |
| C90_hull_partial | Classical.choice, Quot.sound, propext |
| C90_rescaled_partial | Classical.choice, Quot.sound, propext |
| C91_bracket | Classical.choice, Quot.sound, propext |
| C91_effective | Classical.choice, Quot.sound, propext |
| C91_machine | Classical.choice, Quot.sound, propext |
| C91_multiply | Classical.choice, Quot.sound, propext |
| C91_multiply_false | Classical.choice, Quot.sound, propext |
| C91_reaches | Classical.choice, Quot.sound, propext |
| C91_root | Classical.choice, Quot.sound, propext |
| C91_stops | Quot.sound, propext |
| C92_absorbing | Classical.choice, Quot.sound, propext |
| C92_contract_false | Classical.choice, Quot.sound, propext |
| C92_hull | Classical.choice, Quot.sound, propext |
| C93_best | Classical.choice, Quot.sound, propext |
| C93_consensus | Classical.choice, Quot.sound, propext |
| C93_limit | Classical.choice, Quot.sound, propext |
| C93_mean | Classical.choice, Quot.sound, propext |
| C93_nonconvex_false | Classical.choice, Quot.sound, propext |
| C93_worst | Classical.choice, Quot.sound, propext |
| C94_history_partial | Classical.choice, Quot.sound, propext |
| C94_key_false | Classical.choice, Quot.sound, propext |
| C94_off_false | Classical.choice, Quot.sound, propext |
| C94_shared_false | Quot.sound, propext |
| C94_total | Classical.choice, Quot.sound, propext |
| C95_absorbing | Classical.choice, Quot.sound, propext |
| C95_clusters | Classical.choice, Quot.sound, propext |
| C95_consensus_false | Classical.choice, Quot.sound, propext |
| C95_contract | Classical.choice, Quot.sound, propext |
| C95_group | Classical.choice, Quot.sound, propext |
| C95_hull | Classical.choice, Quot.sound, propext |
| C96_consensus_false | Classical.choice, Quot.sound, propext |
| C96_consensus_partial | Classical.choice, Quot.sound, propext |
| C96_loss_false | Quot.sound, propext |
| C96_loss_partial | Classical.choice, Quot.sound, propext |
| C96_loss_stale | Quot.sound, propext |
| C96_stagnation_early | Classical.choice, Quot.sound, propext |
| C96_stagnation_false | Classical.choice, Quot.sound, propext |
| C96_stagnation_partial | Classical.choice, Quot.sound, propext |
| C96_used | Quot.sound, propext |
| C97_partial | Classical.choice, Quot.sound, propext |
| C97_plot_false | Classical.choice, Quot.sound, propext |
| C97_rows | Classical.choice, Quot.sound, propext |
| C98_accurate_partial | Classical.choice, Quot.sound, propext |
| C98_corner_false | Classical.choice, Quot.sound, propext |
| C98_iff | Classical.choice, Quot.sound, propext |
| C98_overflow_false | Classical.choice, Quot.sound, propext |
| C98_rescaled | Classical.choice, Quot.sound, propext |
| C98_run | Classical.choice, Quot.sound, propext |
| C99_fresh_false | Quot.sound, propext |
| C99_history_partial | Classical.choice, Quot.sound, propext |
| C99_index_false | Classical.choice, Quot.sound, propext |
| C99_interval_false | Classical.choice, Quot.sound, propext |
| C99_live_partial | Classical.choice, Quot.sound, propext |
| C99_stopped_false | Classical.choice, Quot.sound, propext |
| C99_wrong_run_false | Classical.choice, Quot.sound, propext |
