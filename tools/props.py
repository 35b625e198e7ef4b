#!/usr/bin/env python3
"""Generates /verif/properties.jsonl (one JSON object per line)."""
import json
P=[]
def p(id,title,statement,quantifier,why,anchors):
    P.append(dict(id=id,title=title,statement=statement,quantifier=quantifier,why_tests_cant=why,anchors=anchors))

PD='cbx/dynamics/pdyn.py'
p('C01','optimize() respects max_it',
 "optimize() with an iteration limit max_it among its termination criteria always returns, never performs more than max_it steps in total, and performs exactly max_it steps (ending with dyn.it == max_it) when max_it is the only criterion; calling optimize() again without reset() performs no further step.",
 "every max_it, every start iteration, every dynamic step/scheduler that does not raise, any further criteria",
 "termination of a while-loop for every limit and every step function is a statement about unboundedly long executions",
 [f'{PD}:ParticleDynamic.optimize',f'{PD}:ParticleDynamic.terminate','cbx/utils/termination.py:max_it_term'])
p('C02','A run is active iff no criterion fires',
 "After every termination check, the active runs are exactly the runs for which none of the criteria fires, in increasing order and without repetition; dyn.term_reason[j] lists exactly the indices of the criteria that fired for a stopped run j and is left unchanged for a running run; the check reports 'stop' exactly when no run is active.",
 "every number of runs, every list of criteria, every state",
 "quantifies over every combination of criteria outcomes for every number of runs",
 [f'{PD}:ParticleDynamic.select_active_runs',f'{PD}:ParticleDynamic.terminate'])
p('C03','A stopped run stays stopped and frozen',
 "Once a run has been stopped inside optimize(), every later check keeps it stopped, and no later step changes its particles, its energies, its best energy, its best particle or its evaluation count, while the other runs keep going.",
 "all CBO runs with built-in criteria (energy_tol, diff_tol, max_eval, max_it, max_time), all batch modes, all later step counts, all noise outcomes",
 "the frozen-ness must survive arbitrarily many further steps of the other runs",
 [f'{PD}:ParticleDynamic.select_active_runs',f'{PD}:CBXDynamic.set_batch_idx_batched',f'{PD}:CBXDynamic.set_batch_idx_unbatched','cbx/dynamics/cbo.py:CBO.cbo_step'])
p('C04','max_eval is never exceeded',
 "With a max_eval criterion, the per-run evaluation counter of CBO never exceeds max(max_eval, the count it had when optimize() was entered).",
 "every max_eval, batch size, number of runs, and number of steps",
 "an inequality on a counter along all executions",
 ['cbx/utils/termination.py:max_eval_term',f'{PD}:CBXDynamic.eval_f','cbx/correction.py:heavi_side_correction'])
p('C05','max_time stops at the first time grid point past the limit',
 "With constant step size dt>0 the elapsed time dyn.t equals it*dt after it steps, and with max_time as the only criterion optimize() performs exactly ceil(max_time/dt) steps from a fresh start.",
 "every dt>0 and max_time (exact arithmetic)",
 "exact relation between counter and clock along all executions",
 ['cbx/utils/termination.py:max_time_term',f'{PD}:CBXDynamic.post_step'])
p('C06','energy stagnation needs a full window',
 "The energy-stagnation criterion can stop a run only after at least `patience` consensus energies of that run have been recorded, and it stops it exactly when the standard deviation of the last `patience` recorded energies is below the threshold.",
 "every patience, threshold, energy sequence",
 "depends on the full history of recorded energies, for any window length",
 ['cbx/utils/termination.py:energy_stagnation_term'])
p('C07','energy stagnation works for several runs',
 "The energy-stagnation criterion can be used with any number of runs M: it evaluates each active run's own consensus point and never raises.",
 "every number of runs and every set of active runs",
 "depends on which runs have been stopped before, i.e. on the history",
 ['cbx/utils/termination.py:energy_stagnation_term.__call__'])
p('C08','reset() makes the dynamic runnable again',
 "After optimize() has finished, reset() followed by optimize() runs again as from a fresh start: it and t restart at 0, and none of the termination criteria fires merely because of the previous optimization.",
 "every criterion list and every previous execution",
 "depends on criterion state accumulated over a whole previous execution",
 [f'{PD}:ParticleDynamic.reset',f'{PD}:CBXDynamic.reset','cbx/utils/termination.py'])
p('C09','best energy is the minimum seen so far',
 "dyn.best_energy[m] never increases from step to step, and after every step equals the minimum of all objective values evaluated for run m's ensemble in any step so far.",
 "every history of steps, checks, scheduler updates and resets; every objective without NaN; every batch sequence",
 "minimum over the entire evaluation history",
 [f'{PD}:ParticleDynamic.update_best_cur_particle',f'{PD}:ParticleDynamic.update_best_particle'])
p('C10','best_particle realises best_energy',
 "After at least one step, f(dyn.best_particle[m]) == dyn.best_energy[m] for every run of CBO-type dynamics (CBO, AdamCBO, CBS, MirrorCBO, PolarCBO, HyperSurfaceCBO, RegCombinationCBO), whatever the batching.",
 "every history, every batch schedule, every noise outcome, every NaN-free deterministic objective",
 "stale energies of particles outside the batch make this a property of whole histories",
 [f'{PD}:ParticleDynamic.update_best_cur_particle',f'{PD}:CBXDynamic.compute_consensus'])
p('C11','best_particle realises best_energy for memory dynamics',
 "For CBOMemory and PSO the particle returned by optimize() has the reported best energy: f(dyn.best_particle[m]) == dyn.best_energy[m] after every step.",
 "every history and noise outcome",
 "relation between two records along all histories",
 ['cbx/dynamics/cbo_memory.py:CBOMemory.update_best_cur_particle','cbx/dynamics/pso.py:PSO.inner_step',f'{PD}:ParticleDynamic.update_best_cur_particle'])
p('C12','memory dynamics keep the historical best of every particle',
 "In (unbatched) CBOMemory and PSO, after every step dyn.energy[m,n] is the minimum of the objective over all positions particle n has been evaluated at (including the start), dyn.y[m,n] is a position the particle actually visited, and f(dyn.y[m,n]) == dyn.energy[m,n].",
 "every particle, run, number of steps, noise outcome",
 "minimum over the whole trajectory",
 ['cbx/dynamics/cbo_memory.py:CBOMemory.inner_step','cbx/dynamics/pso.py:PSO.inner_step'])
p('C13','evaluation counting is exact',
 "The sum of dyn.num_f_eval over the runs always equals the number of objective evaluations actually performed (the objective's own num_eval), and each run is charged exactly for its own evaluations.",
 "every dynamic, correction, batch mode, set of active runs and number of steps",
 "a counter equality along all executions",
 [f'{PD}:CBXDynamic.eval_f','cbx/utils/objective_handling.py:cbx_objective.__call__','cbx/correction.py:heavi_side_correction.__call__','cbx/dynamics/pso.py:PSO.inner_step'])
p('C14','every mini-batch consists of distinct valid particles',
 "In batched mode every batch of every run contains exactly min(size,N) particle indices, all in range and (in the default 'resample' mode) pairwise distinct, in every step.",
 "every N, batch size 1..N-1, number of runs, number of steps and every outcome of the random permutations",
 "all permutations and all numbers of draws",
 [f'{PD}:CBXDynamic.init_batch_idx',f'{PD}:CBXDynamic.set_batch_idx_batched'])
p('C15','batching is fair',
 "Within one epoch batches of a run never overlap; in 'concat' mode after any number of batches every particle has been used floor or ceil of (batches*size/N) times, so usage counts of two particles differ by at most one.",
 "every N, batch size, number of batches, permutation outcome",
 "counting over arbitrarily long index streams",
 [f'{PD}:CBXDynamic.set_batch_idx_batched'])
p('C16','a step moves only the selected particles',
 "In a CBO step with partial batching only particles of the current batch of active runs can move; with partial=False or without batching exactly the particles of active runs are updated; energies change only at the batch of active runs.",
 "every batch, active set and noise outcome",
 "frame condition over all states",
 [f'{PD}:CBXDynamic.set_batch_idx_batched','cbx/dynamics/cbo.py:CBO.cbo_step'])
p('C17','parallel CBO runs are independent',
 "A run of a CBO dynamic with M parallel runs evolves exactly like a CBO dynamic consisting of that run alone (same particles, energies, batches and noise rows), no matter what the other runs do and when they stop.",
 "every M, every other-run content, every number of steps",
 "a two-execution (relational) property over all histories",
 [f'{PD}:CBXDynamic','cbx/dynamics/cbo.py:CBO.cbo_step'])
p('C18','runs stay independent when some runs stop in the constrained dynamics',
 "HyperSurfaceCBO, DriftConstrainedCBO and RegCombinationCBO keep their parallel runs independent when some runs have been stopped: stopped runs do not move and the step does not raise.",
 "every number of runs and active set",
 "depends on which runs have stopped",
 ['cbx/dynamics/hypersurfacecbo.py:HyperSurfaceCBO.inner_step','cbx/dynamics/driftconstrainedcbo.py:dc_inner_step','cbx/dynamics/regcombinationcbo.py:RegCombinationCBO.inner_step'])
p('C19','CBO never raises and keeps its shape',
 "With built-in noise, no correction and the default consensus, no sequence of CBO steps, checks, scheduler updates and resets raises a shape or index error, and dyn.x keeps shape (M,N,d), dyn.energy shape (M,N).",
 "every M,N>=1, batch size >=1, active set, history",
 "absence of exceptions over all histories",
 ['cbx/dynamics/cbo.py:CBO.cbo_step',f'{PD}:CBXDynamic'])
p('C20','the consensus point is a convex combination',
 "The consensus point is sum_i w_i x_i with strictly positive weights w_i = exp(-alpha f_i)/sum_j exp(-alpha f_j) summing to one; hence it lies in every convex set containing the particles, in particular coordinatewise between the smallest and largest particle coordinate, and the log-sum-exp form equals the textbook quotient.",
 "every ensemble size, dimension, alpha, energies",
 "identity/inequality over all real inputs",
 [f'{PD}:compute_consensus_default.__call__'])
p('C21','consensus depends only on energy differences and not on particle order',
 "Adding a constant to all energies of a run does not change its consensus point, permuting the particles does not change it, alpha=0 gives the arithmetic mean, and the rescaled variant used by HyperSurfaceCBO equals the default one.",
 "all shifts, permutations, ensembles",
 "algebraic law over all inputs",
 [f'{PD}:compute_consensus_default.__call__','cbx/dynamics/hypersurfacecbo.py:compute_consensus_rescale'])
p('C22','Laplace principle: the consensus tends to the best particle',
 "As alpha tends to infinity the consensus point of a fixed ensemble tends to the particle with the smallest energy (if unique); for alpha>=0 the weighted energy average never exceeds the plain average and is non-increasing in alpha.",
 "all ensembles, limit alpha -> infinity",
 "a limit statement",
 [f'{PD}:compute_consensus_default.__call__'])
p('C23','consensus is absorbing',
 "If all particles of a run coincide, a CBO step with isotropic, anisotropic or covariance noise leaves them exactly where they are, for every random outcome; hence they stay there forever.",
 "every sampler outcome, sigma, lambda, dt, number of steps",
 "all random outcomes, unbounded number of steps",
 ['cbx/noise.py','cbx/dynamics/cbo.py:CBO.cbo_step'])
p('C24','noise-free CBO stays in the convex hull and contracts',
 "With sigma=0 and 0<=lambda*dt<=1 the CBO ensemble stays in every convex set containing the initial ensemble for all times, and each coordinate range of the ensemble shrinks by the factor (1-lambda*dt) per step.",
 "all ensembles, objectives, alphas, numbers of steps",
 "invariant over unbounded histories",
 ['cbx/dynamics/cbo.py:cbo_update','cbx/dynamics/cbo.py:CBO.cbo_step'])
p('C25','CBO is translation and scaling equivariant',
 "Translating the initial ensemble and the objective by a vector translates every later ensemble by the same vector (isotropic, anisotropic noise, same random numbers); scaling ensemble and objective argument by s scales every later ensemble by s.",
 "all shifts, ensembles, random outcomes, step counts",
 "two-execution property over all histories",
 ['cbx/dynamics/cbo.py:CBO.cbo_step','cbx/noise.py'])
p('C26','multiply scheduler: geometric growth, capped',
 "After k updates multiply(name,factor,maximum) has set the parameter to min(maximum, factor^k * initial) (factor>=1, or 0<=factor with initial<=maximum), the parameter never exceeds maximum after an update, and parameters of other names are untouched; with the default CBX schedule alpha after k optimize iterations is min(1e5, 1.05^k*alpha_0).",
 "all k, factors, initial values",
 "closed form by induction over the number of updates",
 ['cbx/scheduler.py:multiply.update','cbx/scheduler.py:param_update.ensure_max',f'{PD}:CBXDynamic.default_sched'])
p('C27','bisection stays in its bracket, stops, and reports small residuals',
 "bisection_solve terminates after at most max_it+1 evaluations, returns a point inside the initial bracket for every component, and if it stops early every component has residual at most thresh; for a non-increasing f with f(low)>=0>=f(high) the remaining bracket always contains a sign change.",
 "all functions f, brackets, thresholds, iteration limits, numbers of components",
 "loop invariant for arbitrary f",
 ['cbx/scheduler.py:bisection_solve'])
p('C28','effective sample size is well-behaved',
 "The effective sample size J_eff(alpha)=(sum w)^2/sum w^2 lies in [1,N], equals N at alpha=0, is continuous and non-increasing in alpha>=0, so that bisection on J_eff(alpha)-eta*N is sound; it is unchanged by adding a constant to the energies.",
 "all energies and alpha",
 "analytic monotonicity for all inputs",
 ['cbx/scheduler.py:eff_sample_size_gap.__call__'])
p('C29','effective_sample_size sets a valid alpha',
 "After effective_sample_size.update every run's alpha lies in [minimum, maximum]; and whenever the bisection stopped early, the effective sample size of every run is within 1e-2 of eta*N.",
 "all energies, eta, iteration limits",
 "over all inputs",
 ['cbx/scheduler.py:effective_sample_size.update'])
p('C30','mirror maps: grad_conj inverts grad',
 "For every mirror map, grad_conj(grad(theta)) == theta for theta in its domain (L2, ElasticNet, LogBarrierBox, NonsmoothBarrier, entropy on the simplex, Entropy, weighted_L2, and the projections for theta in the set).",
 "all points of the domain, all parameters",
 "identity over all real inputs",
 ['cbx/dynamics/mirrorcbo.py'])
p('C31','mirror maps: grad_conj lands in the constraint set',
 "grad_conj(y) is feasible for every dual point y: inside the ball of the given radius and centre, on the hyperplane, on the sphere of radius r, on the boundary of the square of half-width r, inside the box (-1,1)^d, on the probability simplex, with orthonormal columns (Stiefel).",
 "all dual points and parameters",
 "set membership over all real inputs",
 ['cbx/dynamics/mirrorcbo.py'])
p('C32','projection mirror maps are nearest-point projections',
 "The ball and hyperplane maps return the point of the set closest to the input (and therefore are idempotent and non-expansive); the sphere map returns a closest point of the sphere.",
 "all inputs, all competitors in the set",
 "optimality against all competitors",
 ['cbx/dynamics/mirrorcbo.py:ProjectionBall','cbx/dynamics/mirrorcbo.py:ProjectionHyperplane','cbx/dynamics/mirrorcbo.py:ProjectionSphere'])
p('C33','MirrorCBO iterates are images of the mirror map',
 "After every MirrorCBO step the particles are post_process(grad_conj(dyn.y)), so with a projection mirror map all particles are feasible after every step, for every noise outcome.",
 "all histories",
 "invariant over all histories",
 ['cbx/dynamics/mirrorcbo.py:mirror_step'])
p('C34','HyperSurfaceCBO keeps particles on the surface',
 "After every HyperSurfaceCBO step every particle lies on the hypersurface (unit sphere, plane, Stiefel manifold), and the drift/noise increments used are tangential (orthogonal to the surface normal at the particle).",
 "all ensembles, noise outcomes, steps",
 "invariant over all histories and real inputs",
 ['cbx/dynamics/hypersurfacecbo.py'])
p('C35','constraint derivatives are the true derivatives',
 "For plane, sphere and quadric constraints grad(x) and hessian(x) are the true gradient and Hessian of the constraint function, and grad_squared/hessian_squared those of its square.",
 "all points and parameters",
 "derivative identity at all real points",
 ['cbx/constraints.py'])
p('C36','implicit constraint solves are exact',
 "solve_Id_plus_call_grad(x, x_tilde, factor) returns the solution z of z + 2*factor*G(x)*grad G(z) = x_tilde for plane, sphere and quadric constraints (whenever the system is regular), and solve_Id_hessian_squared(_sum) the solution of (I + factor*sum hess(G_i^2)(x)) z = x_tilde.",
 "all points, parameters, constraint lists",
 "algebraic identity over all inputs",
 ['cbx/constraints.py:MultiConstraint','cbx/constraints.py:quadricConstraint','cbx/constraints.py:sphereConstraint','cbx/constraints.py:planeConstraint'])
p('C37','without constraints the constrained dynamics reduce to CBO',
 "DriftConstrainedCBO and RegCombinationCBO with an empty constraint list perform exactly the CBO update (with noise sign as drawn).",
 "all ensembles and noise outcomes",
 "two-program equality for all inputs",
 ['cbx/constraints.py:MultiConstraint.solve_Id_hessian_squared_sum','cbx/dynamics/driftconstrainedcbo.py:dc_inner_step','cbx/dynamics/regcombinationcbo.py:RegCombinationCBO.inner_step'])
p('C38','post-processing makes every coordinate finite and bounded',
 "After the default post-processing every particle coordinate is a finite number in [-max_thresh, max_thresh], even if the step produced NaN or infinities; coordinates already in range are unchanged.",
 "all floating point inputs including NaN and infinities; every dynamic",
 "all special values in all positions",
 [f'{PD}:post_process_default','cbx/dynamics/regcombinationcbo.py:RegCombinationCBO.set_post_process'])
p('C39','history has one entry per tracked iteration',
 "After k steps from construction the tracked histories have ceil(k/save_int) entries ('x' one more for the start), entry j was recorded in iteration j*save_int and equals the value at the end of that step; entries are never changed afterwards.",
 "all k, save_int >= 1, tracked names",
 "unbounded histories",
 [f'{PD}:ParticleDynamic.track',f'{PD}:ParticleDynamic.init_history','cbx/utils/history.py'])
p('C40',"history['x'] starts with the initial ensemble; caller's data is not modified",
 "history['x'][0] is the ensemble the dynamic was started with, for the whole lifetime of the history, and the array passed as x is never modified by the dynamic.",
 "all step sequences; all dynamics",
 "aliasing effects over whole histories",
 ['cbx/utils/history.py:track_x.init_history',f'{PD}:ParticleDynamic.init_x','cbx/dynamics/cbo.py:CBO.cbo_step'])
p('C41','objective promotion is pointwise',
 "A promoted objective evaluated on an (M,N,d) ensemble returns an (M,N) array whose entry (m,n) is f(x[m,n,:]), for f_dim='1D' and '2D' alike, and increases num_eval by exactly M*N.",
 "all M,N,d, f, ensembles",
 "index arithmetic of reshape for all sizes",
 ['cbx/utils/objective_handling.py'])
p('C42','documented minima are global minima',
 "For every test objective the points listed in its `minima` attribute (or documented) are global minimisers with the documented value.",
 "all points of the domain, all parameters",
 "inequality over all real points",
 ['cbx/objectives.py'])
p('C43','regularised objective',
 "regularize_objective(f, R, lamda, p) equals f where the regulariser vanishes (p>=1), is at least f everywhere (lamda>=0, R>=0), and is non-decreasing in lamda; a zero of the built-in distances is exactly membership in the constraint set.",
 "all points, lamda, p",
 "over all inputs",
 ['cbx/regularizers.py'])
p('C44','regularisation parameter schedule',
 "Under regularization_paramter_scheduler lamda never decreases, never exceeds lamda_max, grows by factor_lamda exactly for the runs violating the feasibility test, and theta stays positive and never exceeds theta_max.",
 "all update sequences",
 "over unbounded update histories",
 ['cbx/regularizers.py:regularization_paramter_scheduler'])
p('C45','resampling touches exactly the selected runs',
 "A resampling call perturbs exactly the runs selected by at least one criterion (each once even if several criteria select it), increases their num_resampling counter by one, and leaves all other runs unchanged.",
 "all criteria outputs, runs",
 "over all index lists",
 ['cbx/utils/resampling.py:resampling.__call__','cbx/utils/resampling.py:apply_resampling_default'])
p('C46','loss-stagnation resampling fires every wait_thresh stalled calls',
 "loss_update_resampling selects a run exactly when the number of calls since the last improvement of its best energy is a positive multiple of wait_thresh.",
 "all energy histories, thresholds",
 "counter semantics over all histories",
 ['cbx/utils/resampling.py:loss_update_resampling'])
p('C47','consensus-stagnation resampling',
 "consensus_stagnation selects an active run only if its consensus moved less than update_thresh in each of the last `patience` calls; stopped runs are never selected.",
 "all consensus histories",
 "sliding-window semantics over all histories",
 ['cbx/utils/resampling.py:consensus_stagnation'])
p('C48','success evaluation counts exactly the runs satisfying all criteria',
 "evaluation(criteria)(dyn) reports idx = the increasing list of exactly those runs satisfying every criterion, num its length, rate = num/M in [0,1].",
 "all criteria and runs",
 "over all index lists",
 ['cbx/utils/success.py'])
p('C49','kernels: neg_log is the negative logarithm of the kernel',
 "For every PolarCBO kernel and all x,y: kernel(x,y)=exp(-neg_log(x,y)), 0<=neg_log, symmetric, zero on the diagonal; the Gaussian and Laplace kernels and the constant kernel have the documented values.",
 "all points, kappa>0",
 "identity over all real inputs",
 ['cbx/dynamics/polarcbo.py'])
p('C50','polar consensus is a particle-wise convex combination and runs do not interact',
 "PolarCBO's consensus of particle i is a convex combination of the batch of the same run with weights proportional to k(x_i,x_j)exp(-alpha f_j); with constant kernel value it equals the CBO consensus; the result for one run does not depend on the other runs.",
 "all ensembles, kernels",
 "over all real inputs",
 ['cbx/dynamics/polarcbo.py:compute_polar_consensus','cbx/dynamics/polarcbo.py:PolarCBO.compute_consensus','cbx/dynamics/polarcbo.py:Taz_kernel'])
p('C51','AdamCBO moments',
 "In AdamCBO the second moment stays non-negative, the moments after k updates are the exponentially weighted sums of past drifts, and the bias-corrected first moment of a particle with constant drift is exactly that drift for every step. A step moves each selected particle by -(lamda*mhat/(sqrt(vhat)+eps) - sigma*noise) and no other particle.",
 "all drift histories, betas in [0,1), step counts",
 "closed form by induction over histories",
 ['cbx/dynamics/adamcbo.py'])
p('C52','covariance square root',
 "Whenever eigh returns an orthonormal eigendecomposition, compute_mat_sqrt(A) is symmetric, positive semidefinite and squares to A for positive semidefinite A; the weighted covariance used by CBS is positive semidefinite; so the covariance noise of a standard normal vector has the weighted covariance times 2*dt*(1+alpha).",
 "all matrices, ensembles",
 "matrix identities for all inputs",
 [f'{PD}:compute_mat_sqrt',f'{PD}:CBXDynamic.update_covariance','cbx/noise.py:covariance_noise'])
p('C53','noise models scale with the drift as documented',
 "Isotropic noise of a particle is sqrt(dt)*|drift|_2*xi, anisotropic noise sqrt(dt)*drift*xi coordinatewise, constant noise sqrt(dt)*xi, with one independent sample per coordinate and the shape of the drift; noise rows only depend on the same row of the drift.",
 "all drifts, samples",
 "over all real inputs",
 ['cbx/noise.py'])
p('C54','heavi-side correction gates the drift',
 "With correction='heavi_side' the drift of a particle is kept iff its energy is strictly larger than the energy of the consensus point and is zero otherwise; 'heavi_side_reg' multiplies it by a factor in (0,1) that is increasing in the energy gap; unknown corrections are rejected.",
 "all energies, eps>0",
 "over all real inputs",
 ['cbx/correction.py'])
p('C55','flattened network parameters round-trip',
 "For every list of parameter tensors, the offsets computed by get_param_properties tile [0,total) without gaps or overlaps in order, and slicing a flattened parameter vector with them returns exactly the original tensors (same pnames order).",
 "all parameter lists",
 "index arithmetic for all lists",
 ['cbx/utils/torch_utils.py:get_param_properties','cbx/utils/torch_utils.py:flatten_parameters','cbx/utils/torch_utils.py:eval_model'])
p('C56','initial ensemble is reshaped to (M,N,d)',
 "A given x of shape (d,), (N,d) or (M,N,d,...) is interpreted as (1,1,d), (1,N,d), (M,N,d,...), preserving all entries; without x the dimension d is required (otherwise an error is raised) and the shape is (M,N,d).",
 "all shapes",
 "for all shapes",
 [f'{PD}:ParticleDynamic.init_x'])
p('C57','history plots never index out of range',
 "PlotDynamicHistory.run_plots accesses only existing entries of the recorded x, consensus and drift histories and draws exactly ceil((len(x)-1)/freq) frames; contour_2D uses the plot window the caller specified.",
 "all history lengths and frequencies, all windows",
 "for all lengths",
 ['cbx/plotting.py:PlotDynamicHistory.run_plots','cbx/plotting.py:contour_2D'])
p('C58','names select the documented component, unknown names are rejected',
 "For noise models, corrections, termination criteria, mirror maps, kernels, regularisers, constraints and f_dim, every documented name yields the documented component and every other name raises an error instead of silently choosing one.",
 "all strings",
 "over all strings",
 ['cbx/noise.py:get_noise','cbx/correction.py:get_correction','cbx/utils/termination.py:select_term','cbx/dynamics/mirrorcbo.py:get_mirror_map','cbx/dynamics/polarcbo.py:PolarCBO.set_kernel','cbx/regularizers.py:select_reg_func','cbx/constraints.py:get_constraints','cbx/utils/objective_handling.py:_promote_objective'])
p('C59','a fixed seed makes the run reproducible',
 "Two dynamics constructed with the same arguments including seed produce the same particles after every step, independently of the state of the global random generator.",
 "all seeds, global RNG states, step counts",
 "two-execution property over all RNG states",
 [f'{PD}:ParticleDynamic.set_array_backend_funs',f'{PD}:ParticleDynamic.init_particles','cbx/dynamics/driftconstrainedcbo.py:DriftConstrainedCBO.indep_noise_step'])
p('C60','DriftConstrainedCBO independent noise keeps best_particle consistent and only touches collapsed runs',
 "The independent-noise step perturbs only runs whose ensemble variance around the consensus is below eps_indep, leaves at its end no run below the threshold, and best_particle/best_energy stay consistent.",
 "all ensembles, noise outcomes",
 "unbounded inner loop, all histories",
 ['cbx/dynamics/driftconstrainedcbo.py:DriftConstrainedCBO.indep_noise_step'])
p('C61','PSO pulls particles towards the consensus point and their own best position',
 "In a noise-free PSO step from rest (v = 0) with positive parameters every particle moves towards the consensus point and towards its historical best position, as in the referenced model.",
 "all ensembles, objectives, positive parameters",
 "sign of the drift for all states; the tests only check shapes",
 ['cbx/dynamics/pso.py:PSO.inner_step'])
p('C62','resampling records the best consensus of the resampled runs',
 "With track_best_consensus, best_consensus_energy[m] is the least objective value of the consensus points of run m over all calls that resampled it (infinity if none did) and best_consensus[m] is such a point; exactly the consensus points of the resampled runs are evaluated and charged.",
 "all call sequences, states with all runs active, objectives below infinity",
 "invariant over unboundedly many calls",
 ['cbx/utils/resampling.py:resampling._track_best_consensus'])
p('C63','saved evaluation points belong to the stored energies',
 "With save_consensus_eval_points=True, after every step the saved array holds for every particle the position at which it was evaluated last: its stored energy is the objective value there, and the point with index f_min_idx attains best_cur_energy. Saving never raises and does not change the dynamic; without the option nothing is saved.",
 "all operation sequences containing a step, batch settings, stopped runs, objectives, moves",
 "invariant over unboundedly many partial updates with mixed batches and stopped runs",
 ['cbx/dynamics/pdyn.py:CBXDynamic.maybe_save_consensus_eval_points','cbx/dynamics/pdyn.py:CBXDynamic.compute_consensus'])
p('C64','consensus-based sampling runs to the end',
 "CBS refuses exactly batched ensembles and multi-axis particles, has sigma = 1 whatever was passed, and its run ends without an exception after at most max_it steps (exactly max_it if that is the only criterion), for every number of runs and all termination criteria.",
 "all ensembles, objectives, random outcomes, modes, schedulers",
 "termination and absence of exceptions for unboundedly many steps and all criteria; the tests use max_it only",
 ['cbx/dynamics/cbs.py:CBS.__init__','cbx/dynamics/cbs.py:CBS.run'])
p('C65','user dynamics on the base class ParticleDynamic',
 "For every user-written inner_step on ParticleDynamic: optimize stops after max_it steps, all built-in criteria can be used, best_energy / best_particle are the least objective value seen and a position attaining it, and the last entry of history['x'] is the current dyn.x.",
 "all inner steps, ensembles, objectives, criteria, numbers of steps",
 "quantifies over arbitrary user code in the overridden method",
 ['cbx/dynamics/pdyn.py:ParticleDynamic.post_step','cbx/dynamics/pdyn.py:ParticleDynamic.optimize','cbx/utils/termination.py:max_eval_term.__call__'])
p('C66','initial particles have the requested shape and range',
 "init_particles returns an array of shape (M, N, d) for both methods and for shapes (M, N, d) and (N, d); uniform entries lie in [x_min, x_max), normal particles are standard normal vectors scaled by |delta| up to a rotation; it raises RuntimeError exactly for unknown methods and for normal initialisation with another number of axes.",
 "all shapes, bounds, standard deviations, random outcomes",
 "all shapes and random outcomes; the tests use four shapes",
 ['cbx/utils/particle_init.py:init_particles'])
p('C67','PyTorch dynamics behave like NumPy dynamics',
 "A dynamic made by to_torch_dynamic goes through the same states as the NumPy dynamic given the same random numbers; its default post-processing maps every coordinate (NaN and infinities included) to the same finite value; its effective_sample_size scheduler computes the same parameters; and a fixed seed makes its runs reproducible.",
 "all inner steps, ensembles, operation sequences, largest floats, random outcomes, seeds",
 "equality of two programs on all inputs including NaN; dependence on hidden global state",
 ['cbx/utils/torch_utils.py:to_torch_dynamic','cbx/utils/torch_utils.py:post_process_default_torch','cbx/utils/torch_utils.py:effective_sample_size','cbx/utils/torch_utils.py:set_array_backend_funs_torch'])
p('C68','mirror maps: grad and hessian are the derivatives of the function',
 "For every mirror map that implements them, grad(theta) is the gradient of __call__ at theta and hessian(theta) its Hessian, at every interior point of the domain where the function is differentiable, for every particle of an ensemble.",
 "all dimensions, parameters, points of the domain",
 "exact derivatives at all points of an open domain",
 ['cbx/dynamics/mirrorcbo.py:L2','cbx/dynamics/mirrorcbo.py:LogBarrierBox','cbx/dynamics/mirrorcbo.py:NonsmoothBarrier','cbx/dynamics/mirrorcbo.py:ElasticNet','cbx/dynamics/mirrorcbo.py:weighted_L2','cbx/dynamics/mirrorcbo.py:Entropy'])
p('C69','Bregman distances are non-negative and separate points',
 "For every mirror map with a function, Bregman_distance(F, p, q) is finite and non-negative on the domain of the map and zero only for p = q, for every particle of an ensemble.",
 "all dimensions, parameters, pairs of points of the domain",
 "strict convexity quantifies over all pairs of points",
 ['cbx/dynamics/mirrorcbo.py:Bregman_distance','cbx/dynamics/mirrorcbo.py:MirrorMap.Bregman_distance'])
p('C70','mirror maps as post-processing keep particles feasible',
 "A dynamic with MirrorMaptoPostProcessProx(map)() as post_process has all particles in the image set of the map after every step, its best_particle is feasible, and stopped runs stay where they are; the elastic net gives the proximal map of the 1-norm.",
 "all dynamics, inner steps, operation sequences, noise outcomes, dimensions",
 "invariant over unboundedly many steps of arbitrary dynamics",
 ['cbx/dynamics/mirrorcbo.py:MirrorMaptoPostProcessProx'])
p('C71','runs of AdamCBO and MirrorCBO are independent',
 "For AdamCBO and MirrorCBO, run r of an M-run dynamic ends with the same particles, energies, best values and evaluation count as a dynamic containing only run r with the same random numbers, and a stopped run of MirrorCBO keeps its particles although grad_conj is applied to all runs in every step.",
 "all M, mirror maps, decay rates, batching modes, built-in criteria, numbers of iterations",
 "relates two whole executions for all interleavings of stopping runs",
 ['cbx/dynamics/adamcbo.py:AdamCBO.inner_step','cbx/dynamics/mirrorcbo.py:mirror_step','cbx/dynamics/pdyn.py:ParticleDynamic.optimize'])
p('C72','the vectorised step is the per-particle step for particles of any shape',
 "For an ensemble of shape (M, N, d1, ..., dk) one step of the vectorised code (broadcasting of consensus, coefficients and norms, reshape and axis arguments) raises no exception and moves every particle by the update formula with the consensus of its own run; update_diff is one number per run that diff_tol can use; all noise models accept every particle shape.",
 "all numbers and lengths of trailing axes, ensemble sizes, active runs, batches, random numbers",
 "broadcasting mistakes show only for particular combinations of axis lengths; the statement covers all of them",
 ['cbx/dynamics/cbo.py:CBO.cbo_step','cbx/dynamics/pdyn.py:CBXDynamic.compute_consensus','cbx/dynamics/pdyn.py:CBXDynamic.post_step','cbx/dynamics/pdyn.py:CBXDynamic.update_covariance','cbx/noise.py'])
p('C73','sample objectives evaluate ensembles and attain their bounds',
 "Every sample objective maps an ensemble of shape (M, N, d) to one value per particle in an array of shape (M, N) that the dimension check of the constructor accepts, for all M and N; accelerated_sinus, nd_sinus, p_4th_order, Banana, Bimodal and Multimodal have the stated minima or lower bounds; the constructors accept array arguments.",
 "all M, N, d, parameters, points",
 "all ensemble sizes including one run and one particle; lower bounds over all points of a continuous space",
 ['cbx/objectives.py','cbx/dynamics/pdyn.py:ParticleDynamic.check_f_dims'])
p('C74','particles with infinite or undefined objective do not disturb the consensus',
 "If the objective is +inf, -inf or NaN at some particles of a run, the consensus point is still finite and lies in the hull of the particles with finite energy, the remaining particles of the run keep being optimised, and check_coeffs=True reports runs whose weights are unusable.",
 "all positive alpha, samples, dimensions, noise outcomes, operation sequences",
 "non-finite values arise only for particular positions; the consequence concerns all later steps",
 ['cbx/dynamics/pdyn.py:compute_consensus_default','cbx/dynamics/pdyn.py:post_process_default','cbx/dynamics/hypersurfacecbo.py:compute_consensus_rescale'])
p('C75','the number type of the initial ensemble and the form of alpha do not matter',
 "An ensemble given as integers is optimised like the same ensemble given as floats (same alpha, same steps, best_particle is the position with the best energy), and alpha can be given as a Python or NumPy number, or as an array with one value per run.",
 "all ensembles, alpha values, active runs, numbers of steps, candidate sequences",
 "the type of an array is not visible in its values; truncation shows only for some values",
 ['cbx/dynamics/pdyn.py:CBXDynamic.init_alpha','cbx/dynamics/pdyn.py:ParticleDynamic.init_x','cbx/dynamics/pdyn.py:ParticleDynamic.update_best_particle','cbx/dynamics/cbo.py:CBO.cbo_step'])
p('C76','the noise decides about collapse: expected spread of an ensemble',
 "With independent standard normal numbers, a step multiplies the expected sum of squared distances between the particles of a run by at most (1-lamda*dt)^2 + (N-1)*k*sigma^2*dt and, without clipping, at least (1-lamda*dt)^2 + (1-1/N)*k*sigma^2*dt, where k is the dimension for isotropic noise and 1 for anisotropic noise. So for every objective and alpha the run collapses in probability if the first factor is below one, and its expected spread tends to infinity if the second one exceeds one.",
 "all objectives, alpha, ensembles, dimensions, numbers of particles and steps",
 "a statement about expectations over a continuous distribution and unboundedly many steps",
 ['cbx/dynamics/cbo.py:CBO.cbo_step','cbx/noise.py:isotropic_noise','cbx/noise.py:anisotropic_noise','cbx/dynamics/pdyn.py:compute_consensus_default'])
p('C77','a stopped optimization can be resumed',
 "Calling optimize() with a smaller max_it or max_time and then again with a larger bound leads to exactly the same final state (positions, best particles, history, evaluation counters, termination reasons) or exception as a single call with the larger bound, whatever the other termination criteria are.",
 "all criteria lists, bounds, start states, objectives, noise, numbers of runs and particles, all dynamics",
 "compares whole executions of unbounded length, with runs stopping at different times in between",
 [f'{PD}:ParticleDynamic.optimize',f'{PD}:ParticleDynamic.select_active_runs','cbx/utils/termination.py'])
p('C78','documented parameters have an effect',
 "The parameters lamda and dt scale the drift in every dynamic that accepts them, and the drift correction chosen with the argument correction acts in every dynamic that accepts it.",
 "all values of the parameters, all sequences of operations",
 "noninterference: a statement about pairs of executions for all pairs of parameter values",
 ['cbx/dynamics/hypersurfacecbo.py:HyperSurfaceCBO.inner_step','cbx/dynamics/adamcbo.py:AdamCBO.inner_step','cbx/dynamics/driftconstrainedcbo.py:dc_inner_step','cbx/dynamics/regcombinationcbo.py:RegCombinationCBO.inner_step','cbx/dynamics/cbo.py:CBO.cbo_step'])
p('C79','the entries of the history belong together',
 "Entry j of the history describes one step: history['energy'][j] is the objective at history['x'][j], history['consensus'][j] is the consensus of these positions and energies, history['drift'][j] is their difference, history['update_norm'][j] is the distance between history['x'][j] and history['x'][j+1], and best_energy is the minimum over all recorded energies.",
 "all histories, numbers of runs and particles, tracking intervals, all entries",
 "relation between unbounded lists recorded at different places of the code",
 ['cbx/utils/history.py',f'{PD}:ParticleDynamic.track',f'{PD}:CBXDynamic.post_step',f'{PD}:CBXDynamic.compute_consensus','docs/userguide/dynamics.rst'])
p('C80','evaluating flattened networks is evaluating the networks',
 "eval_losses and eval_models applied to flatten_parameters(models, pnames) never raise and give, for every network, the loss and output of that network (parameters not flattened are those of the model passed); eval_acc is the fraction of correctly classified inputs, lies in [0,1], equals 1 exactly if all are classified correctly, and does not depend on how the data are split into batches; an empty loader raises.",
 "all networks (as functions of named parameters), numbers of networks, parameter shapes, names, batches, labels",
 "arbitrary networks and arbitrary splittings of the data into batches",
 ['cbx/utils/torch_utils.py:eval_model','cbx/utils/torch_utils.py:eval_losses','cbx/utils/torch_utils.py:eval_acc','cbx/utils/torch_utils.py:flatten_parameters'])
p('C81','steps of CBOMemory and PSO act on each run by itself',
 "Without batching and correction and with noise and post processing acting particle by particle, one step of CBOMemory and of PSO is, for every run, an explicit function of the positions, memories, velocities and energies of that run alone (move, second move towards the memory resp. new velocity, then replacement of the memory where the new position is better); if optimize finishes for M runs, each run started alone with its own random numbers finishes after the same number of steps with the same result.",
 "all field-valued parameters, ensembles, objectives (with inf and NaN), numbers of runs, particles and steps",
 "whole trajectories of arbitrary length for arbitrary objectives and noise are compared",
 ['cbx/dynamics/cbo_memory.py:CBOMemory.inner_step','cbx/dynamics/pso.py:PSO.inner_step','cbx/dynamics/pdyn.py:ParticleDynamic.optimize'])
p('C82','with weak noise the particles converge almost surely to one point',
 "If (1-lamda*dt)^2 + (N-1)*k*sigma^2*dt < r^2 < 1 (k is the dimension for isotropic noise, 1 for anisotropic noise), then with probability one no step of the infinite execution raises and all particles of a run, together with its consensus points, converge to one common point, which respects the post processing, exponentially fast with rate r.",
 "all measurable objectives, alpha, reachable states, dimensions, numbers of particles, batch sizes with batch_partial=False, and all probability spaces carrying independent standard normal numbers",
 "an almost sure statement about infinite executions",
 ['cbx/dynamics/cbo.py:CBO.cbo_step','cbx/noise.py:isotropic_noise','cbx/noise.py:anisotropic_noise',f'{PD}:compute_consensus_default',f'{PD}:CBXDynamic.set_batch_idx_batched'])
p('C83','mini-batches can be used with every dynamic',
 "A dynamic constructed with batch_args={'batch_size': B, 'batch_partial': b}, 1 <= B < N, can make steps: step does not raise when all runs are active, for b true and false.",
 "all batch sizes, numbers of runs and particles, objectives, reachable states",
 "claim about every reachable state and every batch size; the failing combinations are not the ones in the tests",
 ['cbx/dynamics/cbo_memory.py:CBOMemory.compute_consensus','cbx/dynamics/cbo_memory.py:CBOMemory.inner_step','cbx/dynamics/pso.py:PSO.inner_step','cbx/dynamics/adamcbo.py:AdamCBO.inner_step',f'{PD}:CBXDynamic.set_batch_idx_batched'])
p('C84','print_int, verbosity and sched mean what they say',
 "print_int and verbosity only control the console output: with every value optimize returns in the same state or raises the same exception; with verbosity 0 nothing is printed, otherwise the header, a report after every print_int-th step (the first step included) and the best energies. sched=None leaves all parameters unchanged; values that name no scheduler are rejected.",
 "all dynamics, criteria, values of print_int and verbosity, scheduler arguments, numbers of steps",
 "noninterference: compares pairs of executions of any length",
 [f'{PD}:ParticleDynamic.optimize',f'{PD}:CBXDynamic.print_cur_state',f'{PD}:ParticleDynamic.print_post_opt','cbx/dynamics/cbs.py:CBS.run'])
p('C85','with weak noise optimize stops almost surely by diff_tol',
 "If diff_tol > 0 is among the (stateless built-in) criteria and (1-lamda*dt)^2 + (N-1)*k*sigma^2*dt <= q < 1 with the parameters of every round (k is the dimension for isotropic noise, 1 for anisotropic noise), then with probability one optimize returns, also without max_it, max_eval and max_time; the probability that it is still running after k+2 checks is at most (2(k+1))^M * 5/2 * q^(k-1) * (sum of the spreads)/(N*tol)^2, and the number of checks has a finite mean.",
 "all measurable objectives, numbers of runs M and particles N, dimensions, reachable states, schedulers acting on each parameter by itself, batch sizes with batch_partial=False, and all probability spaces carrying independent standard normal numbers",
 "an almost sure statement about a loop without bound",
 [f'{PD}:ParticleDynamic.optimize',f'{PD}:CBXDynamic.post_step','cbx/utils/termination.py:diff_tol_term','cbx/dynamics/cbo.py:CBO.cbo_step','cbx/noise.py:isotropic_noise','cbx/noise.py:anisotropic_noise'])
p('C86','the consensus point is computed accurately in floating point arithmetic',
 "Computed with rounding (relative error u, underflow error eta) and with the additions in any order, each coordinate of the consensus point differs from the exact weighted mean only by a small multiple of the largest coordinate; in particular the coefficients sum up to one within the tolerance 0.1 of check_coeffs.",
 "all arithmetics obeying the standard model, all binary formats with rounding to nearest, numbers of particles, energies, alpha, particle positions and orders of summation",
 "quantifies over all inputs and rounding rules; the failing inputs look harmless and the result is a finite number",
 [f'{PD}:compute_consensus_default.__call__',f'{PD}:compute_consensus_default._check_coeffs','cbx/dynamics/hypersurfacecbo.py:compute_consensus_rescale','cbx/utils/torch_utils.py:compute_consensus_torch'])
p('C87','the effective sample size is computed accurately in floating point arithmetic',
 "Computed with rounding and with the additions in any order, the effective sample size used by the scheduler effective_sample_size (and the sign of its gap to eta*N) differs from (sum w)^2 / sum w^2 only by a small multiple of the number of particles.",
 "all arithmetics obeying the standard model, all binary formats with rounding to nearest, numbers of particles, energies, alpha and orders of summation",
 "quantifies over all inputs and rounding rules; the failing inputs look harmless and the result is a finite number",
 ['cbx/scheduler.py:eff_sample_size_gap.__call__'])
p('C88','max_time = T means ceil(T/dt) steps, also in floating point arithmetic',
 "With max_time = T as the only criterion and constant dt > 0, optimize ends after ceil((T - t)/dt) steps. In floating point arithmetic (the clock is advanced by rounded additions of dt) it ends too, and the number of steps is the same.",
 "all dynamics, objectives, binary formats with rounding to nearest and any rule for ties, values of dt and T, numbers of steps",
 "rounding errors of the clock accumulate over arbitrarily many steps; the failing pairs dt, T are not the ones in the tests",
 [f'{PD}:CBXDynamic.post_step','cbx/utils/termination.py:max_time_term',f'{PD}:ParticleDynamic.optimize'])
p('C89','The historical best positions attain the stored energies, also in floating point arithmetic',
 "For CBOMemory and PSO, energy[m,n] is the minimum of the objective over all evaluated positions of the particle and best_energy[m] the minimum over the run, whatever the rounding; y[m,n] is a position at which the particle was evaluated and f(y[m,n]) = energy[m,n].",
 "all objectives, ensembles, noise models, parameters, batch settings and operation sequences; binary formats with rounding to nearest and any rule for ties",
 "the replacement y += mask*(x - y) is exact for the small integers and similar magnitudes of tests; it loses positions whose coordinates differ much in magnitude",
 ['cbx/dynamics/cbo_memory.py:CBOMemory.inner_step','cbx/dynamics/pso.py:PSO.inner_step'])
p('C90','Without noise the ensemble stays in its box, also in floating point arithmetic',
 "With sigma = 0 and 0 <= lamda*dt <= 1 the particles of a run stay in every box that contains the initial ensemble, also when every operation (consensus point included) is rounded.",
 "all finite objectives (with |alpha*f| bounded for the default rule), dimensions, ensembles, batch settings, operation sequences, orders of summation; binary formats with rounding to nearest and any rule for ties",
 "rounding errors accumulate over arbitrarily many steps and depend on the order of summation",
 ['cbx/dynamics/cbo.py:CBO.cbo_step','cbx/dynamics/cbo.py:cbo_update',f'{PD}:compute_consensus_default'])
p('C91','The schedulers in floating point arithmetic',
 "In floating point arithmetic a multiplied parameter is min(maximum, factor^k*initial) after k updates, reaches its maximum for factor > 1, bisection never leaves its bracket, and the effective scheduler solves J_eff(alpha) = eta*N up to its threshold.",
 "all parameters, factors, energies, brackets, iteration limits, orders of summation; binary formats with rounding to nearest and any rule for ties",
 "a parameter could get stuck or overshoot through rounding for particular factors and values only",
 ['cbx/scheduler.py:multiply.update','cbx/scheduler.py:bisection_solve','cbx/scheduler.py:effective_sample_size.update','cbx/scheduler.py:eff_sample_size_gap'])
p('C92','CBOMemory without noise; absorption for CBOMemory and PSO',
 "With sigma = sigma_memory = 0 and lamda*dt, lamda_memory*dt in [0,1], positions and historical best positions of CBOMemory stay in the hull of the initial ensemble and the positions contract to consensus as in CBO; with noise that vanishes with the drift, a run whose positions and historical best positions coincide (for PSO: with zero velocities) never moves again.",
 "all objectives with finite values, ensembles, dimensions, numbers of runs, random numbers, operation sequences without batches",
 "a statement about all times and all convex sets; a swapped sign or a memory drift relative to the old position shows only for some ensembles",
 ['cbx/dynamics/cbo_memory.py:CBOMemory.inner_step','cbx/dynamics/cbo_memory.py:CBOMemory.memory_step','cbx/dynamics/pso.py:PSO.inner_step'])
p('C93','Noise-free CBO improves convex objectives',
 "For a convex objective the consensus point is worse than no particle of the batch by more than log(batch size)/alpha; with sigma = 0, 0 <= lamda*dt <= 1 and no batches the mean objective of a run never increases, for quasi-convex objectives and any batches its maximum never increases, and for ever repeated steps all particles converge geometrically to one point whose objective is at most the initial mean, and (Lipschitz objective, particles at most D apart) at most that of the best initial particle plus K*lamda*dt*log(N)/alpha + L*D*(1-lamda*dt)^K for every K.",
 "all convex (quasi-convex) objectives, ensembles, dimensions, numbers of runs, operation sequences, schedulers that keep sigma = 0, 0 <= lamda*dt <= 1, alpha >= 0",
 "a statement about all convex functions and all times; a consensus point with a wrong sign of alpha or weights that do not sum to one still improves many test objectives",
 ['cbx/dynamics/cbo.py:CBO.cbo_step','cbx/dynamics/cbo.py:cbo_update',f'{PD}:compute_consensus_default'])
p('C94','Histories of several dynamics in one program',
 "Whatever dynamics a program constructs, steps and resets, and in whatever order, the history of each dynamic holds exactly one entry per tracked key for every save_int-th of its own steps since construction or its last reset, and no other keys; tracking never raises.",
 "all programs (sequences of constructions, steps, resets), numbers of dynamics, classes, tracker names, extra trackers, save_int",
 "the interference needs two dynamics that share an argument object; each dynamic tested alone is right",
 [f'{PD}:ParticleDynamic.init_history',f'{PD}:ParticleDynamic.track','cbx/utils/history.py:default_track','cbx/utils/history.py:track_x','cbx/utils/history.py:track_drift'])
p('C95','PolarCBO without noise',
 "With sigma = 0, 0 <= lamda*dt <= 1, kappa > 0 and a positive kernel factor the particles of PolarCBO stay in every convex set that contains the initial ensemble; a collapsed run never moves again when the noise vanishes with the drift; with the constant kernel, groups of particles in convex sets more than kappa apart never influence each other, each group of diameter less than kappa is a CBO ensemble of its own and contracts by exactly 1 - lamda*dt per step, so the groups never gather at one point.",
 "all finite objectives, kernels Gaussian, Laplace, constant and inverse quadratic, ensembles, dimensions, numbers of runs and groups, operation sequences, schedulers that keep the conditions; batches except batch_partial=False for the groups",
 "a statement about all times and all convex sets; a kernel with a wrong threshold or weights with a wrong axis moves particles out of their group only for particular distances",
 ['cbx/dynamics/polarcbo.py:PolarCBO.compute_consensus','cbx/dynamics/polarcbo.py:Constant_kernel.neg_log','cbx/dynamics/cbo.py:CBO.inner_step','cbx/dynamics/cbo.py:cbo_update'])
p('C96','Criteria objects used again on another dynamic',
 "energy_stagnation_term, loss_update_resampling and consensus_stagnation decide on a dynamic independently of the dynamics they were used on before.",
 "all objectives, energies, leftover buffers, patience values, thresholds, numbers of earlier calls; energy stagnation with one run",
 "the leftover state matters only when one object serves two dynamics, and then only for some energies and for a while",
 ['cbx/utils/termination.py:energy_stagnation_term.__call__','cbx/utils/resampling.py:loss_update_resampling.__call__','cbx/utils/resampling.py:loss_update_resampling.check_energy_wait','cbx/utils/resampling.py:consensus_stagnation.check_consensus_update'])
p('C97','Value of a regularised objective after earlier evaluations',
 "The value of regularize_objective on an ensemble is f + lamda*R^p for the lamda given to the constructor, whatever was evaluated before (without scheduler).",
 "all objectives, regularisers, exponents, lamda, sequences of earlier evaluations on arrays of any shape (M, N, d)",
 "the first evaluation fixes the number of rows; tests evaluate on the ensemble of the dynamic only",
 ['cbx/regularizers.py:regularize_objective.__call__','cbx/regularizers.py:regularize_objective.broadcast_lamda','cbx/plotting.py:contour_2D','cbx/dynamics/regcombinationcbo.py:RegCombinationCBO.__init__'])
p('C98','Consensus point in IEEE arithmetic with overflow and underflow',
 "In an IEEE format (rounding, overflow to infinity, gradual underflow) the consensus point of finite energies is a finite number, close to the exactly computed one; in a run of CBO every consensus point is finite and all particles stay in the box of the default post processing.",
 "all IEEE formats, orders of summation, ensembles, energies (finite, infinite), alpha > 0; operation sequences, noise (also NaN), batches, schedulers for the run",
 "overflow needs extreme energies times alpha (which the schedulers raise to 10^5 by default); whether NaN arises depends on all weights of a sample at once",
 [f'{PD}:compute_consensus_default',f'{PD}:post_process_default','cbx/dynamics/hypersurfacecbo.py:compute_consensus_rescale','cbx/dynamics/cbo.py:CBO.inner_step'])
p('C99','Live plots and history plots show data that belong together',
 "After a step, PlotDynamic.update() draws the particles of the plotted run as they were before the step, the consensus point computed from them and arrows that lead from the particles to this point; frame j of the history plot shows what the live plot showed after step j.",
 "all objectives, consensus rules, noise, batches, numbers of runs and particles, operation sequences, plotted runs and plot options; the dimension is not 1 for arrows",
 "the arrays have one row per active run, so the plot is wrong only after a run has stopped, and only for some runs; nothing compares a drawn frame with the run",
 ['cbx/plotting.py:PlotDynamic.init_plot','cbx/plotting.py:PlotDynamic.update','cbx/plotting.py:PlotDynamicHistory.plot_at_ind','cbx/utils/history.py:track_consensus','cbx/utils/history.py:track_drift'])
p('C100','MirrorCBO with the default mirror map next to CBO',
 "MirrorCBO with mirror map L2(l), i.e. l/2 |x|^2, and parameters l*lamda, l*sigma computes the same run as CBO with lamda, sigma (same noise): positions, energies, best particles, evaluation counts, active runs and histories agree; in particular MirrorCBO with its default mirror map is CBO.",
 "all l != 0, objectives, consensus rules, noise that does not depend on lamda, sigma and y, corrections, batches, stopping criteria, proportional schedulers, operation sequences",
 "an equivalence of two classes over whole runs; it breaks only in runs in which a particle is clipped or NaN once",
 ['cbx/dynamics/mirrorcbo.py:mirror_step','cbx/dynamics/mirrorcbo.py:L2','cbx/dynamics/mirrorcbo.py:MirrorCBO.__init__','cbx/dynamics/cbo.py:CBO.inner_step',f'{PD}:post_process_default'])
p('C101','Histories of positions and dual variables of MirrorCBO',
 "With x and y tracked, history['x'] of MirrorCBO is the initial ensemble followed by the images post_process(grad_conj(y)) of the entries of history['y'], in order; history['y'] has one entry per recorded step and is lost at a reset.",
 "all mirror maps, post processing acting per particle, noise, batches, save_int, operation sequences",
 "the two lists have different lengths; an off-by-one between them or a missing copy is invisible in tests of the final state",
 ['cbx/dynamics/mirrorcbo.py:track_y','cbx/dynamics/mirrorcbo.py:mirror_step',f'{PD}:ParticleDynamic.track',f'{PD}:ParticleDynamic.init_history'])
p('C102','Positive affine change of the objective',
 "Replacing f by c*f+b with c > 0, dividing alpha and the maximum of its scheduler by c, and changing energy_tol (c*tol+b), the stagnation threshold and correction_eps (times c) accordingly, changes no position, consensus point, drift, counter, active run or reason at any time; all energies, best energies and recorded energies become c*e+b. This holds for the default, the rescaled and the polarised rule (kernel factor 'const') and for CBO, MirrorCBO and AdamCBO. It fails with the same alpha, with the fixed maximum 1e5 of the default scheduler, with the same correction_eps and with kernel factor 'alpha'.",
 "all c > 0, b, objectives with finite or infinite values, noise models, post processing, batches, stopping criteria, operation sequences",
 "a test compares two seeded runs of one objective; a place where raw energies leak into the dynamics only shows for particular scales",
 [f'{PD}:compute_consensus_default','cbx/dynamics/hypersurfacecbo.py:compute_consensus_rescale','cbx/dynamics/polarcbo.py:compute_polar_consensus','cbx/correction.py:heavi_side_reg_correction','cbx/scheduler.py:multiply','cbx/utils/termination.py:energy_stagnation_term'])
p('C103','With the Heaviside correction particles do not get worse',
 "CBO with correction='heavi_side' and without batches: a particle whose energy is not above the energy of the consensus point of its run stays where it is in a step (up to post processing), for every noise that vanishes with the drift. Without noise and with 0 <= lamda*dt <= 1, on quasi-convex objectives that post processing does not increase, the objective value of no particle ever increases, for any consensus rule with one point per run. Without the correction, or without quasi-convexity, this is false.",
 "all particle and run counts, dimensions, consensus rules, schedulers that keep the conditions, stopping criteria, operation sequences, pairs of states of a run",
 "monotonicity of every single particle over a whole run is not visible in tests that look at the final best energy",
 ['cbx/correction.py:heavi_side_correction','cbx/dynamics/cbo.py:cbo_update',f'{PD}:CBXDynamic.correction',f'{PD}:ParticleDynamic.step'])
p('C104','The numbering of the particles does not matter',
 "CBO without batches and correction, with a consensus rule and an update norm that do not depend on the order of their arguments (as the default ones): if the particles of every run are renumbered and every particle keeps its random numbers, then every operation sequence (and every call of optimize) that succeeds for one dynamic succeeds for the other; positions and energies agree up to the order, and consensus points, best energies, update_diff, evaluation counts, active runs, parameters and clock are equal at any time. The best particles have equal objective values, but are different particles in general: of particles with equal energies the first one is taken.",
 "all numberings, run and particle counts, objectives, noise acting per particle, post processing per particle, schedulers per parameter, built-in stopping criteria, operation sequences",
 "a test uses one ordering; an index used where a particle is meant (argmin of another row, consensus of another slot) may still give plausible runs",
 [f'{PD}:compute_consensus_default',f'{PD}:ParticleDynamic.update_best_cur_particle',f'{PD}:ParticleDynamic.update_best_particle','cbx/dynamics/cbo.py:CBO.inner_step',f'{PD}:CBXDynamic.post_step'])
p('C105','PolarCBO with kappa = np.inf is CBO',
 "With kappa = np.inf every kernel of the library (Taz as long as not all particles coincide) gives every particle the consensus point of CBO. Therefore every operation sequence and every call of optimize that succeeds for CBO succeeds for PolarCBO with the same random numbers, and the two objects agree afterwards in positions, energies, best particles, counters, parameters, clock, active runs and all histories except the shape of the consensus. Required: no batches or batch_partial=True without a Heaviside correction, noise, corrections and criteria that do not read the consensus. False with the energy stagnation criterion, which raises for PolarCBO, and for the Taz kernel once all particles coincide (NaN).",
 "all particle and run counts, dimensions, objectives with infinite or NaN values, kernel factors, batch sizes, noise, corrections, schedulers, operation sequences",
 "the documentation only says that the kernel is constant; a mistake in broadcasting (weights over the wrong axis, consensus of another particle) shows up in whole runs only",
 ['cbx/dynamics/polarcbo.py:compute_polar_consensus','cbx/dynamics/polarcbo.py:Gaussian_kernel','cbx/dynamics/polarcbo.py:Taz_kernel','cbx/dynamics/polarcbo.py:PolarCBO.compute_consensus','cbx/utils/termination.py:energy_stagnation_term'])
p('C106','Mean, covariance and law of one noisy step',
 "From any reachable state, one step of CBO without correction and with trivial post processing, driven by random numbers of mean 0 and variance 1 that are uncorrelated (as np.random.normal gives them): the expected position of a moved particle is x - lamda*dt*(x - c) with the consensus point c of its run; different particles, runs and coordinates are uncorrelated; the variance of a coordinate is sigma^2*dt*(x-c)_l^2 for anisotropic noise, sigma^2*dt*|x-c|^2 for isotropic noise and sigma^2*dt for constant noise, and the covariance matrix is 2*sigma^2*dt (times 1+alpha in the mode 'sampling') times the weighted covariance of the ensemble for covariance noise without batches and stopped runs; the expected squared distance to c is multiplied by (1-lamda*dt)^2 + sigma^2*dt (per coordinate, anisotropic) or (1-lamda*dt)^2 + d*sigma^2*dt (isotropic). For normal numbers the coordinates are normally distributed.",
 "all reachable states, probability spaces, consensus rules with one point per run, batches, run and particle counts, dimensions, parameters with dt >= 0",
 "a wrong power of dt or sigma, or a random array shared by two particles, only changes distributions; a test with fixed seeds or tolerances does not see it",
 ['cbx/noise.py:isotropic_noise','cbx/noise.py:anisotropic_noise','cbx/noise.py:constant_noise','cbx/dynamics/cbo.py:cbo_update','cbx/dynamics/cbo.py:CBO.inner_step'])
p('C107','The loop of the independent noise ends almost surely',
 "With standard normal numbers, sigma_indep > 0 and dt > 0 the loop 'while True' of DriftConstrainedCBO.indep_noise_step ends with probability one, for all threshold values eps_indep and simultaneously for all positions, consensus points, step sizes and iteration numbers; it makes more than k perturbations with probability at most q^k for a q < 1 that does not depend on the state. Hence almost surely no execution made of steps and scheduler updates with dt > 0 is ever caught in the loop.",
 "all dimensions, run and particle counts, thresholds, objectives, constraints, initial ensembles, parameters, numbers of steps",
 "a test cannot show that an unbounded random loop ends; a mistake such as perturbing the wrong rows makes it run forever in rare states only",
 ['cbx/dynamics/driftconstrainedcbo.py:DriftConstrainedCBO.indep_noise_step','cbx/dynamics/driftconstrainedcbo.py:DriftConstrainedCBO.inner_step'])
p('C108','Errors in the objective values move the ensemble by a bounded amount',
 "If two objectives differ by at most delta at the particles of a run then the consensus points computed from them differ by at most (1 - exp(-2*alpha*delta)) times the diameter of the run. Without noise and batches, for a Lipschitz objective (constant L) and an ensemble of diameter D, replacing the objective by one that differs by at most delta and moving the initial particles by at most eps moves every particle by at most exp(2*alpha*L*D)*(eps + 2*alpha*D*delta), after any number of steps.",
 "all normed spaces, objectives, run and particle counts, parameters with 0 <= lamda*dt <= 1 and alpha >= 0, initial ensembles, numbers of steps; the consensus bound for every noise model and every batch",
 "a test compares finitely many steps of two chosen objectives; that the distance does not grow with the number of steps is a statement about all of them",
 ['cbx/dynamics/pdyn.py:compute_consensus_default','cbx/dynamics/cbo.py:CBO.inner_step'])
p('C109','CBO with isotropic or covariance noise commutes with rotations',
 "Carry the initial ensemble, the objective, the post processing and the tolerances along a similarity v -> c*Q*v + b (c > 0, Q orthogonal) and rotate the random vectors by Q. Then a CBO dynamic with isotropic or covariance noise performs the image of the original execution: positions, consensus points, best particles and recorded positions are mapped, energies, counters, running sets and stopping reasons are the same, and exceptions occur at the same place. Consequently, with independent standard normal random numbers, corresponding events about the two dynamics have the same probability. This fails for anisotropic noise (no transformation of the random vectors helps) and for the default clipping.",
 "all dimensions, orthogonal matrices, factors, translations, objectives, ensembles, random numbers, batches, drift corrections selected by name, sequences of operations",
 "a test checks finitely many rotations up to rounding errors; eigenvalue decompositions are not unique, so that the covariance noise commutes with all rotations is not visible from outputs of eigh",
 ['cbx/dynamics/cbo.py:CBO.inner_step','cbx/noise.py:isotropic_noise','cbx/noise.py:covariance_noise','cbx/dynamics/pdyn.py:CBXDynamic.update_covariance','cbx/dynamics/pdyn.py:compute_mat_sqrt'])
p('C110','For a bounded objective the admissible strength of the noise does not depend on the number of particles',
 "Let the values of the objective (at points respected by the post processing) differ by at most D, alpha >= 0, no batches, K = min(exp(alpha*D), (exp(alpha*D)-1)^2) and q = (1-lamda*dt)^2 + (1-1/N)*(1+K)*kappa*sigma^2*dt with kappa = d for isotropic and kappa = 1 for anisotropic noise. From every reachable state whose particles are respected by the post processing, with independent standard normal random numbers, the mean of the sum of squared distances between the particles of a run after k steps is at most q^k times its present value; and if q < r^2 < 1 then almost surely all particles and the consensus points converge to one common point, respected by the post processing, with rate r. The bound is uniform in the number N of particles.",
 "all objectives with bounded oscillation, dimensions, ensembles, numbers of particles, parameters, reachable states, numbers of steps",
 "almost sure statements about infinite executions and statements uniform in the number of particles are outside the reach of tests",
 ['cbx/dynamics/cbo.py:CBO.inner_step','cbx/dynamics/cbo.py:cbo_update','cbx/noise.py:isotropic_noise','cbx/noise.py:anisotropic_noise','cbx/dynamics/pdyn.py:compute_consensus_default','cbx/dynamics/pdyn.py:CBXDynamic.step'])
p('C111','Value of the objective at the point where the particles meet',
 "Let the objective satisfy f >= b and lie at every point between two parabolas of curvature L from above and -L' from below (L' = 0 for convex objectives, L' = L for objectives with L-Lipschitz gradient), and let the post processing not increase f. Without batches, from every reachable state, with independent standard normal random numbers and q = (1-lamda*dt)^2 + theta*kappa*sigma^2*dt < 1 (theta and kappa as in C82 or C110), almost surely all particles of a run converge to one random point v and E exp(-alpha*(f(v)-b)) >= w := mean_n exp(-alpha*(f(x_n)-b)) - alpha*(lamda*dt*L' + L/2*((lamda*dt)^2 + kappa*sigma^2*dt))*Var(x)/(1-q). Consequently f(v) <= b + t with probability at least w - exp(-alpha*t), for every t.",
 "all objectives with bounded curvature, dimensions, ensembles, parameters with q < 1, reachable states, levels t",
 "the statement is about the limit of infinite random executions and a probability; a test sees finitely many finite executions",
 ['cbx/dynamics/cbo.py:CBO.inner_step','cbx/dynamics/cbo.py:cbo_update','cbx/noise.py:isotropic_noise','cbx/noise.py:anisotropic_noise','cbx/dynamics/pdyn.py:compute_consensus_default','cbx/dynamics/pdyn.py:CBXDynamic.step'])
p('C112','Affine invariance of the covariance noise',
 "CBO with covariance noise (CBS included), default consensus, no batches, all runs active, finite objective: let A be any matrix, b a vector, and carry objective (f'(Av+b) = f(v)), post processing and ensemble along. Pathwise: along every sequence of steps there are orthogonal matrices Q(k,m), one for every draw and run, such that the second dynamic with the random vectors Q(k,m)z never raises and keeps ensemble and consensus points the images of those of the first dynamic. In law: with independent standard normal vectors, each dynamic its own, the sequence of the images of the ensembles of the first has the law of the sequence of the ensembles of the second. So the scaling or shear of the coordinates does not matter for this noise; for isotropic noise this is false.",
 "all objectives, dimensions, sizes, affine maps (also singular), reachable states, random numbers, numbers of steps; for the law all measurable events about whole trajectories",
 "equality of the laws of infinite sequences, for all affine maps; a test compares single executions, which are not images of each other with the same random numbers",
 ['cbx/noise.py:covariance_noise','cbx/dynamics/pdyn.py:compute_mat_sqrt','cbx/dynamics/pdyn.py:CBXDynamic.update_covariance','cbx/dynamics/cbs.py:CBS','cbx/dynamics/cbo.py:CBO.inner_step','cbx/dynamics/pdyn.py:compute_consensus_default'])
p('C113','Which noise can leave the affine span of an ensemble',
 "Covariance noise: if all particles of a run lie in an affine subspace (for instance their affine span) that the post processing respects, they stay in it for ever, for all random numbers; so with at most as many particles as dimensions there are a point y and a distance delta > 0, depending on the initial ensemble only, such that no particle ever comes closer to y than delta, whatever the objective. Anisotropic noise: a coordinate in which all particles of a run agree keeps its value for ever. Isotropic noise with independent standard normal numbers, sigma != 0 and dt > 0: a moved particle that is not at the consensus point leaves every given proper affine subspace in one step with probability one.",
 "all dimensions, affine subspaces, objectives, ensembles, run and particle counts, batches, random numbers, sequences of operations (isotropic noise: all reachable states and one step)",
 "a test shows finitely many executions; that no execution with any objective ever reaches a point is a statement about all of them",
 ['cbx/noise.py:covariance_noise','cbx/noise.py:anisotropic_noise','cbx/noise.py:isotropic_noise','cbx/dynamics/pdyn.py:compute_mat_sqrt','cbx/dynamics/pdyn.py:CBXDynamic.update_covariance','cbx/dynamics/cbo.py:CBO.inner_step'])
p('C114','Exploration: what one noisy step can reach',
 "One step with independent standard normal numbers, sigma != 0, dt > 0, from any reachable state: for any set of moved particles on whose drift the noise acts in every direction and any choice of a non-empty open set for each of them, with positive probability all these particles land in their sets at the same time (before post processing). Constant noise always acts in every direction, isotropic noise exactly when the particle is not at the consensus point, anisotropic noise exactly when no coordinate agrees with the consensus point. Hence for a finite objective, continuous at a point y that the post processing keeps, and every eps > 0: with positive probability best_energy is less than f(y) + eps once the particle has been evaluated in the next step.",
 "all dimensions, reachable states, run and particle counts, batches, consensus rules, sets of particles, open sets; for the best value all finite objectives, points y of continuity and eps > 0",
 "the probability of the event can be smaller than any sampling can resolve; that it is never zero is a statement about all open sets",
 ['cbx/noise.py:isotropic_noise','cbx/noise.py:anisotropic_noise','cbx/noise.py:constant_noise','cbx/dynamics/cbo.py:CBO.inner_step','cbx/dynamics/pdyn.py:ParticleDynamic.update_best_particle'])
p('C115','For large alpha CBO follows the best particle',
 "CBO with any batches, noise that depends continuously on the drift, continuous finite objective and continuous post processing: consider dynamics with the same batches and random numbers whose alpha tends to infinity in every running run and whose ensembles tend to that of a dynamic t in which a particle of least energy of the batch takes the place of the consensus point. If in the first K steps of t the best particle of each batch is unique as a point, then after up to K steps all particles of the running runs and the consensus points tend to those of t.",
 "all normed spaces, objectives, noise models, batches, run and particle counts, families of reachable states, numbers of steps K",
 "a limit in alpha along whole trajectories; exp(-alpha*f) is out of the range of floating point numbers long before the limit is reached",
 ['cbx/dynamics/pdyn.py:compute_consensus_default','cbx/dynamics/pdyn.py:CBXDynamic.compute_consensus','cbx/dynamics/cbo.py:CBO.inner_step','cbx/noise.py'])
p('C116','The units of the variables do not matter with anisotropic noise',
 "For CBO with anisotropic noise: rescale every variable by its own factor, reorder the variables and move their origins, and carry objective and post processing along. With the same batches and the random numbers of each variable carried along (the same random numbers if the order is kept), after any number of steps every particle and every consensus point of the second dynamic is the rescaled one of the first.",
 'for all objectives, factors (zero and negative ones included), reorderings, origins, dimensions, numbers of runs and particles, batch options, parameters, random numbers and numbers of steps',
 "an equality of two whole trajectories for every choice of units; with isotropic noise it is false, and a run on one rescaled problem only agrees up to rounding",
 ['cbx/noise.py:anisotropic_noise','cbx/dynamics/cbo.py:CBO.inner_step','cbx/dynamics/cbo.py:cbo_update','cbx/dynamics/pdyn.py:compute_consensus_default','cbx/dynamics/pdyn.py:CBXDynamic.set_batch_idx'])
p('C117','With constant noise the best value found tends to the minimum',
 "CBO with constant noise (sigma not zero, dt positive), independent standard normal numbers and post processing into a bounded box (the default clipping): for every point y of the box at which the objective is continuous and every eps > 0, the probability that best_energy of a running run is not below f(y) + eps after k + 2 steps is at most q^k with some q < 1. If y is a global minimiser, almost surely best_energy tends to the minimum; if it is the only one and the objective is continuous, best_particle tends to y.",
 'for all measurable objectives, reachable states, alpha, lamda, sigma, dt, dimensions, numbers of runs and particles, batch sizes (with all particles moving) and almost all infinite sequences of random numbers',
 "a statement with probability one about infinite executions; a test sees finitely many steps of finitely many seeds",
 ['cbx/noise.py:constant_noise','cbx/dynamics/cbo.py:CBO.inner_step','cbx/dynamics/pdyn.py:ParticleDynamic.update_best_particle','cbx/dynamics/pdyn.py:post_process_default'])
p('C118','the vectorised step of PolarCBO is the per-particle step for particles of any shape',
 "For an ensemble of shape (M, N, d1, ..., dk) and every kernel, the vectorised code of PolarCBO (pairwise differences with new axes, sums over axes, broadcasting of alpha, the kernel factor and the energies, coefficients with trailing axes) raises no exception and gives every particle of the batch the consensus of its own run, weighted by the kernel at its own distances; the step it makes is the one of the per-particle model.",
 "all numbers and lengths of trailing axes, ensemble sizes, active runs, batches, kernel factor modes, random numbers",
 "broadcasting mistakes show only for particular combinations of axis lengths, and arrays with four or more axes are easily forgotten; the statement covers all of them",
 ['cbx/dynamics/polarcbo.py:PolarCBO.compute_consensus','cbx/dynamics/polarcbo.py:compute_polar_consensus','cbx/dynamics/polarcbo.py:Gaussian_kernel.neg_log','cbx/dynamics/polarcbo.py:Laplace_kernel.neg_log','cbx/utils/torch_utils.py:compute_polar_consensus_torch'])
p('C119','a larger penalty moves the consensus point to the particles of least violation',
 "With the energies of regularize_objective (f + lamda R^p): the violation R^p averaged with the weights of the consensus point does not increase when lamda is raised; the total weight of the particles that violate the constraint by delta more than some other particle is at most N exp(-alpha (lamda delta - K)), K bounding the differences of f; and as lamda tends to infinity the consensus point of every running run tends to the consensus point, for the original objective, of the particles of least violation in its batch.",
 "all objectives, regularisers, exponents, alpha, penalties, ensembles, batches, reachable states",
 "a limit and a monotonicity statement over all penalties; tests use a few values of lamda and cannot see that the energies of the original objective still decide among the feasible particles",
 ['cbx/regularizers.py:regularize_objective.__call__','cbx/regularizers.py:regularize_objective.broadcast_lamda','cbx/dynamics/pdyn.py:compute_consensus_default','cbx/dynamics/pdyn.py:CBXDynamic.compute_consensus'])
p('C120','with constant noise optimize stops almost surely by energy_tol',
 "CBO with constant noise, sigma != 0, dt > 0, clipping to a bounded box and the criterion energy_tol = tol: if the objective is below tol at a point of the box at which it is continuous, then the probability that optimize is still running after k checks decays like a polynomial times q^k with q < 1, the mean number of checks is finite, optimize returns almost surely, and if energy_tol is the only criterion every run returns with best_energy = f(best_particle) < tol.",
 "all measurable objectives, numbers of runs and particles, batch sizes, reachable states, schedules of alpha",
 "a statement about the distribution of the stopping time; a test sees finitely many seeds and must bound the number of steps",
 ['cbx/dynamics/pdyn.py:ParticleDynamic.optimize','cbx/dynamics/pdyn.py:ParticleDynamic.terminate','cbx/dynamics/pdyn.py:ParticleDynamic.select_active','cbx/utils/termination.py:energy_tol_term','cbx/noise.py:constant_noise','cbx/dynamics/cbo.py:CBO.inner_step'])
p('C121','a regularised objective takes its shape from its first caller',
 "Over any sequence of calls (by dynamics or plots) and scheduler updates, exceptions included, lamda of a regularised objective has one entry per run of the first ensemble it was called on. It evaluates ensembles with that number of runs (or any ensemble, if it was one) to f + lamda R^p, returns too many rows for a single run and raises ValueError otherwise. Used by one dynamic and its scheduler alone no call and no update raises, and the update acts on every run as documented; if the shape does not fit, the update raises after theta has been changed. So plot_1D before a dynamic of several runs makes the scheduler raise IndexError, and contour_2D makes the evaluation raise ValueError. num_eval counts the particles of all calls.",
 "all sequences of calls and updates, numbers of runs and particles, objectives, regularisers, exponents, both rules for the mean",
 "the outcome depends on which object is called first, with how many runs; unit tests create a fresh objective for every dynamic",
 ['cbx/regularizers.py:regularize_objective.__call__','cbx/regularizers.py:regularize_objective.broadcast_lamda','cbx/regularizers.py:regularization_paramter_scheduler.update','cbx/regularizers.py:weighted_param_rule_mean','cbx/plotting.py:plot_1D','cbx/plotting.py:contour_2D'])
p('C122','energy_tol alone does not end a collapsed run',
 "With energy_tol as the only criterion, optimize never returns and never raises if one run cannot reach values below the tolerance: (a) CBO with a noise that vanishes with the drift, and all particles of the run coincide at a point where the objective is not below the tolerance; (b) sigma = 0 and 0 <= lamda*dt <= 1, and the particles of the run lie in a convex set, kept by the post processing, on which the objective is not below the tolerance.",
 "all reachable states, objectives, numbers of runs and particles, parameters, schedulers, random numbers, numbers of loop iterations",
 "a loop that never ends cannot be observed by a test that ends; it depends on one run among many and on the random numbers only through the state reached",
 ['cbx/utils/termination.py:energy_tol_term','cbx/dynamics/pdyn.py:ParticleDynamic.optimize','cbx/dynamics/pdyn.py:ParticleDynamic.select_active_runs','cbx/dynamics/cbo.py:CBO.inner_step'])
p('C123','expected spread of an ensemble with covariance noise',
 "With covariance noise (consensus-based sampling), all runs active and no batches, the expected sum of the squared distances of all pairs of particles of a run after a step is (1 - lamda*dt)^2 times its value before, plus 4N(N-1) sigma^2 dt (1 + alpha) (mode sampling; without 1 + alpha otherwise) times the trace of the weighted covariance. If the objective values of the run differ by at most K, this is a factor between (1 - lamda*dt)^2 + 2(1 - 1/N) sigma^2 dt (1 + alpha) exp(-+alpha K), exact for equal values, in every dimension. So sampling with lamda = sigma = 1 expands every run with (1 - 1/N)(1 + alpha) exp(-alpha K) >= 1.",
 "all reachable states, objectives, ensembles, dimensions, parameters, both modes, uncorrelated standardised random numbers",
 "a statement about expectations; the factor depends on the whole ensemble",
 ['cbx/noise.py:covariance_noise','cbx/dynamics/cbs.py:CBS','cbx/dynamics/cbo.py:CBO.inner_step','cbx/dynamics/pdyn.py:CBXDynamic.update_covariance'])
p('C124','only lamda*dt and sigma*sqrt(dt) matter',
 "Multiply dt and all time limits by c > 0, divide lamda by c and sigma by sqrt(c). Then the constructor, every sequence of steps, termination checks, scheduler updates and resets, and optimize give the same positions, energies, best particles, history, evaluation counts, iterations, stopping reasons and exceptions; only the clock t is multiplied by c. In particular every optimisation with lamda > 0 has the result of one with lamda = 1. This holds for all noise models of noise.py.",
 "all objectives, ensembles, batches, parameters, c > 0, random numbers, operation sequences, numbers of iterations, criteria, noise models, schedulers that act in proportion",
 "a relation between two runs for all parameters and all lengths, including termination and exceptions",
 ['cbx/dynamics/cbo.py:cbo_update','cbx/dynamics/cbo.py:CBO.inner_step','cbx/noise.py','cbx/utils/termination.py:max_time_term','cbx/dynamics/pdyn.py:CBXDynamic.post_step'])
p('C125','PSO particles have inertia',
 "Without forces (lamda = lamda_memory = sigma = sigma_memory = 0) a PSO step satisfies the semi-implicit scheme (m + gamma*dt) v' = m v of the referenced model; in particular without friction (gamma = 0) velocities are kept and particles move on uniformly.",
 "all ensembles, velocities, objectives, masses, friction coefficients, step sizes, numbers of steps",
 "the tests check shapes only; the factor holds for all parameters and all numbers of steps",
 ['cbx/dynamics/pso.py:PSO.inner_step'])
with open('/verif/properties.jsonl','w') as fh:
    for q in P: fh.write(json.dumps(q)+'\n')
print(len(P))
