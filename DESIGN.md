# A Lean 4 model of CBXpy

Source modelled: `/repo` (PdIPS/CBXpy, pinned). All line numbers refer to that tree.
The code is not run; the tie between code and model is the reading recorded in the
citation comment on every model definition.

## Layout

| directory | contents |
|---|---|
| `lean/Verif/Np/` | the NumPy fragment: IEEE-like extended numbers (`Flt`), arrays with two leading axes (run, particle), broadcasting, fancy indexing, exceptions as values (`Err`) |
| `lean/Verif/Model/` | the code, function by function, with citations |
| `lean/Verif/Spec/` | small independent specifications used in statements |
| `lean/Verif/Proofs/` | helper lemmas |
| `lean/Verif/Props/` | the property theorems `Cxx_...`, nothing else; beside each an `example` showing its hypotheses are met |

## Modelling decisions

* **Numbers.** Positions/parameters of the state machine live in a linearly ordered type `K` with operations `+ - * / ^`, about which the model
  assumes no laws. So `K` may be an ordered field (exact arithmetic, executable at `ℚ`) or the floating point numbers `Fl` with rounding to
  nearest (`Spec/Fl.lean`). The bookkeeping theorems hold for both; where a law is needed it is a hypothesis: `SoundArith` (adding `dt ≥ 0` does not turn
  the clock back, `0 + a = a`, `a - b > 0` iff `a > b`; holds in `Fl`), `MaskExact` (`y + 1*(x - y) = x`; holds in fields, not in `Fl`),
  or a field. C88 to C91 say what floating point arithmetic changes for the clock, the historical best positions, noise-free `CBO` and the schedulers. In `Fl` the exponent is unbounded: no overflow, no underflow. `psoVelocity` multiplies by the inverse of `m + gamma*dt` where the code divides; with rounding the last bit may differ, which no theorem about `Fl` uses. Analysis (exp, log, sqrt, trigonometry) is done in `ℝ`; rounding of the consensus
  point and of the effective sample size is treated in C86 and C87. Energies live in
  `Flt K` = NaN, ±inf or an element of `K`, with IEEE comparison and NaN-propagating min, because the
  code relies on `inf` initial values and compares with `<`/`>`. Post-processing is modelled on `Flt` coordinates.
* **Arrays.** `Mat α` = shape `(rows, cols)` plus an index function; an entry is one particle (`V`, all remaining axes)
  or one energy. `Mat.bin` is NumPy broadcasting on both leading axes, and fails with `Err.value` exactly when NumPy raises.
  `Idx` is a table of (run, particle) coordinates covering `Ellipsis`, `(active_runs_idx, ...)` and the fancy batch index;
  `gather`/`scatter` raise `Err.index` out of range; repeated indices: last write wins. That one entry per particle is a faithful
  abstraction of arrays of shape `(M, N, d1, ..., dk)` is itself a theorem for the CBO step (`Np/Arr.lean`, `Model/Arrays.lean`, C72).
* **Exceptions** are values (`Except Err`).
* **Empty selections.** A step without active runs, or with batches of size 0, raises for some objectives (`f_dim='1D'`), for isotropic noise and in
  some SciPy versions. The flag `Env.emptyRaises` says which case is at hand (the exception is raised in `computeConsensus`); theorems hold for both
  values, and those that claim absence of exceptions exclude such steps when the flag is set.
* **Randomness** is an arbitrary oracle: the sampler is a tape indexed by draw, row, column; `Generator.permuted` is an
  arbitrary family of permutations. Theorems quantify over all oracles.
* **Callables** (`f`, noise, correction, `_compute_consensus`, `post_process`, norm) are parameters in the machine (`Env`),
  and the built-in ones are defined separately and shown to meet the contracts the machine theorems assume.
* **Loops**: `while` loops take fuel; theorems show the result does not depend on it once it is large enough.
* **Aliasing** (which array object `history['x'][0]` is) is modelled in a separate heap model (`Model/Heap.lean`), since
  the value-level machine cannot express it.

## Properties: what is modelled, how it is proved

| id | model | proof |
|---|---|---|
| C01 | `optimize` loop with fuel, `max_it_term` | induction on `max_it - it` |
| C02 | `select_active_runs` | direct, lists/filters |
| C03 | CBO machine, criteria | freeze lemma for one step + induction over the loop |
| C04 | counters of the CBO machine | invariant; negation for `heavi_side` |
| C05 | clock `t` | induction, `Nat.ceil` |
| C06 | `energy_stagnation_term` ring buffer on `Flt` | invariant over calls |
| C07 | same, with NumPy assignment shapes | negation: raises for every k ≥ 2 active runs; partial for k=1 |
| C08 | `reset` | positive for it/t, negation for the other criteria |
| C09, C10 | best-particle bookkeeping over arbitrary op sequences | invariant "no energy below best, best realised" |
| C11 | CBOMemory/PSO on the same machine | concrete counter-executions; partial theorem |
| C12 | memory update | invariant with ghost history |
| C13 | `num_f_eval` vs the objective's own counter | invariant; negation for `heavi_side` with M ≥ 2 |
| C14, C15 | `init_batch_idx`/`set_batch_idx_batched` with arbitrary permutations | invariant; counting |
| C16 | gather/scatter | frame lemmas |
| C17 | CBO machine, relation between an M-run and a 1-run state | simulation |
| C18 | HyperSurface/DriftConstrained/RegCombination steps with broadcasting | negation |
| C19 | progress for the CBO machine | invariant on shapes and indices |
| C20–C22 | `compute_consensus_default` over ℝ | algebra, limits |
| C23–C25 | CBO step with built-in noise | algebra + induction |
| C26 | `multiply` | induction |
| C27 | `bisection_solve` vectorised | loop invariant |
| C28, C29 | `eff_sample_size_gap` | Hölder / convexity of log-sum-exp |
| C30–C33 | mirror maps | real algebra, inequalities |
| C34 | hypersurface projections | algebra; SVD as an oracle with its contract |
| C35–C37 | constraints | derivative lemmas, linear algebra; negations |
| C38 | `post_process_default` on `Flt` | case analysis; negation for `copy_nan_to_num=True` |
| C39 | `track` in the machine | induction |
| C40 | heap model | invariant; negation for CBO |
| C41 | reshape on flat lists | index arithmetic |
| C42 | objectives over ℝ | inequalities; negations for wrong documentation |
| C43, C44 | regularisers and their scheduler | algebra, induction |
| C45–C47 | resampling state machines | invariants with ghost history |
| C48 | success evaluation | sorted lists |
| C49, C50 | kernels, polar consensus | real analysis; negation for Taz |
| C51 | Adam moments | induction |
| C52 | matrix square root with an eigh oracle | matrix algebra |
| C53, C54 | noise models, corrections | algebra |
| C55 | parameter offsets | induction over lists |
| C56 | `init_x` | case analysis |
| C57 | plotting index arithmetic | arithmetic |
| C58 | dispatch tables | case analysis on strings |
| C59 | RNG provenance model | functional dependence + counterexample |
| C60 | independent noise loop | loop invariant; counterexample |
| C61 | PSO step | algebra; the sign is proved wrong, and without noise and memory term the swarm spreads exponentially |
| C62 | `_track_best_consensus` | invariant over call sequences |
| C63 | `maybe_save_consensus_eval_points` | invariant "saved point = last evaluated point" |
| C64 | `CBS` constructor and `run` | termination of the loop; negation with stopped runs |
| C65 | base class `ParticleDynamic` with an arbitrary inner step | invariant; negations |
| C66 | `init_particles` | index arithmetic, orthogonality |
| C67 | PyTorch variants | equality of functions and runs; seed shown irrelevant |
| C68 | derivatives of the mirror maps | real analysis, separable functions |
| C69 | Bregman distances | convexity inequalities per coordinate |
| C70 | mirror maps as post-processing | invariant over operations |
| C71 | AdamCBO and MirrorCBO moves, relation between an M-run and a 1-run state | simulation |
| C72 | the CBO step with NumPy operations on arrays of any number of axes | refinement to the per-particle model |
| C73 | objectives on ensembles: shapes, acceptance by the dimension check, minima of the objectives without documentation | array model, analysis; negation for one run or one particle |
| C74 | consensus with infinite or NaN energies, IEEE semantics | refinement to the real-valued rule; negation with invariant for NaN, `-inf`, no finite energy |
| C75 | integer ensembles, forms of `alpha` | model of the integer/float type of arrays; negations |
| C76 | expected spread with normal noise | iterated expectation over steps of the machine; one-step identity from Gaussian moments, induction over steps |
| C77 | resuming a stopped optimization | two calls of `optimize` against one, induction over rounds; steps commute with changes of criteria and reasons |
| C78 | parameters with and without effect | noninterference over operation sequences |
| C79 | relations between the recorded lists | induction over histories; negations for intervals, batches, documentation |
| C80 | outputs, losses and accuracies of networks given by flattened parameters | refinement: evaluation of slices = evaluation of the networks; loop invariant over the batches |
| C81 | a step of CBOMemory and PSO run by run, independence of the runs | closed form of a step per run; simulation of `optimize` by a dynamic with one run |
| C82 | almost sure convergence with weak normal noise | positions of a run as a recursion driven by independent arrays; geometric decay of expectations, summation over steps, Cauchy sequences |
| C83 | mini-batches with every dynamic | shapes of all arrays of a step; which broadcasts succeed; `CBOMemory` and `PSO` raise |
| C84 | `print_int`, `verbosity`, `sched` of `optimize` | loop with output, noninterference; `print_int=0` and unknown strings fail late |
| C85 | `optimize` with `diff_tol` stops almost surely with weak noise | the rounds of `optimize` as traces; stopped runs stay stopped, so there are polynomially many histories; geometric decay of the mean change per step, Markov inequality, union bound |
| C86 | consensus point in floating point arithmetic | rounding error analysis for an arbitrary arithmetic obeying the standard model and arbitrary order of summation; for large `alpha * energy` the claim is proved false in every binary format |
| C87 | effective sample size in floating point arithmetic | same arithmetic as C86; perturbation bound for `logsumexp`; for large `alpha * energy` the claim is proved false in every binary format |
| C88 | the clock and `max_time` in floating point arithmetic | the machine over `Fl`; induction over the loop for any arithmetic, error bounds for repeated addition, exact evaluation of roundings for the counterexamples |
| C89 | historical best positions of `CBOMemory` and `PSO` in floating point arithmetic | invariant with ghost positions that attain the energies; error bound of one replacement does not accumulate |
| C90 | noise-free `CBO` in floating point arithmetic | induction over operations with a box that grows by a relative error per step; the error of the consensus rule from C86 |
| C91 | schedulers in floating point arithmetic | induction over updates with relative errors; spacing of floating point numbers above one; bisection invariant with the error of the rounded midpoint; the error of the effective sample size from C87 |
| C92 | `CBOMemory` without noise, absorption for `CBOMemory` and `PSO` | induction over operations with the run-wise description of a step (C81); convexity of the consensus point (C20); exact recursion for the differences when all particles start at minimisers |
| C93 | noise-free `CBO` improves convex objectives | Gibbs inequality `Σ wᵢ fᵢ ≤ mean f` and `≤ min f + log(n)/alpha`, Jensen's inequality, induction over operations; geometric Cauchy sequence for the limit |
| C94 | histories of several dynamics in one program (`init_history`, `track`, `default_track`) | store model with shared lists of trackers; invariant over arbitrary programs, refinement to what each dynamic was asked for |
| C95 | `PolarCBO` without noise | invariant over operations; weights of the polarised consensus are convex; with the constant kernel they vanish outside the own group |
| C96 | criteria objects used on a second dynamic | invariants with an arbitrary leftover state; ring buffer, waiting counter, window of differences |
| C97 | regularised objective after earlier evaluations, e.g. a contour plot | induction over the calls; `lamda` stays the column fixed by the first call |
| C98 | consensus point in IEEE arithmetic with overflow and underflow, alone and in the dynamic | decision logic for the special values, invariant over operation sequences, reduction to C86 where nothing overflows |
| C99 | live plots and history plots show data that belong together | frame equations after every operation sequence, refinement between history plot and live plot, counterexamples for stopped runs and save_int > 1 |
| C100 | MirrorCBO with the default mirror map next to CBO | lockstep simulation over operation sequences, counterexamples for clipping and NaN |
| C101 | histories of positions and dual variables of MirrorCBO | invariant by induction over operation sequences |
| C102 | positive affine change of the objective | lockstep simulation over operation sequences, invariance of the consensus rules, counterexamples |
| C103 | with the Heaviside correction particles do not get worse | invariant by induction over operation sequences, counterexamples |
| C104 | the numbering of the particles does not matter | simulation by induction over operation sequences and over `optimize`, counterexample for `best_particle` |
| C105 | `PolarCBO` with `kappa = np.inf` is `CBO` | lockstep simulation by induction over operation sequences and over `optimize`; counterexamples for energy stagnation and for the Taz kernel with coinciding particles |
| C106 | mean, covariance, mean squared distance and law of one noisy step | law over probability spaces, for all reachable states |
| C107 | the loop of the independent noise of `DriftConstrainedCBO` ends almost surely | geometric tail bound, almost sure termination, invariant by induction over executions |
| C108 | errors in the objective values and in the initial ensemble: effect on the consensus point and on noise-free runs, uniformly in the number of steps | perturbation bound for weighted means, discrete Gronwall argument by induction |
| C109 | CBO with isotropic or covariance noise commutes with similarities `v ↦ cQv + b` if the random vectors are rotated; anisotropic noise and clipping do not | lockstep simulation (`EnvSym`), uniqueness of the positive semidefinite square root; in law: rotation invariance of the product of standard normal laws |
| C110 | bounded objectives: the strength of the noise that still allows almost sure consensus is independent of the number of particles | bound of the distance between consensus point and centre of mass by the oscillation of the objective, inserted in the recursion of C82 |
| C111 | error estimate for the value of the objective at the limit point (`Curved` objectives) | change of the mean weight `exp(-alpha f)` in a step: first order terms cancel at the consensus point; geometric decay of C82/C110; Fatou |
| C112 | affine invariance of covariance noise: pathwise with orthogonal matrices, in law for trajectories | polar decomposition `A √C = √(A C Aᵀ) U` by extension of an isometry; rotation invariance of normal vectors; Markov recursion, uniqueness of projective limits; measurability of the matrix square root by polynomials |
| C113 | subspaces an ensemble cannot leave: affine span (covariance noise), frozen coordinates (anisotropic noise); isotropic noise leaves every proper affine subspace almost surely | invariant over operations; the range of the square root of a covariance is the span of the drifts; a combination of independent normal numbers has no atoms |
| C114 | every family of non-empty open sets is reached in one noisy step with positive probability; near-optimal values of `best_energy` have positive probability | product of intervals under independent normal numbers (Lebesgue measure is absolutely continuous with respect to the normal law); invariant of the best particle |
| C115 | trajectories for `alpha` to infinity tend to the dynamic that follows the best particle | Laplace principle for converging ensembles; induction over steps with the same batches and slots |
| C116 | rescaled, reordered and shifted variables: the trajectories with anisotropic noise are the rescaled ones | equivariance of the weighted mean and of the componentwise noise under generalised permutation matrices; induction over steps |
| C117 | constant noise and clipping: best value and best particle tend to the minimum with probability one, with geometric tail | uniform lower bound for the probability to reach a ball from anywhere in the box; tail bound for recursions driven by independent random numbers |
| C118 | `PolarCBO` with NumPy operations on arrays of any number of axes | refinement to the per-particle model |
| C119 | the penalty of a regularised objective in the consensus point | monotonicity, explicit bound, limit |
| C120 | constant noise and clipping: `optimize` with `energy_tol` stops almost surely, below the tolerance | histories of the rounds as in C85; per-step bound for the probability of a miss as in C117; union bound |
| C121 | `regularize_objective` and its scheduler as objects whose array shapes are fixed by the first caller (`RegShare`) | invariant over sequences of uses; refinement of the formulas of C44 |
| C122 | `optimize` with `energy_tol` alone never ends when one run is collapsed (vanishing noise) or confined (no noise) above the tolerance | invariant over all iterations + totality of `optimize` |
| C123 | expected spread of an ensemble with covariance noise (consensus-based sampling) | second moments from the covariances of C106; the weighted mean minimises the weighted squared distances; bounds for the weights |
| C124 | only lamda\*dt and sigma\*sqrt(dt) matter: change of the unit of time | commutation of every operation with the change of unit, by cases on the exceptions; induction over operations and iterations |
| C125 | inertia of PSO; false: the code multiplies `m*v` by `dt` | per-run description of a step (C81), induction over the loop, geometric sum |

`properties.jsonl` is written by `tools/props.py`; `MANIFEST.json` and `lean/Verif.lean` by `tools/manifest.py` from
`tools/claims.txt` (one line per claim, with a note saying what a partial claim lacks); `AXIOMS.md` by `tools/axioms.py`.

## Which code is modelled

Citation comments in `Model/` give file and lines for every definition. Per source file:

| file | model | left out |
|---|---|---|
| `dynamics/pdyn.py` | `Dyn`, `Consensus`, `FltConsensus` (IEEE values, `check_coeffs`), `Rounded`, `FlConsensus` (consensus rules in rounded arithmetic), `Ieee` (the same with infinities, overflow and gradual underflow), `Noise` (covariance), `Post`, `Heap` (aliasing), `Rng` (generators), `ObjectiveHandling` (`init_x`, `check_f_dims`), `EvalPoints`, `Base` (methods of `ParticleDynamic`), `Norm` (default norm), `Arrays` (whole-array form of the step), `Dtype` (integer and float arrays), `Print` (console output, arguments of `optimize`) | `__repr__`, `to_numpy` |
| `dynamics/cbo.py`, `cbs.py` | `Dyn`, `Cbs` | warning text |
| `dynamics/adamcbo.py`, `mirrorcbo.py` | `Moves`, `Mirror`, `MirrorFun`, `ProxPost`, `MirrorHist` (tracker of `y`) | nothing |
| `dynamics/driftconstrainedcbo.py`, `regcombinationcbo.py` | `FullMoves`, `Constraints`, `Indep` (independent noise) | – |
| `dynamics/hypersurfacecbo.py` | `HyperSurface` | SVD is an oracle with its contract |
| `dynamics/cbo_memory.py`, `pso.py` | `Memory` (steps, construction, and the loop of `optimize` for a given step, `optimizeBy`) | – |
| `dynamics/polarcbo.py` | `Polar`, `PolarArrays` (whole-array form), `PolarInf` (`kappa = np.inf`) | – |
| `noise.py` | `Noise`, `Names`, `Rng` | distribution of the generators (C76, C82, C106, C107 assume the distribution in the documentation of NumPy) |
| `correction.py` | `Correction` (`heaviRegFlt`: with NaN gaps) | – |
| `scheduler.py` | `Sched`, `Rounded` (effective sample size in rounded arithmetic), `FlSched` (effective scheduler in floating point arithmetic) | – |
| `constraints.py` | `Constraints` | – |
| `regularizers.py` | `Regularizers`, `RegShare` (shapes, exceptions, `num_eval`) | – |
| `objectives.py` | `Objectives` (one point), `ObjArrays` (ensembles, `objectives.py:567-661`) | computation of a covariance's inverse inside SciPy |
| `plotting.py` | `Plot` (frame and index arithmetic, windows), `LivePlot` (`PlotDynamic.init_plot`, `update`: which data are handed to the drawing) | drawing; `plot_1D` and `contour_2D` only as the ensembles they evaluate (`RegShare`) |
| `utils/history.py` | `Dyn` (trackers), `Heap`, `Tracks` (tracker lists shared by several dynamics) | – |
| `utils/termination.py` | `Dyn` | – |
| `utils/resampling.py` | `Resampling` | – |
| `utils/success.py` | `Success` | printing |
| `utils/objective_handling.py` | `ObjectiveHandling` | – |
| `utils/torch_utils.py` | `TorchParams` (parameter offsets), `TorchEval` (outputs, losses, accuracy; the network is an arbitrary function), `Torch` (post-processing, samplers, scheduler); the consensus functions are the same formulas as in `Consensus`, `Polar` | devices, `torch.vmap` (modelled as a map over the first axis), `float32` rounding |
| `utils/particle_init.py` | `ParticleInit` | – |

Name dispatch of all files (strings to classes) is in `Names`.

Out of scope (no executable model): drawing with matplotlib, `torch.vmap` execution, wall-clock performance, rounding error (except in `Rounded`, `Ieee` and the theorems about `Fl`),
statistical quality of the random generators.

## Where the code and its documentation disagree

Each line names the theorem that proves the disagreement (suffix `_false` or `_raises`), or says that it is only recorded here.

Counting, termination, reset:
* `heavi_side` corrections charge every run with the evaluations of all runs, so `num_f_eval` overcounts and `max_eval` stops early or
  late (`C13_heaviside_overcounts`, `C04_heaviside_false`); `energy_stagnation_term` evaluates after the `max_eval` check (`C04_stagnation_false`); `PSO` and
  `CBOMemory` evaluate all `N` particles per step while the check adds `batch_size` (`C04_memory_batch_false`).
* `energy_stagnation_term` raises for two or more active runs (`C07_false`, `C07_optimize_false`).
* `reset()` keeps `num_f_eval`, `f_min`, `update_diff`, so a second `optimize()` stops at once after a stop by another criterion (`C08_false`).
  It also drops the tracking configuration (in the model: `reset`).
* `consensus_stagnation` may select a run before `patience` differences exist (`C47_early_false`).
* `resampling` charges an evaluation to every active run (`C62_charge_false`) and mixes up runs once some are stopped
  (`C62_stopped_raises`, `C62_stopped_false`).

Stopped runs and batches:
* A CBO step with a Heaviside correction succeeds exactly when no run has stopped (or there is only one) and every particle is moved (`C54_succeeds_iff`).
* Covariance noise, Heaviside corrections, CBOMemory, PSO, HyperSurfaceCBO, DriftConstrainedCBO, RegCombinationCBO and CBS either raise or move
  stopped runs (`C19_covariance_stopped_false`, `C19_covariance_batched_false`, `C54_stopped_raises`, `C54_batch_raises`, `C12_stopped_raises`,
  `C18_*_false`, `C64_stopped_false`); PolarCBO raises with `batch_partial=False` (`C50_batch_raises`).
* CBOMemory raises in every step for batches of more than one particle, and PSO for every batch with `batch_partial=True`, the default
  (`C83_memory_false`, `C83_pso_false`).
* `optimize(print_int=0)` raises after the first step even if nothing is printed (`C84_zero_false`); `optimize(sched='some text')` makes a step before it fails
  (`C84_text_false`).
* Calling `step` after all runs have stopped raises for `f_dim='1D'` and for isotropic noise (`C19_idle_false`); `optimize` never does so (`C19_optimize_partial`).
* `batch_var='concat'` can repeat a particle within a batch (`C14_concat_false`).
* `sched='effective'` couples the runs (`C17_effective_false`).
* A Heaviside correction adds the number of active runs, not 1, to the evaluation counter of each run (`correction.py:76`), so with `max_eval` a run stops earlier among others than alone (`C17_heaviside_false`).
* With `batch_partial=False` `best_cur_particle` need not have energy `best_cur_energy` (`C63_best_cur_false`).

Best particle, history, randomness:
* `optimize()` of CBOMemory and PSO with several runs raises as soon as some but not all runs have stopped (`C19_memory_stopped_false`).
* CBOMemory and PSO report a `best_particle` that does not attain `best_energy` (`C11_memory_false`, `C11_pso_false`).
* `history['x'][0]` is an alias of the live array and is overwritten by in-place dynamics (`C40_*_false`).
* `init_history` uses the list `track_args['extra_tracks']` of the caller and appends the named trackers to it. Dynamics constructed from the same `track_args` (with `extra_tracks`) therefore share their trackers: each of `k` dynamics records every value `k` times (`C94_shared_false`, `C40_extra_tracks_false`); with different names the next step of the first dynamic raises `KeyError` (`C94_key_false`); `default_track` objects are switched off for all (`C94_off_false`).
* The seed does not cover the initial ensemble, `exponential_sampler` and independent noise (`C59_*_false`).
* Independent noise perturbs stopped runs and its loop is unbounded (`C60_*`).

Formulas:
* PSO moves particles away from consensus and memory (`C61_attraction_false`); without noise, clipping and memory term the distances of the particles grow exponentially (`C61_diverges`).
* The consensus point is not a mean of the particles when `alpha * energy` is large compared with the precision: `exp(w - logsumexp(w))` is not normalised again, the rounding of `logsumexp` is lost in the exponent, and `n` particles of equal energy get coefficient 1 each (`C86_lost`, `C86_false`). In single precision (PyTorch) `alpha = 1e5` and objective value 400 suffice. `check_coeffs` would notice, but it is off by default and missing in the PyTorch version. The rescaled rule of `HyperSurfaceCBO` does not have the problem (`C86_rescaled`).
* The effective sample size suffers in the same way: for `alpha * energy` large compared with the precision, `2 * logsumexp(w) - logsumexp(2 w)` loses `log n`, and `n` equal energies give effective sample size 1 instead of `n` (`C87_lost`); the bisection then sees a gap of the wrong sign (`C87_false`).
* The clock is advanced by `self.t += self.dt` (`pdyn.py:928`), so rounding errors accumulate: in every floating point format there are `dt`, `T = 8*dt` for which `max_time=T` gives 9 steps (`C88_more_false`), `dt`, `T > 3*dt` for which it gives 3 steps (`C88_fewer_false`), and the clock gets stuck at `2^p * dt`, so that a larger `max_time` is never reached (`C88_endless_false`). Computing the time as `it * dt` would not have these problems.
* Historical best positions are replaced by `y += mask * (x - y)` (`cbo_memory.py:107-110`, `pso.py`). With rounding this is not `x`: in every format there is a run of two steps after which `y` is a position with objective value `+inf` although the stored energy is finite (`C89_memory_false`). `np.where(mask, x, y)` would be exact. The energies are not affected (`C89_energy`).
* Without noise the particles may leave the hull of the ensemble by rounding, even where the objective is `+inf` outside (`C90_false`); by how much is bounded in `C90_hull_partial`.
* DriftConstrainedCBO without constraints never moves (`C37_drift_false`). Quadric gradients and solves need a symmetric matrix
  (`C35_quadric_false`, `C36_quadric_false`).
* Mirror maps: inverse pairs and projections fail at listed points (`C30_*_false`, `C31_*_false`), clipping leaves the hyperplane
  (`C33_plane_false`, `C34_plane_clip_false`).
* Adam bias correction after `reset()` and with batches (`C51_reset_false`, `C51_batch_false`).
* History: with `save_int > 1` or batches the recorded energies do not belong to the recorded positions (`C79_interval_false`, `C79_batch_false`); `history['energy']` is not the documented best energy per run (`C79_energy_doc_false`).
* Objectives: documented minima of McCormick, Himmelblau, Bukin6, drop-wave, eggholder, Michalewicz, cross-in-tray (`C42_*_false`). What is true of cross-in-tray, McCormick and Michalewicz (bounded domains, points up to rounding) is proved in `C42_cross_in_tray_partial`, `C42_mccormick_partial`, `C42_michalewicz_partial`; McCormick's second documented point is no minimum at all.
* Kernels: constant kernel at distance kappa, inverse quadratic, Taz (`C49_*_false`); covariance noise in PolarCBO (`C50_covariance_*`).
* Regularisers: L0 tolerance, plane with scalar normal, stopped runs (`C43_*_false`), `theta_max` (`C44_theta_false`).
* A regularised objective keeps the shape of its first call: after `plot_1D` the scheduler of a dynamic with several runs raises `IndexError` (`C121_plot_raises`), after `contour_2D` the dynamic itself raises `ValueError` (`C121_contour_raises`); a failed update has already changed `theta` (`C121_mismatch_raises`).
* RegCombinationCBO keeps NaN particles (`C38_regcombination_false`).
* With `heavi_side_reg` a particle whose energy gap is NaN (for instance objective `+inf` at particle and consensus) jumps to the corner of the domain
  (`C54_regularised_nan_false`); with `heavi_side` its drift is 0 (`C54_heaviside_nan`).
* Default clipping breaks translation equivariance, constant noise breaks scaling (`C25_*_false`).
* With `alpha = 0` a single particle with energy `+inf` makes the consensus point NaN (`C74_alpha_zero_false`; `C74_rescale_nan_false` for the rescaled rule).
* The empty constraint list does not act as no constraint in the implicit solve (`C36_empty_false`); large steps of HyperSurfaceCBO can leave the sphere (`C34_sphere_false`).
* The Taz kernel couples the runs (`C50_taz_false`) and gives NaN for a collapsed run (`C105_taz_false`); energy stagnation raises for PolarCBO (`C105_stagnation_false`).
* CBOMemory without noise does not contract (`C92_contract_false`). An update of a regularised objective before its first evaluation raises (`C121_uncalled_raises`).
* With `energy_tol` as the only criterion `optimize` does not end once a run has collapsed above the tolerance (`C122_collapsed`).
* `pso.py:128` multiplies the momentum `m*v` by `dt`, so a `PSO` without friction and forces slows down by the factor `dt` per step (`C125_not_kept`, `C125_stops`).

Limits of the theorems (not disagreements; they show which hypotheses are needed): `C93_nonconvex_false`, `C103_hill_false`, `C103_uncorrected_false` (convexity, correction), `C102_*_false` (what has to be scaled with the objective), `C104_best_particle_false` (ties),
`C109_*_false`, `C112_isotropic_false` (which noise commutes with which maps), `C91_multiply_false` (rounding), `C70_simplex_false`, `C72_iso_empty_false`, `C73_index_raises`.

Interfaces:
* `noise=None` is documented but raises, `'Quadric'` always fails, `rule_mean` accepts every string (`C58_*_false`).
* Multi-axis particles fail in the promotion of objectives (`C41_trailing_false`), with the criterion `diff_tol` (`C72_diff_false`) and with covariance noise
  (`C72_covariance_false`), and with all kernels of `PolarCBO` but the Gaussian one (`C118_kernels_false`); repeated parameter names (`C55_duplicates_false`).
* `accelerated_sinus`, `nd_sinus`, `p_4th_order` and `Multimodal` squeeze their result, so a dynamic with the default `M=1` cannot be constructed with them
  (`C73_squeeze_false`); `Bimodal` and `Unimodal` raise for centres given as arrays (`C73_centre_false`).
* One NaN (or `-inf`) energy, or only infinite energies, make the consensus of the run NaN (`C74_nan_false`); the step then moves all
  its particles to the corner `(max_thresh, ..., max_thresh)` (`C74_step_false`), where they stay (`C74_stuck_false`,
  `C74_lost_false`). `check_coeffs=True` never raises (`C74_check_useless`).
* Integer initial ensembles: `alpha` is truncated, in-place updates raise in the first step, `best_particle` is truncated (`C75_*_int_false`). `alpha` as
  `np.float32`, list or `(M,)` array raises in the first step (`C75_form_false`).
* Plots: IndexError before the first step, wrong or missing runs after a stop, ignored zero limits (`C57_*_false`).
* `evaluation` with its default `criteria=None` raises (`C48_rejected`).
* On the base class `ParticleDynamic` the criteria `max_eval`, `max_time`, `energy_stagnation` raise, the history is written before post-processing, and
  an inner step that evaluates after moving gets a wrong `best_particle` (`C65_*_false`).
* `init_particles` returns shape `(N, d)` or `(1, N, d)` depending on the method (`C66_shape_false`).
* PyTorch dynamics ignore `seed` (`C67_seed_ignored`, `C67_seed_false`), replace the post-processing of RegCombinationCBO (`C67_regcombination_false`) and
  their `effective_sample_size` does not enforce `maximum` (`C67_effective_false`).
* Mirror maps: `L2.hessian` ignores `lamda` (`C68_l2_hessian_false`); `Entropy.grad` adds a constant inside the logarithm and the function is concave (`C68_entropy_false`,
  `C69_entropy_false`); every `hessian` unpacks two axes and raises on `(M, N, d)` (`C68_hessian_raises`); `ProjectionBall.__call__` ignores `center` (`C69_ball_false`);
  `NonsmoothBarrier.__call__` adds up all particles (`C69_nonsmooth_false`); `weighted_L2` accepts no common array shape in `__call__` and `grad` except `(m, m)`
  (`C69_weighted_false`). The remaining maps have no `__call__`, and the `_Prox` classes overwrite it, so `Bregman_distance` raises there (recorded only).
* `MirrorMaptoPostProcessProx`: the map acts on all runs, so maps that move feasible points change stopped runs in every step (`C70_stopped_false`); `best_particle` can be an
  infeasible particle of the initial ensemble (`C70_best_false`).
* With `energy_stagnation` among the criteria, a second call of `optimize()` always raises (`C77_stagnation_false`).
* `HyperSurfaceCBO` ignores `lamda` (`C78_hypersurface_false`); the drift of `AdamCBO` ignores `dt` (`C78_adam_dt_false`); `AdamCBO`, `DriftConstrainedCBO`, `RegCombinationCBO` and `HyperSurfaceCBO` ignore `correction`
  (`C78_correction_false`).
* Criteria objects keep their state when used for another dynamic: `energy_stagnation_term` mixes old losses in for `patience - 1` steps (`C96_stagnation_false`), `loss_update_resampling` resamples a steadily
  improving run every `wait_thresh` calls until it beats the best energy of the earlier dynamic (`C96_loss_false`), `consensus_stagnation` selects runs at the first call (`C96_consensus_false`).
* Noise-free `PolarCBO` with the constant kernel never brings together groups further apart than `kappa` (`C95_consensus_false`; intended by the method, but C24 does not carry over).
* The first evaluation of a `regularize_objective` (also the one inside RegCombinationCBO) fixes the number of rows of `lamda`: after a contour plot before the first step every step with `1 < M ≠ num_pts` runs raises, and with one run the
  energies get `num_pts` rows (`C97_plot_false`, `C97_rows`).
* The default consensus rule multiplies energies by `alpha` before it shifts them: finite energies with `alpha * energy` beyond the largest number at all particles (or below its negative at one) give a NaN
  consensus point (`C98_overflow_false`), and the step throws the particles to the corner of the box (`C98_corner_false`). The rescaled rule does not have this problem (`C98_rescaled`).
* `PlotDynamic.update` (`plotting.py:237-257`) takes row `r` of `consensus` and `drift`, which have one row per *active* run. After a run has stopped, the plot of run `r` draws the particles of run `r` with the consensus
  point and the arrows of another run (`C99_wrong_run_false`, `C99_stopped_false`) or raises `IndexError` (`C99_index_false`). Before the first step `update()` raises `AttributeError`, and `init_plot` draws arrows to the origin
  (`C99_fresh_false`). In the history plot with `save_int > 1` the arrows do not end in the consensus point drawn (`C99_interval_false`).
* `mirrorcbo.py:286-293`: post processing acts on `x`, not on the dual variable `y`. `MirrorCBO` with the default mirror map is `CBO` only while nothing is clipped (`C100_partial`, `C100_clip_false`); a NaN in `y` is never repaired,
  and the particle sits at the threshold after every step (`C100_nan_false`, `C100_nan_run_false`).
* CBS ignores the argument `sigma` (`C64_construct`) and `CBS.optimize` returns `None` (recorded only).

## Testing the theorems

`seeded/LOG.jsonl` records edits of the model that imitate realistic bugs (one JSON line each), the theorems that stopped proving and, where a claim
survived, how it was tightened. The edits are made in a scratch copy; `/verif` never contains them.

## Trusted base

* The Lean 4.33.0 kernel. No `native_decide`, no `bv_decide`, no own axioms, no `sorry`.
* Axioms: every theorem in `MANIFEST.json` depends on a subset of `propext`, `Classical.choice`, `Quot.sound`; `AXIOMS.md` lists them theorem by theorem.
* The reading of the Python code and of NumPy semantics (broadcasting, fancy indexing, `argmin`, NaN comparison) recorded in the comments of `Np/` and
  `Model/`. Nothing ties the Lean text to the Python text mechanically.
* Contracts of library routines that appear as hypotheses: `numpy.linalg.eigh` (`EighOK`), `numpy.linalg.svd`, `Generator.permuted` (`PermOK`).
* Exact arithmetic in place of floating point in theorems that assume a field or speak of `ℝ`, as described under modelling decisions. Overflow and underflow are modelled in `Ieee` only (C98); signed zero is not modelled. `exp` and `log` in `Ieee` are assumed to have the special values of IEEE 754 and a bounded error (`IeeeArith`); a concrete arithmetic with these properties is constructed (`ieeeStd_ok`).
