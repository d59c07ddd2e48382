# Formal model of ctbayes — design

## Trusted base

* Lean 4.33.0 kernel, Mathlib 4.33.0 as shipped; each theorem depends on at most `propext`, `Classical.choice`,
  `Quot.sound`. No own axioms, `sorry`, `admit`, `native_decide` or `bv_decide`.
* The reading of the Python text: model definitions are shallow transcriptions, each citing file and lines.
  Nothing was executed, no extraction tool was used; the correspondence is by inspection.
* numpy/scipy primitives are trusted to do what their documentation says (`searchsorted`, slicing, `argsort`,
  `np.linalg.solve`, `matrix_power`, samplers return values in the support of the named distribution).

## Modelling decisions

* **Numbers.** Floats are exact reals, or elements of an arbitrary linear ordered field `K` where only arithmetic and
  order are used (so examples run on `ℚ`). Rounding, overflow and NaN propagation are outside the model, except where
  a special value drives a branch: `±inf` bounds are `Option`/`WithTop`/`EReal`, NaN centres are `Option`.
* **Arrays** are lists. `searchsorted` on sorted arrays is "length of the prefix of elements `<`/`≤` v". Python slices
  and negative indices are modelled by `pySlice`/`pyGet` (indices in `ℤ`, wrap-around included).
* **Exceptions** are values: `PyErr` = `assertion`, `value`, `type`, `index`, `budget` (the library's own budget
  exceptions), `exception` (a bare `raise Exception`), `nan` (not an exception: a NaN is produced where the rest of
  the program cannot be followed in exact arithmetic; statements say so), and `fuel` for the loops that are unbounded
  in the source (a model artefact; statements say what it means). `Res α = Except PyErr α`.
* **Randomness** is a free monad `Prog`: a program is a tree of draws (`uniform lo hi`, `beta`, `exponential`, `normal`,
  `wald`, `gamma`, `poisson`, `choice`). Three semantics of the same tree:
  - `Prog.Out p r` — some draws inside the supports make the program end with `r` (used for "whatever is drawn";
    `uniform` has support `lo + (hi-lo)u`, `0 ≤ u < 1`, so an exact 0 *is* possible, as in numpy);
  - `Prog.Gen p h r h'` — like `Out`, but every real draw is different from the draws recorded in `h` (start with `h = [0]` to exclude zero) and all earlier
    ones ("generic" draws; the excluded runs have probability zero). Used where the property
    fails on a null set (ties, zero draws); such theorems say so and the null-set failure is a `_violated` theorem
    when there is one;
  - `Prog.lexp p f` — expectation of `f(result)` as an iterated Lebesgue integral/sum against `RDist.law`/`NDist.law`
    (Mathlib's gaussian, gamma, beta, Poisson measures); `Prog.prob` is the special case of an event. Lower integrals
    are used, so no measurability side conditions appear.
  Bounded retry loops are recursion on the budget. Python generators are state machines `σ → Prog (out × σ)`.
* **Layout.** `Verif/Basic` (Prog, numpy helpers), `Verif/Model/*` (one file per Python file), `Verif/Spec/*` (small
  independent statements of what is meant), `Verif/Lemmas/*` (helper lemmas), `Verif/Props/*` (property theorems
  `C01_…`, each beside an `example` instantiating its hypotheses).
* When a property is false of the code the negation is proved with a concrete witness (`C.._violated…`) and the part
  that does hold is proved with the suffix `_partial`.

## Plan per property

| id | modelled | method |
|----|----------|--------|
| C01 | `Skeleton.__call__` | `searchsorted(right)-1` equals "latest jump not after t"; error branch iff; negative-time wrap shown as a witness |
| C02–C05, C16 | `partition_skeleton`, `paste_partition`, `repartition_skeleton`, `__eq__` | semantic lemma for each piece, induction over the pieces, extensionality of valid paths |
| C06 | `sample_forwards` | loop invariant, fuel recursion |
| C07, C09 | `sample_bridge` | inversion over all draws; matrix powers as Mathlib matrices |
| C08 | `sample_n_trans`, `get_trans` | uniformisation identity `exp(TQ)=e^{-λT}exp(λT P)` |
| C10, C11 | `mutate_partition`, `sample_backwards`, `MyopicMjpSampler.propose` | built on C03, C04, C06, C07 |
| C12, C13 | `get_stat`, `est_stat` | linear algebra; Perron-type argument for positivity; induction |
| C14, C15 | `sample_ppp`, `sample_batch_ppp` | all-draws invariant; box containment is false after the first batch (witness) |
| C17–C19 | `inference.*` | induction over the path; final sojourn is not counted (witness) |
| C20 | `update_generator` | `log x ≤ x-1` argument |
| C21–C25 | `split_hidden`, `paste_hidden`, `sample_aug`, `prune_anchorage`, `update_hidden`, `update_params`, EM loop | list induction; state-machine invariant; EM loop violates it (witness) |
| C26 | `update_hidden` → `propose` slicing | negative size for short grids (witness) |
| C27 | `eval_param_weight`, `eval_biased_log_lik` | algebra |
| C28–C31, C67 | `bfactories`, precoins | `Out` inversion; `lexp` and geometric sums |
| C32–C37 | `adapt` | calculus; invariants over histories of calls |
| C38–C44 | `hitting`, `layers`, `paths` | calculus, series bracketing, inversion over draws |
| C45–C49 | `interpolators`, `ea3lib/skeleton`, `transforms` | list induction, inversion over draws |
| C50–C52 | `paths`, `moments`, `transforms` | finite sums |
| C53–C56 | `ea3lib/seed`, `ito/mcmc.flip_param_coin` | interval reasoning, mean value bound, Poisson sums |
| C57–C62 | models | calculus |
| C63–C66 | `mcem` | induction over iterations |
| C68–C71 | `ars` | concavity |
| C72 | `euler_simulate` | arithmetic; off-by-one witness |
| C73 | pooled updates | commutation of worker steps over all schedules; shared generator witness |
| C74–C76 | `adapt` doctest, `ars` sampler, `brace` | induction; law of a whole pass of the sampler |
| C77 | `ito/models/ou.eval_grad`, `cir.eval_grad` | derivative |
| C78 | bounded Bessel escape | numeric bracketing of two series; alternation of the quotient and end of the fast-forward; the limit of the probabilities that a path simulated on finer grids stays below the level |
| C79 | `sample_layer`, `sample_anchor` | least index with escape below the seed; distribution function of the layer as a quotient of confined Brownian densities for all bounds; sides of the anchor equally likely |
| C80 | seeded constructions | equality of programs |
| C81 | Poisson coins | expectations of products over batches |
| C82 | `sample_forwards` | competing exponentials; Volterra iteration of the backward equation against the matrix exponential |
| C83 | `sample_bridge`, `sample_backwards` | order statistics over the simplex; sum over paths of the uniformised chain; Volterra iteration |
| C84 | `mutate_partition` | law of the first state after a redraw; conditioning identities from C82 and C83 |
| C85 | `MyopicMvRwSampler.propose`, `update_params_section` | change of variables to the real line, symmetry of the Gaussian step, detailed balance of the two-coin decision |
| C86 | `sample_aug`, `sample_anchors`, `eval_biased_log_lik`, `eval_hidden_weight` | Brownian bridge as ratio of densities, one segment after another; variance between observations as integral of the squared volatility; disintegration over observed values; measurability of seed averages from C114 |
| C87 | `split_hidden`, `eval_biased_log_lik` | walk along the anchors carrying the variance since the last observation; restarts at cuts |
| C88 | `update_objective`, `est_log_aug_lik` (Ito and switching) | interpolation at stored times reads the skeleton and draws nothing |
| C89 | `est_log_aug_lik` | mean of a function at uniform points, segment by segment |
| C90 | switching `update_param` | sum over regimes of the restricted terms; prior counted once per regime |
| C91 | `sample_brownbr_min` | joint density of time and value in first-passage densities; mass by their convolution |
| C92 | `gen_seeded_brownbr_min` | law equal to C91; Michael-Schucany-Haas by change of variables on both roots |
| C93 | `sample_besselbr` | density of three bridges in polar coordinates, step by step from the end; kernels of a path kept positive |
| C94 | `sample_layerbr`, `propose_layerbr`, `propose_layerbr_edge`, no bounds on the supremum | minimum cuts the path; tails of the kernels give the density of the minimum; reversal of the first half |
| C95 | the same with `sup_x_max`, `sample_layerbr_min` | image sums; path in a strip cut at its minimum; each rejection loop solved by a linear recursion in the budget; monotone limit of the budget |
| C96 | `sample_conv_endpt`, `eval_biased_log_lik` | strict concavity by derivatives, ARS law of C75; Gaussian form for OU; FTC for the integrated drift; blow-up at zero for the CIR counterexample |
| C97 | `sample_skeleton`, `sample_sde` | induction over rounds with one-round law as hypothesis; product law for successive paths; end points kept by coin and interpolation; free ends: upper and lower bounds by induction over the passes of adaptive rejection, whose hulls are no longer measurable functions, and a limit |
| C98 | `update_sde`, `update_sde_bridge`, `eval_sde_weight`, `flip_sde_coins`, `update_joint` | reduction to one normalising operation, full verdict law of the two-coin search, Fubini; invariants of seeds over runs with distinct draws |
| C99 | `sample_param`, `switching/mcmc.update_generator` | iterated integral over the rates, induction over the entries; gamma kernels multiply with the path density (C17); violated because the last holding time is dropped |
| C100 | `update_hidden`, `update_hidden_section` | full verdict law of the two-coin search on a pair of coins; product over sections expanded over accepted subsets, exchange of coordinates preserves the product measure |
| C101 | `eval_log_prior` of all models | changes of variables exp and x^(-1/2), iterated integrals, product over regimes; violated on the boundary |
| C102 | `construct_gen_hyperprior`, `get_ev`, `sample_trial_generator` | uniqueness of the stationary law (C12) and symmetry; joint law of repeated draws as a product measure |
| C103 | `sample_partition` | grid arithmetic, then C02 and C03 |
| C104 | `est_aug_lik` (both packages) | product over the segments of the expectations of C56; exponentials of sums; returned seeds from the outcomes of the single estimates |
| C105 | `est_se` (both packages) | calculus of Fréchet derivatives; independence of the coordinates of a product measure |
| C106 | `sample_bessel`, `sample_besselbr`, `gen_seeded_bessel3br` | transition densities in polar coordinates; Laplace transform of the non-central chi-square law |
| C107 | `fill_wiener_vector` | equality of programs with a recursive reference; shapes of stacked arrays |
| C108 | `seed.sample_bridge` | geometric series of rounds; independence of repetitions |
| C109 | `Skeleton.__call__`, `SeedSkeleton.__call__` | refinement (C45), positions of stored times, mirror images |
| C110 | `sample_brownbr_esc`, `sample_bessel3br_esc`, `cdf_brownbr_min`, `sample_brownbr_min` against `sample_brownbr`, `sample_besselbr`, `sample_layerbr` | Chapman–Kolmogorov from below; from above paths in a strip wider by ε, uniform bounds of the escape probability over short times by the images; ε → 0 |
| C111 | `sample_raw_skeleton`, `sample_layer`, `sample_anchor`, `sample_edges` | law of the minimum in a sector and below the upper edge; bounded Bessel decisions are exact in the sectors; the coin halves the bridges that leave on both sides; the layer by the decisions at one uniform variate |
| C112 | `sample_raw_skeleton`, `interpolate_skeleton`, `flip_skeleton` | the minimum splits the bridge into two conditioned sectors, integrating over the minimum in the layer's sector gives the difference of two strips; mirror image for the maximum; monotone convergence in the budgets |
| C113 | `interpolate_skeleton`, `fill_wiener_outer`, `fill_wiener_inner` | a gap is an operator on functions of its new values, a skeleton the composition of its gaps; the operators with finite budgets increase to the conditional law; Chapman–Kolmogorov cell by cell for two rounds; paths with two neighbouring values at the minimum are a null set; mirror image for the maximum |
| C114 | all samplers | `Reg p`: expectations are measurable in the arguments, additive and continuous from below; closed under the constructors of programs, under bind, branches on measurable conditions, loops and list recursion; with `Mass1` (every reachable draw has mass one) it gives a Markov kernel on `Res α`, whose σ-algebra is that of `α` on values and discrete on exceptions; also augmentations, parameter coins, estimates and `update_sde`, jointly in parameters and data; jump processes, proposals of regime paths, generators and vector paths, jointly in generator, horizon, states and paths (matrix powers, inverses and exponentials are measurable entry by entry); `update_hidden`, `update_params`, `update_generator` and whole iterations of the switching chain (`Model/Sweep`), jointly in data, hyper-parameters and state; the hull of adaptive rejection sampling as three lists, hence end points and diffusions with a free end; Monte Carlo EM with any measurable optimiser |
| C115 | `flip_poisson_coin` of skeletons and of seeds | induction over batches; the law of two rounds (C113) merges the current batch with the later ones; Fubini exchanges the reveal of the path with the later points; coinciding times are a null set; the budgets of all rounds grow together |
| C116 | `flip_dual_coin` | the second interpolation, at known times, returns the same values and no flags; from there as C115 for seeds without flags; the violation bounds the success probability in the event of two points: the second may see the path between the edge that it does not reach and the outer one, with positive probability; proved for the coins of the Ornstein-Uhlenbeck model and of all three switching models without flags |
| C117 | `sample_posterior`, `update_joint` | `Prog.ASure` (Spec/AlmostSure): an outcome holds for almost every value of each draw, hence with probability one; the state of the chain is an invariant (`JointOk`, Spec/Sweep); ties and zeros among the jump times of proposed paths are the only null events needed, and occur only in the draws of the jump process; `HiddenOps.weight` is a number, and `swHiddenOps` takes 0 where `eval_hidden_weight` raises, which `C117_weight_value` shows never to happen at reachable states and proposals |
| C118 | `euler_simulate` | operator of one Euler step (Spec/Euler), iterated; product of expectations over a row of independent draws; induction over the columns for the joint law; convolution of normal laws for the closed forms |
| C119 | `sample_ppp` | iterated integral over the box (Spec/Box); product over independent rows; exponential series |
| C120 | `sample_forwards` | equation of the first jump before the first time; exponential clocks have no memory; iteration with a converging source; induction over the times (Spec/ChainProb) |

Statements about every run of a coin, an adaptive rejection sampler, a simulated path or a bridge update (C54, C55, C70, C97, C98) that need distinct
draws are also proved with probability one, without hypotheses on the draws (`..._almost_surely`, Props/SureCoins).

Hypotheses of property theorems are written out or use definitions of Spec/; predicates of the model that stand for `assert` statements and selections
(`boundsLt`, `MinBoundsOk`, `takesPart`) occur in proofs only.

## Simplifications

Every model file says so where it happens; the recurring ones:

* `rtol`/`atol` comparisons (`np.isclose`, `np.allclose`) are equality.
* The pools of `multiprocessing` are modelled by an interleaving semantics (`Model/Pool.lean`) for C73 only; elsewhere a
  pooled map is a sequential map.
* Broadcasting in `interpolate_seed` is written out for one-dimensional times.
* Poisson coins are parametrised by the interpolation, so that the same definition is used with the source's
  interpolation and with a path fixed in advance.
* A coin (`IsCoin I c p`) has the same probability of heads from every state of an invariant set `I`.  For seeds this means
  the path is fixed and only the Poisson times are fresh; the path revealed lazily is C45 and C81, not part of C67 and C85.
* `scipy.optimize.minimize` is represented by the point it returns; the value it reports is the objective there (C90).
* `est_poisson_coin` of `seed.py` uses the grid of one piece which it passes to `bound_disc_path`, so `ue_phi` has
  one entry.

## Where the code and the stated properties disagree

Found while proving; each has a theorem with a concrete witness.

| where | what | theorem |
|-------|------|---------|
| `mjplib/skeleton.py: __call__` | negative query times wrap to the last state | `C01_negative_time_wraps` |
| `sample_bridge` | a uniform draw equal to 0 overwrites the initial state, end state is never reached | `C07_violated`, `C10_violated` |
| `sample_batch_ppp` | first coordinate is an increasing sum of scaled betas, so it leaves the box after the first batch | `C15_box_violated` |
| `mutate_partition` | several pieces are redrawn under a uniform initial law (`sample_backwards`), one piece under the stationary law, so the stationary law is not kept | `C84_violated` |
| `inference.update` | time after the last jump is not counted | `C17_times_violated` |
| `switching/mcmc.update_generator` | Gibbs step ignores the time after the last jump, so it draws from another posterior | `C99_posterior_violated` |
| `switching/static.sample_aug` | `dereduce` applied twice | `C22_nontrivial_reduction_violated` |
| `switching/mcem` | with thinning the returned anchorage is not the state of the sampler | `C24_mcem_violated` |
| `switching/mcmc.update_hidden` | grids with two or three times raise ValueError | `C26_violated` |
| `switching/models/ou3` | `np.prod(thi[yt])` mixes rows; `sx`, `dx` belong to half the drift | `C27_ou3_violated`, `C61_violated`, `C87_ou3_violated` |
| `misc/adapt` | two finite bounds are not transformed; scalar proposal raises TypeError; doctest covariance is wrong | `C33_violated`, `C37_violated`, `C74_violated`, `C74_cov_violated` |
| `sdelib/hitting` | zero draw gives `-inf`; a bound touching an end point never succeeds | `C40_violated`, `C40_touching` |
| `sdelib/hitting` (bounded escapes) | ratio of two alternating series is not alternating early on | `C42_violated`, `C78_violated` |
| `sdelib/interpolators` | hit flags are dropped when no time is new; `flip_dual_coin` always triggers it with its second interpolation, which changes its success probability | `C46_violated`, `C116_violated` |
| `ea3lib/skeleton.sample_raw_skeleton` | side drawn by `sample_anchor` ignored, bounds left when asymmetric | `C49_violated` |
| `est_poisson_coin` | constant discriminant raises AssertionError; infinite bound gives `-inf` | `C56_violated`, `C56_infinite` |
| Poisson coins | batches spaced independently of each other: the coin is biased upwards for every batch size | `C81_violated` |
| `ito/models/cir` | bounds wrong for `4κμ < σ²`; zero gradient bounds make every coin flip raise | `C58_violated`, `C59_violated` |
| `flip_param_coin` | equal parameters raise AssertionError | `C59_equal` |
| `ito/mcem` | every iteration restarts from `init_thi` | `C65_violated` |
| `switching/mcem.update_param` | the log prior of the whole matrix is added for every regime, so the reported objective counts it K times (at mixed old and new rows) | `C90_violated` |
| `ito/mcmc` | precoin omits the likelihood | `C67_ito_violated` |
| `misc/testing.euler_simulate` | time grid one entry short when `res` divides `fin_t` | `C72_violated` |
| `update_params` | proposals use the global `np.random`, so the schedule changes results | `C73_violated` |
| `misc/ars` | cannot start from a boundary mode | `C76_violated` |
| `ito/static.sample_conv_endpt` | log density not concave for CIR with `4κμ < σ²`: the tangents are no envelope near zero | `C96_violated` |
| `ito/static.sample_sde` | for CIR with `4κμ < 3σ²` the centre of the discriminant is NaN, every coin raises AssertionError and no path is returned | `C97_violated` |
| `ito/models/ou.eval_grad` | mean reversion component off by `-1/2` | `C77_violated` |
| `ito/models/cir.eval_grad` | zero, not the derivative | `C77_cir_violated` |
| `eval_log_prior` (ito/models/ou.py, ito/models/cir.py, switching/models) | a parameter that is exactly zero passes the test `thi < 0` and the log prior is NaN | `C101_boundary_violated` |
| `switching/mcem.est_aug_lik` | adds both outputs of `eval_biased_loglik`, `est_log_aug_lik` only the first; with a change of regime between observations the two aim at different quantities | `C104_violated` |
| `est_se` | a parameter between a bound and the buffered bound: the clipped objective is constant and the inversion raises LinAlgError | `C105_buffer_violated` |
| `switching/mcem.est_se` | without bounds, arrays of length number of regimes meet parameter vectors: ValueError | `C105_switching_violated` |
| `est_se` | one particle: `np.cov` of the squeezed gradient takes its components for observations | `C105_single_violated` |
| `fill_wiener_vector` | two new times in one gap: the sectors are stacked as rows and cannot be inserted, ValueError | `C107_violated`, `C107_gap_violated` |
| `fill_wiener_vector` | rows of two or more columns: `sample_brownbr` cannot add its drift, ValueError | `C107_width_violated` |
| `fill_wiener_vector` | a new time at the end of the path passes the assertion and is an index out of range; without new times `np.min` raises before the early return | `C107_end_violated`, `C107_empty_violated` |
| `seed.sample_bridge` | a negative lower bound of the discriminant gives a weight above 1, which the comparison with a uniform variable clips: the law is not that of the bridge | `C108_violated`, `C108_capped` |
| `Skeleton.__call__`, `SeedSkeleton.__call__` | the values come in the order of time whatever the order asked, once for repeated times; a seed then adds them to the wrong places of the bridge; a second call draws other values | `C109_order_violated`, `C109_repeat_violated`, `C109_seed_order_violated`, `C109_fresh_violated` |

Read but not proved: `ito/mcem.py:71` passes `n_cores` as the first field of `mcmc.Controls` (the target acceptance
probability); `switching/mcem.update_param` passes `len(thi_nil)` as `n_dim` to `buffer_bounds`; `fill_wiener_vector`
takes the minimum of an empty array when nothing is requested; `seed.sample_bridge` (unused) truncates weights when the
lower bound is negative.
