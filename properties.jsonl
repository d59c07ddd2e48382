{"id": "C01", "title": "Skeleton lookup returns the state in force", "statement": "Calling a jump-process Skeleton with an array of times returns, for each time t with 0 <= t <= fin_t, the state attached to the latest jump time not after t; it raises ValueError exactly when some time exceeds fin_t.", "quantifier": "every skeleton whose jump times start at 0 and increase strictly, every finite array of query times", "why_tests_cant": "a table of sample skeletons cannot cover every placement of query times relative to the jumps, in particular the ties t = jump time and t = fin_t", "anchors": ["ctbayes/mjplib/skeleton.py:Skeleton.__call__"]}
{"id": "C02", "title": "Partitioning and pasting is the identity", "statement": "paste_partition(partition_skeleton(skel, new_t)) returns a skeleton equal to skel (same jump times, same states, same horizon) for breakpoints anywhere in [0, fin_t], including breakpoints at 0, at fin_t, repeated, or on a jump.", "quantifier": "every valid skeleton and every sorted list of breakpoints in [0, fin_t], of any lengths", "why_tests_cant": "the doctest samples uniform breakpoints, which almost surely never hit a jump, 0, fin_t or one another", "anchors": ["ctbayes/mjplib/skeleton.py:partition_skeleton", "ctbayes/mjplib/skeleton.py:paste_partition"]}
{"id": "C03", "title": "Partition pieces tile the path", "statement": "partition_skeleton(skel, new_t) returns len(new_t)+1 pieces whose durations are the successive gaps of [0]+new_t+[fin_t]; each piece starts at time 0 and reports at local time s exactly the state skel reports at (piece start)+s.", "quantifier": "every valid skeleton, every sorted breakpoint list in [0, fin_t], every local time s in [0, duration)", "why_tests_cant": "a pointwise equality over a continuum of times and arbitrarily many pieces", "anchors": ["ctbayes/mjplib/skeleton.py:partition_skeleton"]}
{"id": "C04", "title": "Pasting concatenates paths", "statement": "paste_partition of valid pieces with positive total duration gives a valid skeleton without self-transitions, whose horizon is the sum of the durations and whose state at time (start of piece k)+s is piece k's state at s; zero-length pieces are ignored.", "quantifier": "every non-empty list of valid pieces, every time in the horizon", "why_tests_cant": "arbitrary number of pieces and a continuum of times", "anchors": ["ctbayes/mjplib/skeleton.py:paste_partition"]}
{"id": "C05", "title": "Repartitioning forgets the old breakpoints", "statement": "repartition_skeleton(partition_skeleton(skel, a), b) equals partition_skeleton(skel, b).", "quantifier": "every valid self-transition-free skeleton, every two sorted breakpoint lists", "why_tests_cant": "quantifies over pairs of breakpoint lists of any length", "anchors": ["ctbayes/mjplib/skeleton.py:repartition_skeleton"]}
{"id": "C06", "title": "Forward simulation yields a valid path", "statement": "Whenever sample_forwards(fin_t, init_x, gen) with fin_t > 0 returns, its skeleton starts at time 0 in init_x, has strictly increasing jump times below fin_t, never jumps to the current state, and only visits states 0..dim-1 that the generator allows with positive rate.", "quantifier": "every generator, initial state, horizon and every sequence of random draws", "why_tests_cant": "the number of loop iterations is unbounded and driven by random draws", "anchors": ["ctbayes/mjplib/skeleton.py:sample_forwards"]}
{"id": "C07", "title": "Bridge simulation hits both endpoints", "statement": "Whenever sample_bridge(fin_t, init_x, fin_x, gen) returns, the path is a valid self-transition-free skeleton on [0, fin_t] that starts in init_x and ends in fin_x.", "quantifier": "every generator, every endpoint pair, every sequence of random draws", "why_tests_cant": "unbounded number of candidate jumps; the failing draws have probability about 2^-53 and no test meets them", "anchors": ["ctbayes/mjplib/skeleton.py:sample_bridge"]}
{"id": "C08", "title": "Bridge jump-count search terminates", "statement": "The search for the number of uniformised jumps in sample_bridge stops for every uniform draw below 1, because the running sums converge to the full transition probability given by expm(fin_t*gen).", "quantifier": "every generator with a positive exit rate, every endpoint pair connected in time fin_t, every draw u in (0,1)", "why_tests_cant": "termination for all u needs the limit of an infinite series", "anchors": ["ctbayes/mjplib/skeleton.py:sample_bridge", "ctbayes/mjplib/skeleton.py:get_trans"]}
{"id": "C09", "title": "Bridge step probabilities form a distribution", "statement": "Every probability vector that sample_bridge hands to ome.choice is non-negative and sums to one, along every path the sampler can take.", "quantifier": "every generator, endpoints, jump count and every history of previously drawn states", "why_tests_cant": "depends on the whole history of drawn states and on matrix powers of any order", "anchors": ["ctbayes/mjplib/skeleton.py:sample_bridge"]}
{"id": "C10", "title": "Mutation keeps the conditioning frame", "statement": "mutate_partition returns as many pieces as it is given, with the same durations; every interior boundary keeps the state on both sides of it (last state of the piece on the left, first state of the piece on the right).", "quantifier": "every partition with positive durations, every generator, every sequence of draws", "why_tests_cant": "random number of jumps in each piece; any number of pieces", "anchors": ["ctbayes/mjplib/skeleton.py:mutate_partition", "ctbayes/mjplib/skeleton.py:sample_backwards"]}
{"id": "C11", "title": "Regime proposals agree with the current path at the conditioning times", "statement": "MyopicMjpSampler.propose(lam, t, ome) returns a valid skeleton with the current horizon whose state equals the current skeleton's at each returned conditioning time, and the conditioning times are a subset of the interior of t.", "quantifier": "every current skeleton, observation grid, generator and sequence of draws", "why_tests_cant": "all subsets of the grid and all random paths", "anchors": ["ctbayes/misc/adapt.py:MyopicMjpSampler.propose"]}
{"id": "C12", "title": "Stationary distribution solver", "statement": "get_stat(gen) solves for the stationary law: any solution of its linear system sums to one and is annihilated by the generator; for a generator with all off-diagonal rates positive the system has exactly one solution and it is strictly positive.", "quantifier": "every generator matrix of any dimension with zero row sums", "why_tests_cant": "all dimensions and all real matrices", "anchors": ["ctbayes/mjplib/skeleton.py:get_stat"]}
{"id": "C13", "title": "Occupation fractions", "statement": "est_stat(skel, states) reports, for each state, the fraction of [0, fin_t] spent in it; the fractions are non-negative and sum to one when states lists every visited state once.", "quantifier": "every valid skeleton, every duplicate-free list of states", "why_tests_cant": "arbitrary jump counts", "anchors": ["ctbayes/mjplib/skeleton.py:est_stat"]}
{"id": "C14", "title": "Poisson process draw fills the box", "statement": "sample_ppp(intensity, bound) returns exactly the drawn number of points, sorted by first coordinate, every coordinate j in [0, bound[j]); non-positive intensity or bound raises AssertionError.", "quantifier": "every intensity, box, dimension and sequence of draws", "why_tests_cant": "all point counts and draws", "anchors": ["ctbayes/mjplib/skeleton.py:sample_ppp"]}
{"id": "C15", "title": "Batched Poisson process draw fills the box", "statement": "sample_batch_ppp yields batches of batch_size points (last one possibly smaller), in total exactly the drawn number of points, first coordinate non-decreasing over the whole stream, and every point inside the box given by bounds.", "quantifier": "every intensity, box, batch size, point count and sequence of draws", "why_tests_cant": "the box can only be left after several batches, with draws that a KS test averages out", "anchors": ["ctbayes/mjplib/skeleton.py:sample_batch_ppp"]}
{"id": "C16", "title": "Skeleton equality", "statement": "Skeleton == is an equivalence relation and, for valid self-transition-free skeletons, holds exactly when the two paths have the same horizon and the same state at every time.", "quantifier": "every pair/triple of skeletons", "why_tests_cant": "relates a finite check to a continuum of times", "anchors": ["ctbayes/mjplib/skeleton.py:Skeleton.__eq__"]}
{"id": "C17", "title": "Transition counts and holding times are complete", "statement": "mjplib.inference.update adds to alp0 the number of i->j jumps of the skeleton for each i != j (the counts sum to the number of jumps) and to row i of bet0 the time spent in state i (the times sum to the observed horizon fin_t).", "quantifier": "every valid skeleton and prior", "why_tests_cant": "arbitrary path lengths", "anchors": ["ctbayes/mjplib/inference.py:update"]}
{"id": "C18", "title": "Gamma conjugacy", "statement": "For every generator, eval_loglik(skel, gen) + eval_logprior(gen, alp0, bet0) equals eval_logprior(gen, alp1, bet1) with (alp1, bet1) = update(skel, alp0, bet0).", "quantifier": "every skeleton, every prior, every generator with positive rates and zero row sums", "why_tests_cant": "an identity between three functions over all real matrices and paths", "anchors": ["ctbayes/mjplib/inference.py:update", "ctbayes/mjplib/inference.py:eval_loglik", "ctbayes/mjplib/inference.py:eval_logprior"]}
{"id": "C19", "title": "Parameter summaries are generators", "statement": "get_ev, get_mode (for alp > 1) and sample_param return matrices with positive off-diagonal entries and zero row sums.", "quantifier": "every hyper-parameter pair and every sequence of draws", "why_tests_cant": "all dimensions and reals", "anchors": ["ctbayes/mjplib/inference.py:get_ev", "ctbayes/mjplib/inference.py:get_mode", "ctbayes/mjplib/inference.py:sample_param"]}
{"id": "C20", "title": "Generator M-step is an exact maximiser", "statement": "switching.mcem.update_generator returns the generator maximising the average complete-data log-likelihood plus log-prior over all generators, and the returned objective is its value.", "quantifier": "every list of particles, every prior, every competing generator", "why_tests_cant": "maximality over a continuum of competitors", "anchors": ["ctbayes/switching/mcem.py:update_generator"]}
{"id": "C21", "title": "Splitting and pasting the hidden state is the identity", "statement": "paste_hidden(split_hidden(z, h, new_t)) returns (z, h).", "quantifier": "every anchorage starting at time 0 with matching seeds, every set of split times", "why_tests_cant": "any number of split points, including times that are not anchors", "anchors": ["ctbayes/switching/mcmc.py:split_hidden", "ctbayes/switching/mcmc.py:paste_hidden"]}
{"id": "C22", "title": "Augmentation keeps the observations and the regime path", "statement": "switching sample_aug(thi, y, t, vt) returns anchors at every observation time and every jump of y, with the observed value at each observation time, the regime of y at each anchor, one seed per gap; pruning the anchorage gives back y.", "quantifier": "every observation grid, regime path and sequence of draws", "why_tests_cant": "all paths and grids, including jumps on observation times", "anchors": ["ctbayes/switching/static.py:sample_aug", "ctbayes/switching/types.py:prune_anchorage"]}
{"id": "C23", "title": "Accepted sections recombine into a coherent state", "statement": "In update_hidden, whichever sections are accepted, the pasted anchorage keeps the horizon, the observed value at every observation time, one seed per gap, and pruning it gives the regime path that follows the accepted proposal on accepted sections and the old path elsewhere.", "quantifier": "every accept/reject pattern over any number of sections, every proposal", "why_tests_cant": "2^k accept patterns and all paths", "anchors": ["ctbayes/switching/mcmc.py:update_hidden", "ctbayes/switching/mcmc.py:paste_hidden"]}
{"id": "C24", "title": "The regime sampler never loses track of the chain", "statement": "At the start of every hidden-state update, the path held by the regime sampler equals the pruned current anchorage, in both sample_posterior and maximize_posterior.", "quantifier": "every number of iterations and every sequence of draws", "why_tests_cant": "a history invariant over unboundedly many iterations", "anchors": ["ctbayes/switching/mcmc.py:sample_posterior", "ctbayes/switching/mcmc.py:update_hidden", "ctbayes/switching/mcem.py:maximize_posterior", "ctbayes/switching/mcem.py:update_particles"]}
{"id": "C25", "title": "Per-regime parameter updates are assembled correctly", "statement": "switching update_params returns for each regime the parameter row proposed or kept by that regime's own update, and for each path segment the seed produced by the update of the regime in force there; seeds of other regimes' segments are untouched by an update.", "quantifier": "every number of regimes and segments, every regime assignment and every outcome of the section updates", "why_tests_cant": "all assignments and outcomes", "anchors": ["ctbayes/switching/mcmc.py:update_params", "ctbayes/switching/mcmc.py:flip_param_coins"]}
{"id": "C26", "title": "Regime updates run on any data set", "statement": "One hidden-state update of the switching sampler can be carried out for any observation grid with at least two times.", "quantifier": "every observation grid", "why_tests_cant": "depends on grid length only through slicing arithmetic; the fixtures fix one length", "anchors": ["ctbayes/switching/mcmc.py:update_hidden", "ctbayes/misc/adapt.py:MyopicMjpSampler.propose"]}
{"id": "C27", "title": "Parallel regime updates do not interact", "statement": "The log-weight difference that decides regime i's parameter update depends only on row i of the parameter matrix.", "quantifier": "every model data, every current matrix, every proposal row", "why_tests_cant": "all real matrices", "anchors": ["ctbayes/switching/mcmc.py:eval_param_weight", "ctbayes/switching/static.py:eval_biased_log_lik"]}
{"id": "C28", "title": "Two-coin search returns the first success", "statement": "sample_twocoin returns the verdict and proposal of the first successful flip, or (False, True, prop0) at the first portkey escape before that, and raises BudgetConstraintError exactly when max_props rounds pass with neither.", "quantifier": "every pair of coin generators (with any internal state), every budget and every sequence of draws", "why_tests_cant": "unbounded rounds and arbitrary coin behaviour", "anchors": ["ctbayes/misc/bfactories.py:sample_twocoin"]}
{"id": "C29", "title": "Two-coin acceptance probability", "statement": "With coins of success probabilities p1, p2 and log-weights w1, w2 and no portkey, sample_twocoin returns True with probability e^w1 p1/(e^w1 p1 + e^w2 p2) conditionally on returning, for every budget.", "quantifier": "every weights, coin probabilities and budget", "why_tests_cant": "an exact probability, which sampling only brackets", "anchors": ["ctbayes/misc/bfactories.py:sample_twocoin"]}
{"id": "C30", "title": "Portkey two-coin satisfies detailed balance", "statement": "For every portkey probability and budget, P(accept | w1,p1,w2,p2) * e^w2 p2 = P(accept | w2,p2,w1,p1) * e^w1 p1, so the Markov chain built on it leaves its target invariant.", "quantifier": "every weights, probabilities, portkey rate and budget", "why_tests_cant": "exact equality of probabilities", "anchors": ["ctbayes/misc/bfactories.py:sample_twocoin", "ctbayes/misc/bfactories.py:sample_twocoin_joint"]}
{"id": "C31", "title": "Joint two-coin drives its coin with the chosen side", "statement": "sample_twocoin_joint sends True to the coin exactly on rounds where side one was drawn, returns the last proposal the coin produced, and has the same acceptance probability as sample_twocoin when the coin's two sides succeed with p1 and p2.", "quantifier": "every stateful coin, budget and sequence of draws", "why_tests_cant": "arbitrary coin state histories", "anchors": ["ctbayes/misc/bfactories.py:sample_twocoin_joint"]}
{"id": "C32", "title": "Constraint transforms are inverse with the right Jacobian", "statement": "transform_to_const(transform_to_reals(x)) returns x for every x strictly inside the bounds, transform_to_reals(transform_to_const(y)) returns y for every real y, and the reported second component is minus the log absolute derivative of the constrained value, at the same point.", "quantifier": "every bounds pair and every admissible value", "why_tests_cant": "all reals", "anchors": ["ctbayes/misc/adapt.py:transform_to_reals", "ctbayes/misc/adapt.py:transform_to_const"]}
{"id": "C33", "title": "Proposals respect the parameter bounds", "statement": "Every proposal of MyopicMvRwSampler lies strictly inside the bounds the sampler was given.", "quantifier": "every state inside the bounds, every bounds configuration, every normal draw", "why_tests_cant": "violations need large draws", "anchors": ["ctbayes/misc/adapt.py:MyopicMvRwSampler.propose"]}
{"id": "C34", "title": "Adaptation happens on a fixed triangular schedule", "statement": "With air = 1 the proposal scale is changed exactly at the calls of adapt numbered 1, 3, 6, 10, ... (triangular numbers), for all three samplers, whatever the samples and probabilities; the number of stored scales is one plus the number of changes.", "quantifier": "every history of adapt calls of any length", "why_tests_cant": "a history property over unboundedly many calls", "anchors": ["ctbayes/misc/adapt.py:MyopicMvRwSampler.adapt", "ctbayes/misc/adapt.py:MyopicRwSampler.adapt", "ctbayes/misc/adapt.py:MyopicMjpSampler.adapt"]}
{"id": "C35", "title": "Diminishing adaptation", "statement": "Each change of the log proposal scale is at most 1/k^decay in absolute value for the k-period schedule when reported probabilities and the target lie in [0,1], so the changes tend to zero.", "quantifier": "every history of adapt calls with probabilities in [0,1]", "why_tests_cant": "limit over infinite histories", "anchors": ["ctbayes/misc/adapt.py:MyopicMvRwSampler.adapt", "ctbayes/misc/adapt.py:MyopicMjpSampler.adapt"]}
{"id": "C36", "title": "Running moments of the adaptive sampler", "statement": "After k calls the adaptive mean equals the average of the k transformed samples and the zero start value, and the adaptive covariance stays symmetric positive definite, so the proposal distribution is always well defined.", "quantifier": "every history of samples of any length", "why_tests_cant": "history of unbounded length", "anchors": ["ctbayes/misc/adapt.py:seq_update_normal", "ctbayes/misc/adapt.py:MyopicMvRwSampler.adapt"]}
{"id": "C37", "title": "The scalar random-walk proposal is usable", "statement": "MyopicRwSampler.propose returns a proposal with its forward and backward log-Jacobians for every state strictly inside its bounds.", "quantifier": "every state, bounds and normal draw", "why_tests_cant": "the ito test-suite calls the constructor with a different signature and never reaches it", "anchors": ["ctbayes/misc/adapt.py:MyopicRwSampler.propose"]}
{"id": "C38", "title": "Bridge-minimum quantile inverts the distribution function", "statement": "cdf_brownbr_min(ppf_brownbr_min(p)) = p for 0 < p <= 1 and ppf(cdf(m)) = m for m in the admissible range, with and without truncation bounds; both are strictly increasing there; cdf is 0 at the lower and 1 at the upper truncation bound.", "quantifier": "every duration, endpoints, truncation bounds, probability and level", "why_tests_cant": "all reals", "anchors": ["ctbayes/sdelib/hitting.py:cdf_brownbr_min", "ctbayes/sdelib/hitting.py:ppf_brownbr_min"]}
{"id": "C39", "title": "Layer edges are nested and bracket the bridge", "statement": "compute_edges(i) brackets both endpoints, strictly widens with i, and stays strictly inside (lb_x, ub_x); it is mirror-symmetric under reflecting the bridge.", "quantifier": "every layer index, duration, endpoints and bounds", "why_tests_cant": "all indices and reals", "anchors": ["ctbayes/sdelib/layers.py:compute_edges"]}
{"id": "C40", "title": "Sampled bridge minimum is admissible", "statement": "sample_brownbr_min and sample_layerbr_min return a time strictly inside (0, fin_t) and a value in [lb_min_x, ub_min_x], strictly below both endpoints; with an upper bound ub_x, only values compatible with it are returned.", "quantifier": "every parameters and every sequence of draws", "why_tests_cant": "all draws", "anchors": ["ctbayes/sdelib/hitting.py:sample_brownbr_min", "ctbayes/sdelib/hitting.py:sample_layerbr_min"]}
{"id": "C41", "title": "Brownian escape decision is exact", "statement": "For |init_x|,|fin_x| < ue_x the partial sums of series_brownbr_esc converge and alternate around the limit p; sample_brownbr_esc with seed u returns True when u < p and False when u > p, always after finitely many terms.", "quantifier": "every duration, endpoints, level and seed", "why_tests_cant": "needs the limit of an infinite series", "anchors": ["ctbayes/sdelib/hitting.py:sample_brownbr_esc", "ctbayes/sdelib/hitting.py:series_brownbr_esc"]}
{"id": "C42", "title": "Bounded Brownian escape decision is exact", "statement": "With an upper bound ub_x > ue_x, sample_brownbr_esc decides the conditional escape probability 1-(1-r)/(1-s) exactly, for every duration.", "quantifier": "every duration, endpoints, levels and seed", "why_tests_cant": "fails only for long durations relative to the level", "anchors": ["ctbayes/sdelib/hitting.py:sample_brownbr_esc"]}
{"id": "C43", "title": "Bessel escape decision is exact", "statement": "sample_bessel3br_esc started at 0 with seed u returns True when u < p and False when u > p, where p is the limit of series_bessel3br_esc, including when the series must first be fast-forwarded.", "quantifier": "every duration, endpoint, level and seed", "why_tests_cant": "infinite series whose early terms are not monotone", "anchors": ["ctbayes/sdelib/hitting.py:sample_bessel3br_esc", "ctbayes/sdelib/hitting.py:series_bessel3br_esc"]}
{"id": "C44", "title": "Bounded-layer path values stay in their band", "statement": "Every value returned by sample_layerbr lies in [inf_x, ub_sup_x), there is one value per requested time, and when a hitting level is requested one hit flag per gap is returned with at least one of them set.", "quantifier": "every times, endpoints, bounds and every sequence of draws and rejections", "why_tests_cant": "random recursion and rejection", "anchors": ["ctbayes/sdelib/paths.py:sample_layerbr", "ctbayes/sdelib/paths.py:propose_layerbr", "ctbayes/sdelib/paths.py:propose_layerbr_edge"]}
{"id": "C45", "title": "Interpolation refines a skeleton", "statement": "interpolate_skeleton keeps every stored (time, value) pair, adds exactly the new times, keeps times strictly increasing, returns the new values in the order of the requested times, and keeps every value within the skeleton's tight/loose edges.", "quantifier": "every valid skeleton, every increasing list of requested times (known or new), every sequence of draws", "why_tests_cant": "orientation flips, ties with known times and random values", "anchors": ["ctbayes/ea3lib/skeleton.py:interpolate_skeleton", "ctbayes/sdelib/interpolators.py:fill_wiener_outer", "ctbayes/sdelib/interpolators.py:fill_wiener_inner"]}
{"id": "C46", "title": "Interpolating at known times changes nothing", "statement": "interpolate_skeleton at times that are all already stored returns the same skeleton and the stored values.", "quantifier": "every valid skeleton and every subset of its times", "why_tests_cant": "needs hit flags present and all times known", "anchors": ["ctbayes/ea3lib/skeleton.py:interpolate_skeleton", "ctbayes/sdelib/interpolators.py:fill_wiener_inner"]}
{"id": "C47", "title": "Hit flags stay aligned with the gaps", "statement": "After interpolation at times of which at least one is new, the hit-flag list has one entry per gap, and if some flag was set some flag is still set; a gap without hit only produces gaps without hit.", "quantifier": "every valid skeleton with hit flags, every requested times, every draws", "why_tests_cant": "random flags over any number of gaps", "anchors": ["ctbayes/sdelib/interpolators.py:fill_wiener_inner"]}
{"id": "C48", "title": "Flipping a skeleton is an involution", "statement": "flip_skeleton(flip_skeleton(skel)) = skel, and flipping exchanges lower and upper edges while reversing time; reverse and reflect are involutions.", "quantifier": "every skeleton starting at time 0", "why_tests_cant": "all reals and lengths", "anchors": ["ctbayes/ea3lib/skeleton.py:flip_skeleton", "ctbayes/sdelib/transforms.py:reverse", "ctbayes/sdelib/transforms.py:reflect"]}
{"id": "C49", "title": "Raw skeletons respect the state-space bounds", "statement": "Every value and edge of the skeleton returned by sample_raw_skeleton(fin_t, init_x, fin_x, bounds_x) lies inside bounds_x.", "quantifier": "every bounds (finite or infinite on either side) and every sequence of draws", "why_tests_cant": "only asymmetric bounds and a particular coin flip break it", "anchors": ["ctbayes/ea3lib/skeleton.py:sample_raw_skeleton", "ctbayes/sdelib/layers.py:sample_edges"]}
{"id": "C50", "title": "Wiener and bridge samplers have the stated moments", "statement": "sample_wiener and sample_brownbr are affine in the standard normal draws; the affine map's offset and its Gram matrix are exactly the mean and covariance returned by moments_wiener and moments_brownbr.", "quantifier": "every increasing time grid, endpoints, drift", "why_tests_cant": "an exact identity for all grids", "anchors": ["ctbayes/sdelib/paths.py:sample_wiener", "ctbayes/sdelib/paths.py:sample_brownbr", "ctbayes/sdelib/moments.py:moments_wiener", "ctbayes/sdelib/moments.py:moments_brownbr"]}
{"id": "C51", "title": "Conditioning Wiener moments gives bridge moments", "statement": "moments_gaussian_bridge applied to moments_wiener on a grid ending at fin_t equals moments_brownbr on the interior grid, whatever the drift.", "quantifier": "every grid, drift and endpoint", "why_tests_cant": "all grids and reals", "anchors": ["ctbayes/sdelib/moments.py:moments_gaussian_bridge", "ctbayes/sdelib/moments.py:moments_wiener", "ctbayes/sdelib/moments.py:moments_brownbr"]}
{"id": "C52", "title": "Seeded minimum construction is well defined", "statement": "gen_seeded_brownbr_min returns a time strictly inside (0, fin_t) and a value strictly below both endpoints for all seeds; its inverse-Gaussian candidate is the smaller positive root of the chi-square equation.", "quantifier": "every seeds and parameters", "why_tests_cant": "all reals", "anchors": ["ctbayes/sdelib/transforms.py:gen_seeded_brownbr_min"]}
{"id": "C53", "title": "Discriminant bounds enclose the path", "statement": "bound_disc_path brackets the discriminant at every time and every seed value between the seed's edges, piecewise on the time grid, provided eval_bounds_disc is sound on intervals.", "quantifier": "every seed, normalisation maps, grid, time and value", "why_tests_cant": "a continuum of times and values", "anchors": ["ctbayes/ea3lib/seed.py:bound_disc_path"]}
{"id": "C54", "title": "Poisson coin reports whether a point falls under the graph", "statement": "flip_poisson_coin returns True exactly when no drawn Poisson point lies strictly below the discriminant minus its lower bound, irrespective of the batch at which the search stops; an infinite intensity returns False without changing the seed.", "quantifier": "every seed, discriminant, batch size and draws", "why_tests_cant": "all draws and early exits", "anchors": ["ctbayes/ea3lib/seed.py:flip_poisson_coin", "ctbayes/ea3lib/skeleton.py:flip_poisson_coin"]}
{"id": "C55", "title": "Dual coin never violates its intensity assertion", "statement": "For the Ornstein-Uhlenbeck models, the intensity computed in flip_param_coin dominates |disc(thi_prime) - disc(thi_nil)| at every time and every seed value between the seed's edges, so the internal assertion of flip_dual_coin cannot fail.", "quantifier": "every parameter pair, endpoints, duration, time and seed value", "why_tests_cant": "a mean-value bound over a continuum", "anchors": ["ctbayes/ea3lib/seed.py:flip_dual_coin", "ctbayes/ito/mcmc.py:flip_param_coin", "ctbayes/ito/models/ou.py:eval_bounds_grad", "ctbayes/switching/models/ou.py:eval_bounds_grad"]}
{"id": "C56", "title": "Poisson estimator is unbiased", "statement": "The exponential of est_poisson_coin's return value has expectation exp(-integral of (disc - lower bound)) over the Poisson count and uniform times, for a fixed path.", "quantifier": "every integrable discriminant between its bounds, every horizon", "why_tests_cant": "exact expectation", "anchors": ["ctbayes/ea3lib/seed.py:est_poisson_coin", "ctbayes/ea3lib/skeleton.py:est_poisson_coin"]}
{"id": "C57", "title": "Ornstein-Uhlenbeck discriminant bounds are sound and tight", "statement": "eval_bounds_disc(thi, le, ue) returns the exact minimum and maximum of eval_disc over [le, ue], and a first component not above the global infimum, for all Ornstein-Uhlenbeck models.", "quantifier": "every parameters and interval", "why_tests_cant": "all reals", "anchors": ["ctbayes/ito/models/ou.py:eval_bounds_disc", "ctbayes/switching/models/ou.py:eval_bounds_disc", "ctbayes/switching/models/ou2.py:eval_bounds_disc", "ctbayes/switching/models/ou3.py:eval_bounds_disc"]}
{"id": "C58", "title": "CIR discriminant bounds are sound", "statement": "eval_bounds_disc of the CIR model brackets eval_disc on every interval of positive numbers, for all positive parameters.", "quantifier": "every positive parameters and interval", "why_tests_cant": "all reals; the failing region is a parameter range the fixtures avoid", "anchors": ["ctbayes/ito/models/cir.py:eval_bounds_disc", "ctbayes/ito/models/cir.py:f_argmin_disc"]}
{"id": "C59", "title": "CIR parameter updates can run", "statement": "A parameter coin flip of the CIR model returns a verdict for every pair of distinct parameters.", "quantifier": "every parameter pair, data and draws", "why_tests_cant": "the ito CIR MCMC is not exercised by the tests", "anchors": ["ctbayes/ito/models/cir.py:eval_bounds_grad", "ctbayes/ito/mcmc.py:flip_param_coin", "ctbayes/mjplib/skeleton.py:sample_batch_ppp"]}
{"id": "C60", "title": "Normalisation maps are mutually inverse", "statement": "The maps produced by gen_normops invert each other, send the data endpoints to 0 and convert times in [0, dt] to [0, 1].", "quantifier": "every data, durations, parameters, times and values", "why_tests_cant": "all reals", "anchors": ["ctbayes/ito/static.py:norm_rsde", "ctbayes/ito/static.py:denorm_rsde", "ctbayes/switching/static.py:norm_rsde", "ctbayes/switching/static.py:denorm_rsde"]}
{"id": "C61", "title": "Drift primitives are consistent", "statement": "In each model sx_eval_drift is an antiderivative of eval_drift, dx_eval_drift is its derivative, dereduce inverts reduce, and dv_reduce is the derivative of reduce.", "quantifier": "every parameters and state in the domain", "why_tests_cant": "derivatives on a continuum", "anchors": ["ctbayes/ito/models/ou.py", "ctbayes/ito/models/cir.py", "ctbayes/switching/models/ou.py", "ctbayes/switching/models/ou2.py", "ctbayes/switching/models/ou3.py"]}
{"id": "C62", "title": "Normalised seed bounds keep the path in the state space", "statement": "If every seed value lies strictly between the bounds computed in sample_raw_seed, the denormalised path stays strictly inside bounds_x at every time.", "quantifier": "every data, durations, bounds and times", "why_tests_cant": "a continuum of times", "anchors": ["ctbayes/ea3lib/seed.py:sample_raw_seed"]}
{"id": "C63", "title": "Monte Carlo EM particle count grows", "statement": "With learning_rate >= 1 the number of particles strictly increases with each EM iteration (in both packages), so it tends to infinity.", "quantifier": "every number of iterations, every learning rate >= 1", "why_tests_cant": "all iterations", "anchors": ["ctbayes/ito/mcem.py:maximize_posterior", "ctbayes/switching/mcem.py:maximize_posterior"]}
{"id": "C64", "title": "EM rounds produce the requested particles", "statement": "update_particles performs n_particles*n_thin_mcmc hidden-state updates and stores exactly n_particles states, each one of the states the chain visited, in order.", "quantifier": "every particle count, thinning and chain", "why_tests_cant": "all counts", "anchors": ["ctbayes/ito/mcem.py:update_particles", "ctbayes/switching/mcem.py:update_particles"]}
{"id": "C65", "title": "EM iterates from its own previous estimate", "statement": "Each iteration of maximize_posterior starts its E-step and M-step from the parameter value returned by the previous iteration.", "quantifier": "every number of iterations, every model and draws", "why_tests_cant": "history of iterations", "anchors": ["ctbayes/ito/mcem.py:maximize_posterior", "ctbayes/switching/mcem.py:maximize_posterior"]}
{"id": "C66", "title": "Buffered bounds stay feasible", "statement": "buffer_bounds returns lower <= upper inside the original bounds, strictly inside when lb < ub and buffer > 0, and leaves infinite bounds infinite.", "quantifier": "every bounds and buffer", "why_tests_cant": "all reals", "anchors": ["ctbayes/ito/mcem.py:buffer_bounds", "ctbayes/switching/mcem.py:buffer_bounds"]}
{"id": "C67", "title": "Precoin does not change the acceptance odds", "statement": "Accepting through the precoin and then the coin-only factory has the same forward/backward odds as the single weighted two-coin, for the parameter update of both packages.", "quantifier": "every weights, coin probabilities", "why_tests_cant": "exact equality of odds", "anchors": ["ctbayes/ito/mcmc.py:update_params", "ctbayes/ito/mcmc.py:flip_param_precoin", "ctbayes/switching/mcmc.py:update_params_section", "ctbayes/switching/mcmc.py:update_hidden_section"]}
{"id": "C68", "title": "Adaptive rejection hulls sandwich the log-density", "statement": "For a concave differentiable f, eval_lower(x) <= f(x) <= eval_upper(x) at every point of the support, for every set of hull points built by the sampler.", "quantifier": "every concave f, every strictly increasing hull points and every evaluation point", "why_tests_cant": "all concave functions", "anchors": ["ctbayes/misc/ars.py:eval_upper", "ctbayes/misc/ars.py:eval_lower", "ctbayes/misc/ars.py:gen_upper"]}
{"id": "C69", "title": "Squeeze test never changes a decision", "statement": "A draw accepted by the squeeze test would also be accepted by the exact test; hence the squeeze only saves evaluations.", "quantifier": "every concave f, hull and draw", "why_tests_cant": "all functions and draws", "anchors": ["ctbayes/misc/ars.py:sample"]}
{"id": "C70", "title": "Hull bookkeeping", "statement": "Throughout sample the hull points stay sorted with matching values and derivatives, never exceed max(len(init), max_points), and exactly max_draws values are produced.", "quantifier": "every history of draws, any number of iterations", "why_tests_cant": "history property", "anchors": ["ctbayes/misc/ars.py:sample"]}
{"id": "C71", "title": "Envelope draw is exact", "statement": "sample_envelope with uniform z in (0,1) returns a point inside the hull's support whose envelope distribution function equals z.", "quantifier": "every hull with non-zero slopes, every z", "why_tests_cant": "continuum of z", "anchors": ["ctbayes/misc/ars.py:sample_envelope"]}
{"id": "C72", "title": "Euler simulator grid matches its trajectories", "statement": "euler_simulate returns a time grid with one entry per simulated column.", "quantifier": "every fin_t, res", "why_tests_cant": "depends on divisibility", "anchors": ["ctbayes/misc/testing.py:euler_simulate"]}
{"id": "C73", "title": "Worker schedule does not matter", "statement": "Results of the pooled updates depend only on the spawned generators, not on the order in which workers run.", "quantifier": "every schedule of every number of workers", "why_tests_cant": "all interleavings", "anchors": ["ctbayes/ito/mcmc.py:update_sde", "ctbayes/switching/mcmc.py:update_params", "ctbayes/misc/adapt.py:MyopicMvRwSampler.propose"]}
{"id": "C74", "title": "seq_update_normal keeps sample moments", "statement": "Calling seq_update_normal once per further observation, as its docstring does, keeps mean and covariance equal to the sample mean and sample covariance of all observations so far.", "quantifier": "every sequence of observations of every dimension and length", "why_tests_cant": "all lengths and real data", "anchors": ["ctbayes/misc/adapt.py:seq_update_normal"]}
{"id": "C75", "title": "Adaptive rejection draws are exact", "statement": "The values yielded by sample are independent with density proportional to exp(f), whatever the hull adaptation does, and the sampler yields them with probability one.", "quantifier": "every strictly concave f, starting hull, max_points and number of draws", "why_tests_cant": "a distributional identity over all inputs", "anchors": ["ctbayes/misc/ars.py:sample", "ctbayes/misc/ars.py:sample_envelope"]}
{"id": "C76", "title": "Default starting points are usable", "statement": "The points found by brace lie strictly inside the support on either side of the mode and give a hull on which the sampler works.", "quantifier": "every bounds and every strictly concave f", "why_tests_cant": "boundary modes are not covered by the tests", "anchors": ["ctbayes/misc/ars.py:brace"]}
{"id": "C77", "title": "Gradient of the discriminant", "statement": "eval_grad of the ito models is the gradient in the parameters of the discriminant along the denormalised seed.", "quantifier": "every parameters, data, times and seed values", "why_tests_cant": "an exact derivative; the function is not exercised", "anchors": ["ctbayes/ito/models/ou.py:eval_grad", "ctbayes/ito/models/cir.py:eval_grad"]}
{"id": "C78", "title": "Bounded Bessel escape decision is exact", "statement": "sample_bessel3br_esc with an upper bound already known to hold decides an escape with the conditional probability given that bound.", "quantifier": "every admissible end points and barriers", "why_tests_cant": "an exact conditional probability", "anchors": ["ctbayes/sdelib/hitting.py:sample_bessel3br_esc", "ctbayes/sdelib/hitting.py:series_bessel3br_esc"]}
{"id": "C79", "title": "Layer of a bridge", "statement": "sample_layer returns the first layer the bridge does not leave: the layer is at most k exactly with the probability that the bridge stays within layer k, and the search ends.", "quantifier": "every duration, end points, bounds, seed and k", "why_tests_cant": "an exact distribution and an unbounded loop", "anchors": ["ctbayes/ea3lib/layers.py:sample_layer"]}
{"id": "C80", "title": "Pivot of a standard bridge", "statement": "pivot_brownbr with its default time maps turns a standard bridge on a grid into a bridge with the given duration and end points on the stretched grid.", "quantifier": "every grid in (0,1), duration, end points and draws", "why_tests_cant": "an exact identity of laws", "anchors": ["ctbayes/sdelib/transforms.py:pivot_brownbr", "ctbayes/sdelib/paths.py:sample_brownbr"]}
{"id": "C81", "title": "Poisson coin probability", "statement": "On a fixed path X the Poisson coins show True with probability exp(-int_0^T (phi(X_t) - le) dt), whatever the batch size.", "quantifier": "every path, discriminant bounds, duration and batch size", "why_tests_cant": "an exact probability; the batches are drawn lazily", "anchors": ["ctbayes/ea3lib/seed.py:flip_poisson_coin", "ctbayes/ea3lib/skeleton.py:flip_poisson_coin", "ctbayes/mjplib/skeleton.py:sample_batch_ppp"]}
{"id": "C82", "title": "Law of forward simulation", "statement": "sample_forwards samples the Markov jump process with the given generator: the joint law of end state, jump counts and occupation times is that of the process, the end state has law exp(fin_t gen), the loop ends with probability one, and without an initial state the path is stationary.", "quantifier": "every generator, horizon and initial state", "why_tests_cant": "an exact distribution over all generators", "anchors": ["ctbayes/mjplib/skeleton.py:sample_forwards"]}
{"id": "C83", "title": "Law of bridges", "statement": "sample_bridge samples the jump process conditioned on its end state: jump counts and occupation times have the conditional law given the end state, and the search for the number of jumps ends with probability one.", "quantifier": "every generator, horizon and pair of connected states", "why_tests_cant": "an exact conditional distribution; the tests compare occupation times of one very long bridge", "anchors": ["ctbayes/mjplib/skeleton.py:sample_bridge", "ctbayes/mjplib/skeleton.py:sample_backwards"]}
{"id": "C84", "title": "Redrawing the pieces keeps the law of the path", "statement": "If the path is stationary, the path obtained by cutting it and applying mutate_partition is stationary as well.", "quantifier": "every generator, horizon and partition", "why_tests_cant": "an exact invariance; the tests use one very long path whose start does not matter", "anchors": ["ctbayes/mjplib/skeleton.py:mutate_partition", "ctbayes/mjplib/skeleton.py:sample_backwards"]}
{"id": "C85", "title": "Random-walk proposals report their density ratio and leave the parameter target reversible", "statement": "MyopicMvRwSampler.propose returns log_p_forw and log_p_backw such that, integrating over the current value x and the proposal x', weighting by exp(log_p_backw - log_p_forw) equals exchanging x and x'; and update_params_section, run with this proposal, is in detailed balance with the density exp(eval_param_weight) times the factor rho its coins represent (rho(x) P(x,x') = rho(x') P(x',x)), with or without precoin, for every portkey probability and budget. The section's coin shows heads with the product over the segments of the regime of their coins' probabilities.", "quantifier": "every dimension, every bound pattern, every factorisation of the proposal covariance, every current row, every regime, every control setting", "why_tests_cant": "A reversed Jacobian or a swapped pair of log densities shifts the posterior smoothly; sampling tests would need a known posterior and long runs.", "anchors": ["ctbayes/misc/adapt.py:MyopicMvRwSampler.propose", "ctbayes/switching/mcmc.py:update_params_section", "ctbayes/switching/mcmc.py:flip_param_coins"]}
{"id": "C86", "title": "Hidden-state weight is an importance weight", "statement": "Weighting the augmentation drawn by switching sample_aug with exp(eval_hidden_weight) gives the joint density of the observations and the latent anchors under the volatilities of the regimes, times the exponential growth of the drift potential and the expected exponential of minus the integrated lower bounds of the discriminant; no other function of the regime path is left over.", "quantifier": "every regime path, observation grid, volatility per regime, potential and seed sampler", "why_tests_cant": "An error in the variance of a segment or in the flags of the observations changes the posterior of the regimes smoothly.", "anchors": ["ctbayes/switching/static.py:sample_aug", "ctbayes/switching/static.py:sample_anchors", "ctbayes/switching/static.py:eval_biased_log_lik", "ctbayes/switching/mcmc.py:eval_hidden_weight"]}
{"id": "C87", "title": "Weights of sections add up", "statement": "Cutting a hidden state at anchors where the regime does not change and evaluating eval_biased_log_lik on each section gives outputs that sum to those of the whole, for every shipped switching model.", "quantifier": "every valid anchorage, cuts and parameters", "why_tests_cant": "sections are evaluated in separate workers and their weights never compared with the whole", "anchors": ["ctbayes/switching/mcmc.py:update_hidden", "ctbayes/switching/mcmc.py:split_hidden", "ctbayes/switching/static.py:eval_biased_log_lik", "ctbayes/switching/models/ou3.py:sx_eval_drift"]}
{"id": "C88", "title": "The objective of an EM iteration is a fixed function", "statement": "After update_objective has drawn the supports and interpolated the particles, evaluating f_obj draws nothing more and changes no state: its value at thi is, for each particle, the biased log-likelihood minus the discretised integral of the discriminant along the stored path plus the log prior. Tied supports have probability zero; with n_disc_supports = 0 update_objective raises.", "quantifier": "every parameter, every set of particles, every support drawn, Ito and switching", "why_tests_cant": "scipy's minimize assumes a deterministic function; a re-drawn support shows up only as slow or failed convergence", "anchors": ["ctbayes/ito/mcem.py:update_objective", "ctbayes/ito/mcem.py:est_log_aug_lik", "ctbayes/switching/mcem.py:update_objective", "ctbayes/switching/mcem.py:est_log_aug_lik", "ctbayes/ea3lib/seed.py:interpolate_seed"]}
{"id": "C89", "title": "Random supports make the EM objective unbiased", "statement": "Given the paths of a particle, est_log_aug_lik evaluated at uniform supports has expectation equal to the biased log-likelihood minus the exact time integral of the discriminant along the path, for any positive number of supports, with or without restriction to a regime.", "quantifier": "every path, parameter, grid, number of supports", "why_tests_cant": "an exact expectation", "anchors": ["ctbayes/ito/mcem.py:est_log_aug_lik", "ctbayes/switching/mcem.py:est_log_aug_lik"]}
{"id": "C90", "title": "The reported switching objective is the objective at the returned parameters", "statement": "update_param of the switching EM maximises regime by regime; the objectives of the regimes separate, and the value reported (the sum over regimes) is the log posterior objective at the returned matrix.", "quantifier": "every model, prior, particle set and number of regimes", "why_tests_cant": "the value is only used in the stopping rule, where a constant offset is invisible in one run", "anchors": ["ctbayes/switching/mcem.py:update_param", "ctbayes/switching/mcem.py:update_objective"]}
{"id": "C91", "title": "Law of the minimum of a bridge", "statement": "sample_brownbr_min draws the time s and the value m of the minimum of a Brownian bridge with joint density 2 h(a-m,s) h(b-m,T-s)/phi_T(b-a), h the first-passage density, conditioned on the value lying between the bounds; the density integrates to one and a value is returned with probability one.", "quantifier": "every duration, end points, admissible bounds", "why_tests_cant": "A wrong shape or scale of the inverse Gaussian draw moves the time of the minimum smoothly and leaves the value untouched.", "anchors": ["ctbayes/sdelib/hitting.py:sample_brownbr_min", "ctbayes/sdelib/hitting.py:ppf_brownbr_min"]}
{"id": "C92", "title": "Law of the seeded minimum", "statement": "Fed with independent uniform and chi-square seeds, gen_seeded_brownbr_min has the law of sample_brownbr_min: the transformation of a normal square by roots yields the inverse Gaussian draw.", "quantifier": "every duration, end points, admissible bounds", "why_tests_cant": "An inverted choice of root gives a positive variable with nearly the same mean.", "anchors": ["ctbayes/sdelib/transforms.py:gen_seeded_brownbr_min"]}
{"id": "C93", "title": "Law of the Bessel bridge", "statement": "sample_besselbr in three dimensions from 0 to x > 0 has the finite-dimensional law of a Brownian path that enters from 0, stays positive and ends in x: with the entrance density of first passage and the reflected transition kernel; the density is normalised and a path of non-negative values is returned with probability one.", "quantifier": "every end point, every increasing list of times", "why_tests_cant": "A law of dimension equal to the number of times; the tests compare one-dimensional marginals.", "anchors": ["ctbayes/sdelib/paths.py:sample_besselbr"]}
{"id": "C94", "title": "Law of a bridge above a level", "statement": "sample_layerbr without bounds on the supremum returns the values of a Brownian bridge conditioned to stay above inf_x: drawing the minimum, cutting the grid there and drawing a reversed and a forward Bessel bridge yields the density of the killed path, for inf_x below both end points or equal to one of them; the density is normalised and a path is returned with probability one.", "quantifier": "every end points, level, increasing list of times and budget", "why_tests_cant": "An exact joint law; a shifted or unreversed half changes it only slightly for symmetric inputs.", "anchors": ["ctbayes/sdelib/paths.py:sample_layerbr", "ctbayes/sdelib/paths.py:propose_layerbr", "ctbayes/sdelib/paths.py:propose_layerbr_edge"]}
{"id": "C95", "title": "Law of a bridge in a layer", "statement": "sample_layerbr with an upper bound U on the supremum returns the values of a Brownian path conditioned to stay between inf_x and U, whose density is the product of the two-barrier image kernels. From or to the infimum this is exact for every budget, and the probability that a proposal is accepted is 1-(1-r)^n with r the ratio of the entrance densities; between interior points the returned law is dominated by the conditioned law, increases to it with the budget, and is no further from it than the probability that the budget is used up.", "quantifier": "every end points, level, bound, increasing list of times and budget", "why_tests_cant": "An exact joint law of a nested rejection sampler; errors in one of the two rejection loops change tail probabilities only.", "anchors": ["ctbayes/sdelib/paths.py:sample_layerbr", "ctbayes/sdelib/paths.py:propose_layerbr", "ctbayes/sdelib/paths.py:propose_layerbr_edge", "ctbayes/sdelib/hitting.py:sample_layerbr_min"]}
{"id": "C96", "title": "End point proposals and biased likelihood", "statement": "The biased log likelihood is the logarithm of the product over transitions of the Jacobian, the Brownian transition density of the transformed state and the exponential of the integrated drift; sample_conv_endpt draws independent end points from the same density, for the Ornstein-Uhlenbeck model normals with mean x0/(1+bT) and variance T/(1+bT), for the Cox-Ingersoll-Ross model the density in proportion to exp(A(x)-(x-x0)^2/(2T)) on the positive half line.", "quantifier": "every parameter inside the bounds, duration, starting point and data", "why_tests_cant": "A log-concavity failure for part of the parameter space biases draws near the boundary only; a reversed potential difference cancels along symmetric paths.", "anchors": ["ctbayes/ito/static.py:sample_conv_endpt", "ctbayes/ito/static.py:eval_biased_log_lik", "ctbayes/misc/ars.py:sample"]}
{"id": "C97", "title": "Paths simulated by rejection", "statement": "sample_skeleton returns skeletons with the law of an accepted proposal, independently of the budget, raises its budget error with probability w^k for a round rejected with probability w, and successive paths are independent with one law; every path that sample_sde returns has one value per requested time, starts in init_v and ends in fin_v where given; paths are returned for all admissible parameters.", "quantifier": "every model, parameter, times, end points, budgets and draws", "why_tests_cant": "A law over all random streams; a retained rejected skeleton or reused end point gives paths that look plausible one by one.", "anchors": ["ctbayes/ea3lib/skeleton.py:sample_skeleton", "ctbayes/ea3lib/skeleton.py:flip_poisson_coin", "ctbayes/ito/static.py:sample_sde"]}
{"id": "C98", "title": "Bridge updates leave the target reversible", "statement": "update_sde_bridge works on the one normalising operation of its sector, is reversible for the density exp(weight) times the probability of its coin with respect to the law of the proposals, for every portkey rate and budget; update_sde updates the bridges independently, keeps their number, and each new seed is valid and knows all that the current seed or the proposal of its own bridge knows.", "quantifier": "every model, grid, seeds, portkey rate, budget and draws", "why_tests_cant": "Swapped coins or weights, or a sector off by one, give a chain that runs and mixes but targets another law.", "anchors": ["ctbayes/ito/mcmc.py:update_sde", "ctbayes/ito/mcmc.py:update_sde_bridge", "ctbayes/ito/mcmc.py:eval_sde_weight", "ctbayes/ito/mcmc.py:flip_sde_coins", "ctbayes/ito/mcmc.py:update_joint"]}
{"id": "C99", "title": "Gibbs step for the generator", "statement": "sample_param draws the off-diagonal rates independently from gamma distributions with shape alp and rate bet and sets the diagonal to minus the row sums; update_generator draws from the posterior of the generator given the regime path of the anchorage over the whole observation window: density of the gamma prior times the density of the path of the jump process, normalised.", "quantifier": "every number of states, hyper-parameters, anchorage and function of the generator", "why_tests_cant": "An exact joint law; a rate passed as a scale, or time missing from the exposure, gives valid generators of the right order of magnitude.", "anchors": ["ctbayes/mjplib/inference.py:sample_param", "ctbayes/mjplib/inference.py:update", "ctbayes/switching/mcmc.py:update_generator"]}
{"id": "C100", "title": "Updates of regimes and bridges leave the target reversible", "statement": "update_hidden_section moves between two hidden sections in detailed balance with exp(hidden weight) times the probability that all coins of the section show heads; the sections of update_hidden are accepted independently, so that the update of all of them is reversible for the product over sections relative to the product of the laws of the proposed sections; the new anchorage is the paste of the accepted proposed and the kept current sections, with the product of the section probabilities.", "quantifier": "every number of sections, weights, coins, portkey rate, budget, with and without precoin", "why_tests_cant": "Detailed balance of a product of rejection loops; a verdict shared between sections or coins attached to the wrong side gives a chain that runs but targets another law.", "anchors": ["ctbayes/switching/mcmc.py:update_hidden", "ctbayes/switching/mcmc.py:update_hidden_section", "ctbayes/switching/mcmc.py:flip_hidden_precoin", "ctbayes/switching/mcmc.py:flip_hidden_coins"]}
{"id": "C101", "title": "Log priors are those of lognormal and exponential parameters", "statement": "The prior of the Ornstein-Uhlenbeck models makes log(bet) and log(rho) independent normal variables with standard deviations scale_bet and scale_rho/2, independently for every regime; the prior of the Cox-Ingersoll-Ross model makes bet, mu and 1/sig^2 independent exponential variables with rate 1; their masses are pi*scale_bet*scale_rho per regime and 1/2; the log prior is a number inside the parameter space and -inf everywhere else.", "quantifier": "every scale, number of regimes, parameter and function of the parameters", "why_tests_cant": "A missing Jacobian term changes the prior smoothly; no finite set of evaluations shows that the mass is finite.", "anchors": ["ctbayes/ito/models/ou.py:eval_log_prior", "ctbayes/ito/models/cir.py:eval_log_prior", "ctbayes/switching/models/ou.py:eval_log_prior"]}
{"id": "C102", "title": "Generators to start from", "statement": "The expectation under construct_gen_hyperprior is a generator whose rates all equal alp/bet and whose stationary law is uniform; sample_trial_generator always returns a generator, with independent standard lognormal rates.", "quantifier": "every number of states, positive hyper-parameters and draws", "why_tests_cant": "The NaN diagonal passes silently through the arithmetic; that every row sums to zero for every draw is not a finite check.", "anchors": ["ctbayes/switching/static.py:construct_gen_hyperprior", "ctbayes/mjplib/inference.py:get_ev", "ctbayes/mjplib/skeleton.py:sample_trial_generator"]}
{"id": "C103", "title": "Random partitions", "statement": "sample_partition breaks a path at a Poisson number of equally spaced times strictly inside the horizon; it returns one more piece than break times, all valid and of the same duration, which follow the path and paste back to it; it fails exactly for negative intensities.", "quantifier": "every reduced path, intensity and draw", "why_tests_cant": "Off-by-one errors in the grid appear only for some counts, including no break at all.", "anchors": ["ctbayes/mjplib/skeleton.py:sample_partition", "ctbayes/mjplib/skeleton.py:partition_skeleton"]}
{"id": "C104", "title": "The estimate of the augmented likelihood is unbiased", "statement": "On stored bridges exp(est_aug_lik) has the augmented likelihood as its expectation: the exponential of the biased log-likelihood minus the integral of the discriminant along the bridges, the same quantity whose logarithm est_log_aug_lik estimates.", "quantifier": "every number of observations, bridges, parameters and bounds of the discriminant", "why_tests_cant": "An expectation over a Poisson number of evaluations; a bound entering with the wrong sign or twice still gives numbers of the right size.", "anchors": ["ctbayes/ito/mcem.py:est_aug_lik", "ctbayes/switching/mcem.py:est_aug_lik"]}
{"id": "C105", "title": "Standard errors invert Louis' observed information", "statement": "est_se returns the inverse of minus the mean of the second derivatives minus the sample covariance of the gradients of the objective over the particles whenever that inverse has a positive diagonal, and None when it has not, when the parameter sits on a bound or when there is only one particle; over independent particles the information is unbiased, and for particles drawn from the posterior its expectation is minus the second derivative of the log-likelihood.", "quantifier": "every number of parameters, particles and regimes, every twice differentiable objective and bounds", "why_tests_cant": "Second derivatives of an expectation; clipping and array shapes matter only in corners of the parameter space.", "anchors": ["ctbayes/ito/mcem.py:est_se", "ctbayes/switching/mcem.py:est_se"]}
{"id": "C106", "title": "Bessel processes have their transition laws and bridges", "statement": "sample_bessel returns one non-negative value per time whose square is, scaled with the time, non-central chi-square for every dimension, start and drift; in dimension 3 without drift the values are a Markov chain with the transition density of the three-dimensional Bessel process and in dimension 1 a reflected Brownian motion; sample_besselbr draws from the law of sample_bessel given its last value, and gen_seeded_bessel3br turns three independent standard Brownian bridges into that bridge.", "quantifier": "every increasing grid of positive times, start, drift, dimension, horizon and end value", "why_tests_cant": "Joint laws of continuous variables; the tests compare a single marginal, and the one of the seeded bridge compares a sample with itself.", "anchors": ["ctbayes/sdelib/paths.py:sample_bessel", "ctbayes/sdelib/paths.py:sample_besselbr", "ctbayes/sdelib/transforms.py:gen_seeded_bessel3br"]}
{"id": "C107", "title": "Vector paths are filled with Brownian bridges", "statement": "fill_wiener_vector inserts at every new time a point of the Brownian bridge between the neighbours on the path, leaves the path at the old times as it was, keeps the times sorted and returns the positions of the new points.", "quantifier": "every path, number of columns and sorted new times within its range", "why_tests_cant": "Laws of inserted points; array shapes depend on how many new times fall into one gap.", "anchors": ["ctbayes/sdelib/interpolators.py:fill_wiener_vector"]}
{"id": "C108", "title": "Bridges of diffusions are sampled by rejection", "statement": "sample_bridge yields independent bridges whose law has, with respect to the proposals, the density exp(w) p, where w is minus the integrated lower bound of the discriminant and p the probability that the Poisson coin shows heads, and raises the budget error with the probability that all proposals are rejected.", "quantifier": "every law of proposals, coin probabilities, weights and number of proposals", "why_tests_cant": "Laws of accepted objects; a weight above one is clipped silently.", "anchors": ["ctbayes/ea3lib/seed.py:sample_bridge"]}
{"id": "C109", "title": "Evaluating a path", "statement": "Calling a skeleton or a seed at times within its horizon returns one value for each time, in the order of the times: the stored value at a stored time, a value between the edges elsewhere, and the same value when it is called again; a time beyond the horizon raises ValueError.", "quantifier": "every well-formed skeleton or seed, every list of times, every sequence of draws", "why_tests_cant": "Any order and repetition of times; agreement of repeated calls.", "anchors": ["ctbayes/ea3lib/skeleton.py:Skeleton", "ctbayes/ea3lib/seed.py:SeedSkeleton"]}
{"id": "C110", "title": "Escape decisions agree with simulated paths", "statement": "sample_brownbr_esc and sample_bessel3br_esc say that a path stays below its level, and cdf_brownbr_min and sample_brownbr_min that its minimum lies above a level, with the limit of the probabilities that a path simulated by sample_brownbr, sample_besselbr or sample_layerbr satisfies this at the times of a grid, as the grid gets finer.", "quantifier": "all durations, end points and levels, every sequence of grids whose longest gap tends to zero", "why_tests_cant": "A limit over grids of probabilities over all paths; simulation on one grid only bounds it with noise.", "anchors": ["ctbayes/sdelib/hitting.py:sample_brownbr_esc", "ctbayes/sdelib/hitting.py:sample_bessel3br_esc", "ctbayes/sdelib/hitting.py:cdf_brownbr_min", "ctbayes/sdelib/hitting.py:sample_brownbr_min", "ctbayes/sdelib/paths.py:sample_brownbr", "ctbayes/sdelib/paths.py:sample_besselbr"]}
{"id": "C111", "title": "Law of the raw skeleton", "statement": "Without bounds, sample_raw_skeleton returns the extreme value of the Brownian bridge with its time, the edges of the layer and the flags with the joint law of the bridge: layer, side, time and value of the minimum or maximum and whether the two halves pass the edge of the next inner layer have the density of the bridges that stay in the layer and leave the next inner one, where bridges that leave it on both sides are assigned to either side with the same weight. Exhausted budgets only scale layers down and disappear in the limit.", "quantifier": "all durations and end points, all measurable functions of the skeleton, all budgets", "why_tests_cant": "A joint law of discrete and continuous parts over nested rejection loops; samples only test it with noise.", "anchors": ["ctbayes/ea3lib/skeleton.py:sample_raw_skeleton", "ctbayes/sdelib/layers.py:sample_layer", "ctbayes/sdelib/layers.py:sample_anchor", "ctbayes/sdelib/layers.py:sample_edges", "ctbayes/sdelib/layers.py:compute_edges"]}
{"id": "C112", "title": "Law of filled raw skeletons", "statement": "A raw skeleton without set flags that is filled in at given times has the values of the Brownian bridge: in the first layer those of a bridge that stays in the layer, independent of the side, and in a later layer those of a bridge that leaves the next inner layer on the side of the extreme value and not on the other side. Exhausted budgets disappear in the limit, and with finite budgets no outcome has more than its share.", "quantifier": "all durations, end points and increasing times between them, all measurable functions of the values, all layers", "why_tests_cant": "The law combines the mirror image, the sampled extreme value and two conditioned bridges; the marginal over the sampled extreme value can only be estimated from samples.", "anchors": ["ctbayes/ea3lib/skeleton.py:sample_raw_skeleton", "ctbayes/ea3lib/skeleton.py:interpolate_skeleton", "ctbayes/sdelib/paths.py:sample_layerbr", "ctbayes/ea3lib/skeleton.py:flip_skeleton"]}
{"id": "C113", "title": "Filling in a skeleton in rounds", "statement": "A skeleton without set flags that is filled in at given times has, at the new times, the values of the path given the old ones: the joint density of all values divided by the density of the known ones. Hence filling in twice has the law of filling in once at all times, times and values alike, provided that the first round keeps the flags, and filling in ends with certainty as the budget grows.", "quantifier": "all skeletons with a minimum or maximum, any number of gaps, without set flags; all increasing lists of new or known times; all measurable functions of times and values", "why_tests_cant": "Consistency between rounds is a statement about two laws on lists of values of any length; a test compares samples at a few times for a few skeletons.", "anchors": ["ctbayes/ea3lib/skeleton.py:interpolate_skeleton", "ctbayes/sdelib/interpolators.py:fill_wiener_outer", "ctbayes/sdelib/interpolators.py:fill_wiener_inner", "ctbayes/sdelib/paths.py:sample_layerbr"]}
{"id": "C114", "title": "Samplers have laws", "statement": "Every sampler of the library \u2014 minima, escape decisions, layers, edges, paths, raw skeletons and seeds, interpolation, coins, estimates, diffusions with a given end, bridges by rejection, augmentations, the update of the bridges of a diffusion, jump processes with free or given ends, proposals of regime paths, generators, vector paths, the updates of generators, parameters and hidden regimes of a switching diffusion and any number of whole iterations of its chain, adaptive rejection sampling, diffusions with a free end and the iterations of Monte Carlo EM \u2014 has exactly one law: a probability measure on results and exceptions, depending measurably on all real and list arguments, such that every expectation over runs is an integral. Hence probabilities of complementary events add up to one, those of disjoint events add up, and the law of a composition is the composition of the laws.", "quantifier": "all arguments, valid or not; all budgets; all models jointly in their parameters; all measurable events", "why_tests_cant": "Existence of a law is a statement about all measurable events and about measurability in the arguments; no finite number of runs bears on it.", "anchors": ["ctbayes/sdelib/hitting.py:sample_bridge_min", "ctbayes/sdelib/paths.py:sample_layerbr", "ctbayes/ea3lib/skeleton.py:sample_raw_skeleton", "ctbayes/ea3lib/skeleton.py:interpolate_skeleton", "ctbayes/ea3lib/seed.py:flip_poisson_coin", "ctbayes/ito/static.py:sample_sde", "ctbayes/switching/mcmc.py:update_joint", "ctbayes/switching/mcmc.py:sample_posterior"]}
{"id": "C115", "title": "Coins on partly revealed paths", "statement": "The Poisson coin of a skeleton looks at its points batch by batch, reveals the path only at the times of the current batch, keeps what it revealed and stops at the first batch with a point below the graph. Its probability of success is that of no point lying below the graph of a path revealed at the times of all points at once, given what was known at the start; for a path with a minimum this is an integral of the density of the path. Neither the batches, nor the order of the points, nor stopping early changes it, and the coin ends with certainty as the budget of proposals grows.", "quantifier": "all skeletons without set flags of paths with a minimum or a maximum, all measurable discriminants, levels, heights, horizons and batch sizes; the limit of growing budgets", "why_tests_cant": "The statement compares the law of an adaptive procedure, whose later draws depend on the earlier ones, with that of a procedure that draws everything at once.", "anchors": ["ctbayes/ea3lib/skeleton.py:flip_poisson_coin", "ctbayes/ea3lib/skeleton.py:interpolate_skeleton", "ctbayes/mjplib/skeleton.py:sample_batch_ppp"]}
{"id": "C116", "title": "Law of the coin that compares two parameters", "statement": "The coin that compares two parameters looks at its points batch by batch, reveals the seed only at the times of the current batch and evaluates both discriminants along the two paths of the seed. Its probability of success is that of no point lying below the positive part of the difference of the discriminants along a seed revealed at the times of all points at once; it does not depend on the batches, and the coin ends with certainty as the budget of proposals grows.", "quantifier": "all seeds of paths with a minimum or a maximum, with or without flags that are not set, all measurable discriminants, intensities above their difference, horizons and batch sizes; the limit of growing budgets", "why_tests_cant": "The loss of the flags changes only the law of values in later batches; single runs look alike.", "anchors": ["ctbayes/ea3lib/seed.py:flip_dual_coin", "ctbayes/ea3lib/seed.py:interpolate", "ctbayes/ito/mcmc.py:flip_param_coin", "ctbayes/mjplib/skeleton.py:sample_batch_ppp"]}
{"id": "C117", "title": "Iterations of the switching sampler keep its state consistent", "statement": "With probability one, whenever sample_posterior yields: the path of the regimes fits the observations and has one bridge per gap, the regime sampler holds this path, the rates form a generator, all parameters are within their bounds, and the sampler of every regime holds the current parameters of that regime with positive definite proposal covariances. The only exceptions are the documented limit of the two-coin algorithm and those of the Poisson coins and of the seed sampler, and the acceptance ratios compare numbers, never results of invalid operations.", "quantifier": "all models with volatilities that vanish nowhere, in particular the three models of the library; all observation grids of at least four times, priors, bounds, initial parameters within the bounds, numbers of regimes, controls and numbers of iterations; almost all random draws", "why_tests_cant": "The state is spread over four objects that are updated at different places; a mismatch appears only after particular sequences of accepted and rejected proposals, and the statement has probability one, not certainty.", "anchors": ["ctbayes/switching/mcmc.py:sample_posterior", "ctbayes/switching/mcmc.py:update_joint", "ctbayes/switching/mcmc.py:update_params", "ctbayes/switching/mcmc.py:update_hidden", "ctbayes/misc/adapt.py:MyopicMvRwSampler", "ctbayes/misc/adapt.py:MyopicMjpSampler"]}
{"id": "C118", "title": "Trajectories of the Euler scheme", "statement": "Each column of the array returned by euler_simulate consists of independent copies of the Euler chain: from x to a normal variable with mean x + d(x) res and variance v(x)^2 res, repeated as often as the index of the column says; jointly, the rows are independent paths of this chain. With affine drift and constant volatility an entry is normal with the mean and variance of the recursion; with constant coefficients it has exactly the law of Brownian motion with drift at the time of the column; with mean reversion the decay is a power instead of an exponential.", "quantifier": "all measurable coefficients, positive resolutions, horizons, starts, numbers of draws, columns and positions, and all measurable functions", "why_tests_cant": "The law after any number of steps is a statement about all measurable functions; the test of the code compares one sample with one distribution.", "anchors": ["ctbayes/misc/testing.py:euler_simulate"]}
{"id": "C119", "title": "Points drawn at once form a Poisson process", "statement": "The points that sample_ppp returns form a Poisson process on the box: the expectation of a product of a function over the points is the exponential of the intensity times the integral of the function minus one. Hence the numbers of points in disjoint sets are independent Poisson variables whose means are the volumes times the intensity, and a set is empty with probability exp(-intensity * volume).", "quantifier": "all intensities, boxes of any dimension, integrable functions, finite families of disjoint measurable sets", "why_tests_cant": "Independence over all measurable sets concerns the joint law of an unbounded number of points; the test of the code checks the marginal distribution of pooled coordinates.", "anchors": ["ctbayes/mjplib/skeleton.py:sample_ppp"]}
{"id": "C120", "title": "States of a simulated jump process at given times", "statement": "The states that a path simulated by sample_forwards takes at increasing times have the joint law of the Markov process with the given generator: the probability of a sequence of states is the product of the entries of the matrix exponentials of the gaps times the generator. Hence the future given the present does not depend on the past, and a process that starts in a stationary law has it at every time.", "quantifier": "all generators of two or more states, absorbing states included, all initial states or the stationary law, all increasing lists of times within the horizon and lists of states; the limit of the number of jumps", "why_tests_cant": "Joint laws at any number of times of paths with an unbounded number of jumps; samples only test single times with noise.", "anchors": ["ctbayes/mjplib/skeleton.py:sample_forwards", "ctbayes/mjplib/skeleton.py:get_trans"]}
