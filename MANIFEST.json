{
 "claims": [
  {
   "property": "C01",
   "status": "proved",
   "theorems": [
    "Ctb.C01_call",
    "Ctb.C01_negative_time_wraps"
   ],
   "note": "States at non-negative query times, with the exact error branch; the negative-time wrap-around of the code is shown separately."
  },
  {
   "property": "C02",
   "status": "proved",
   "theorems": [
    "Ctb.C02_paste_partition",
    "Ctb.C02_needs_reduced"
   ],
   "note": "For reduced skeletons, which is what the samplers produce; C02_needs_reduced shows the hypothesis is needed."
  },
  {
   "property": "C03",
   "status": "proved",
   "theorems": [
    "Ctb.C03_pieces"
   ],
   "note": ""
  },
  {
   "property": "C04",
   "status": "proved",
   "theorems": [
    "Ctb.C04_paste",
    "Ctb.C04_paste_all_zero"
   ],
   "note": "Includes the error case where every piece has duration zero."
  },
  {
   "property": "C05",
   "status": "proved",
   "theorems": [
    "Ctb.C05_repartition"
   ],
   "note": ""
  },
  {
   "property": "C06",
   "status": "proved",
   "theorems": [
    "Ctb.C06_forwards",
    "Ctb.C06_forwards_stationary",
    "Ctb.C06_no_error",
    "Ctb.C06_single_state_error"
   ],
   "note": "Also: no exception with at least two states, ValueError with one state (C06_single_state_error)."
  },
  {
   "property": "C07",
   "status": "partial",
   "theorems": [
    "Ctb.C07_almost_surely_partial",
    "Ctb.C07_bridge_partial",
    "Ctb.C07_violated"
   ],
   "note": "Proved when no uniform draw is exactly zero and draws do not tie (C07_bridge_partial), which has probability one (C07_almost_surely_partial). C07_violated: a zero first draw returns a path that never reaches the end state."
  },
  {
   "property": "C08",
   "status": "proved",
   "theorems": [
    "Ctb.C08_count_search"
   ],
   "note": ""
  },
  {
   "property": "C09",
   "status": "proved",
   "theorems": [
    "Ctb.C09_bridge_no_error",
    "Ctb.C09_backwards_no_error",
    "Ctb.C09_step_distribution"
   ],
   "note": "ome.choice is modelled with numpy's validity check, so absence of ValueError says every vector is a distribution."
  },
  {
   "property": "C10",
   "status": "partial",
   "theorems": [
    "Ctb.C10_almost_surely_partial",
    "Ctb.C10_mutate_partial",
    "Ctb.C10_mutate_no_error",
    "Ctb.C10_violated"
   ],
   "note": "Proved when no uniform draw is exactly zero and draws do not tie (positive off-diagonal rates), which has probability one (C10_almost_surely_partial). C10_violated shows the zero-draw failure."
  },
  {
   "property": "C11",
   "status": "partial",
   "theorems": [
    "Ctb.C11_almost_surely_partial",
    "Ctb.C11_conditioning_law",
    "Ctb.C11_propose_partial",
    "Ctb.C11_propose_no_error",
    "Ctb.C11_short_grid_error"
   ],
   "note": "Proved when no uniform draw is exactly zero and draws do not tie, which has probability one (C11_almost_surely_partial); depends on C07. Error branches covered; C11_conditioning_law gives the law of the conditioning times."
  },
  {
   "property": "C12",
   "status": "proved",
   "theorems": [
    "Ctb.C12_solution",
    "Ctb.C12_get_stat",
    "Ctb.C12_get_stat_ok"
   ],
   "note": ""
  },
  {
   "property": "C13",
   "status": "proved",
   "theorems": [
    "Ctb.C13_est_stat"
   ],
   "note": ""
  },
  {
   "property": "C14",
   "status": "proved",
   "theorems": [
    "Ctb.C14_ppp",
    "Ctb.C14_assert"
   ],
   "note": ""
  },
  {
   "property": "C15",
   "status": "partial",
   "theorems": [
    "Ctb.C15_batch_partial",
    "Ctb.C15_box_violated"
   ],
   "note": "Everything but the first coordinate's upper bound; C15_box_violated gives draws that leave the box."
  },
  {
   "property": "C16",
   "status": "proved",
   "theorems": [
    "Ctb.C16_equivalence",
    "Ctb.C16_same_path"
   ],
   "note": ""
  },
  {
   "property": "C17",
   "status": "partial",
   "theorems": [
    "Ctb.C17_counts",
    "Ctb.C17_times_partial",
    "Ctb.C17_times_violated"
   ],
   "note": "Counts are complete. The time after the last jump is not counted by update: C17_times_violated gives the exact value, C17_times_partial says what each row does receive."
  },
  {
   "property": "C18",
   "status": "proved",
   "theorems": [
    "Ctb.C18_conjugacy"
   ],
   "note": ""
  },
  {
   "property": "C19",
   "status": "proved",
   "theorems": [
    "Ctb.C19_get_ev",
    "Ctb.C19_get_mode",
    "Ctb.C19_sample_param",
    "Ctb.C19_sample_param_no_error"
   ],
   "note": ""
  },
  {
   "property": "C20",
   "status": "proved",
   "theorems": [
    "Ctb.C20_mstep"
   ],
   "note": "Compared against every generator with positive rates; shapes at least 1."
  },
  {
   "property": "C21",
   "status": "proved",
   "theorems": [
    "Ctb.C21_split_paste",
    "Ctb.C21_pieces"
   ],
   "note": "Splitting then pasting is the identity for any set of split times; each piece has the regimes, anchors and seeds of its interval."
  },
  {
   "property": "C22",
   "status": "proved",
   "theorems": [
    "Ctb.C22_aug",
    "Ctb.C22_aug_reduced",
    "Ctb.C22_nontrivial_reduction_violated"
   ],
   "note": "For the shipped models (reduce and dereduce are the identity) and for any reduction that survives one extra dereduce. sample_aug applies dereduce twice: with reduce = log, dereduce = exp the observed values are lost (C22_nontrivial_reduction_violated)."
  },
  {
   "property": "C23",
   "status": "proved",
   "theorems": [
    "Ctb.C23_almost_surely",
    "Ctb.C23_recombine",
    "Ctb.C23_update"
   ],
   "note": "Any accept/reject pattern of any proposal that agrees at the cut times (all draws); C23_update derives the agreement for the whole update, for draws without ties or an exact zero (see C11); C23_almost_surely: these have probability one."
  },
  {
   "property": "C24",
   "status": "partial",
   "theorems": [
    "Ctb.C24_almost_surely",
    "Ctb.C24_init",
    "Ctb.C24_posterior",
    "Ctb.C24_run",
    "Ctb.C24_particles_partial",
    "Ctb.C24_mcem_violated"
   ],
   "note": "Holds for sample_posterior at every iteration (draws without ties, see C11; C24_almost_surely: these have probability one) and for maximize_posterior with thinning 1. Violated by maximize_posterior with n_thin = 2 (the default): update_particles returns the last kept anchorage while the regime sampler has moved on; C24_mcem_violated is a concrete run."
  },
  {
   "property": "C25",
   "status": "proved",
   "theorems": [
    "Ctb.C25_section",
    "Ctb.C25_update",
    "Ctb.C25_errors"
   ],
   "note": "section locality, assembly and error freedom of update_params; seeds are tracked through the coin flips"
  },
  {
   "property": "C26",
   "status": "partial",
   "theorems": [
    "Ctb.C26_almost_surely_partial",
    "Ctb.C26_violated",
    "Ctb.C26_partial"
   ],
   "note": "Violated: on observation grids of two or three times every update raises ValueError, because propose slices mod.t[1:-1] a second time (C26_violated). With at least four times an update raises nothing of its own (C26_partial, draws without ties; C26_almost_surely_partial: almost surely)."
  },
  {
   "property": "C27",
   "status": "partial",
   "theorems": [
    "Ctb.C27_ou",
    "Ctb.C27_ou2",
    "Ctb.C27_partial",
    "Ctb.C27_ou3_violated"
   ],
   "note": "proved for ou and ou2 and for every row-wise model; violated in ou3, where np.prod(thi[yt]) mixes the rows of all segments (witness C27_ou3_violated)"
  },
  {
   "property": "C28",
   "status": "proved",
   "theorems": [
    "Ctb.C28_results",
    "Ctb.C28_budget",
    "Ctb.C28_no_escape"
   ],
   "note": "Every outcome of two_coin / batch_two_coin that is not an exception of a coin itself is a verdict or the budget exception; support and budget characterised exactly. Coins are arbitrary programs with state."
  },
  {
   "property": "C29",
   "status": "proved",
   "theorems": [
    "Ctb.C29_accept_prob",
    "Ctb.C29_twocoin",
    "Ctb.C29_budget_prob",
    "Ctb.C29_conditional"
   ],
   "note": "Exact output probability of the loop for coins with constant success probabilities, with and without the budget, via the Prog.lexp semantics."
  },
  {
   "property": "C30",
   "status": "proved",
   "theorems": [
    "Ctb.C30_detailed_balance"
   ],
   "note": "Detailed balance of the acceptance odds, derived from the exact probabilities."
  },
  {
   "property": "C31",
   "status": "proved",
   "theorems": [
    "Ctb.C31_results",
    "Ctb.C31_accept_prob",
    "Ctb.C31_detailed_balance"
   ],
   "note": "The variant factory: results, acceptance probability, detailed balance."
  },
  {
   "property": "C32",
   "status": "proved",
   "theorems": [
    "Ctb.C32_const_of_reals",
    "Ctb.C32_reals_of_const",
    "Ctb.C32_jacobian",
    "Ctb.C32_outside"
   ],
   "note": "both round trips, Jacobian as a derivative, and NaN outside a one-sided bound"
  },
  {
   "property": "C33",
   "status": "partial",
   "theorems": [
    "Ctb.C33_partial",
    "Ctb.C33_violated"
   ],
   "note": "proved for coordinates without two finite bounds; with two finite bounds the code does not transform and leaves the box (C33_violated)"
  },
  {
   "property": "C34",
   "status": "proved",
   "theorems": [
    "Ctb.C34_triangular",
    "Ctb.C34_mv",
    "Ctb.C34_rw",
    "Ctb.C34_mjp",
    "Ctb.C34_changes"
   ],
   "note": "all three samplers; multivariate samples must be admissible for the log transform"
  },
  {
   "property": "C35",
   "status": "proved",
   "theorems": [
    "Ctb.C35_mv",
    "Ctb.C35_rw",
    "Ctb.C35_mjp",
    "Ctb.C35_tendsto",
    "Ctb.C35_diminishing"
   ],
   "note": ""
  },
  {
   "property": "C36",
   "status": "proved",
   "theorems": [
    "Ctb.C36_running_moments",
    "Ctb.C36_propose_defined"
   ],
   "note": "exact-real model; samples must be admissible for the log transform"
  },
  {
   "property": "C37",
   "status": "partial",
   "theorems": [
    "Ctb.C37_violated",
    "Ctb.C37_partial"
   ],
   "note": "the code always raises TypeError (C37_violated); the transform part is proved"
  },
  {
   "property": "C38",
   "status": "proved",
   "theorems": [
    "Ctb.C38_cdf_ppf",
    "Ctb.C38_ppf_zero",
    "Ctb.C38_ppf_cdf",
    "Ctb.C38_cdf_mono",
    "Ctb.C38_ppf_mono",
    "Ctb.C38_ends",
    "Ctb.C38_error"
   ],
   "note": "Distribution and quantile function of the bridge minimum are mutually inverse, monotone, take 0 and 1 at the bounds; errors classified; probability 0 without lower bound gives -inf."
  },
  {
   "property": "C39",
   "status": "proved",
   "theorems": [
    "Ctb.C39_zero",
    "Ctb.C39_brackets",
    "Ctb.C39_nested",
    "Ctb.C39_mirror"
   ],
   "note": "Layer 0 is the range of the end points, layers bracket it strictly inside the bounds, are strictly nested and mirror symmetric."
  },
  {
   "property": "C40",
   "status": "partial",
   "theorems": [
    "Ctb.C40_bridge_partial",
    "Ctb.C40_bridge_errors",
    "Ctb.C40_violated",
    "Ctb.C40_layer_partial",
    "Ctb.C40_touching",
    "Ctb.C40_layer_law",
    "Ctb.C40_layer_budget"
   ],
   "note": "Results lie where they should, errors are classified, the law of the layered rejection loop is given. Violated: without lower bound the uniform draw 0 gives -inf and a NaN time (C40_violated); an upper bound equal to an end point can never succeed (C40_touching)."
  },
  {
   "property": "C41",
   "status": "proved",
   "theorems": [
    "Ctb.C41_series",
    "Ctb.C41_images",
    "Ctb.C41_decision",
    "Ctb.C41_prob",
    "Ctb.C41_outside",
    "Ctb.C41_error"
   ],
   "note": "Series alternates around a limit in (0,1); the decision equals u < limit for all u apart from the limit itself; probability statement via lexp; images formula."
  },
  {
   "property": "C42",
   "status": "partial",
   "theorems": [
    "Ctb.C42_decision_partial",
    "Ctb.C42_prob_partial",
    "Ctb.C42_violated",
    "Ctb.C42_grid_partial"
   ],
   "note": "Exact (decision and probability) whenever the third partial sum of the bound's series is below 1; otherwise the conditional series is not alternating and the code can always answer True (C42_violated). C42_grid_partial: there the decision is the limit, along grids that get finer, of the fraction of simulated paths below the level among those below the bound."
  },
  {
   "property": "C43",
   "status": "proved",
   "theorems": [
    "Ctb.C43_series",
    "Ctb.C43_images",
    "Ctb.C43_decision",
    "Ctb.C43_prob",
    "Ctb.C43_outside"
   ],
   "note": "Bessel series: limit, fast forward, decision and probability for a = 0 and a > 0, escapes outside the barrier."
  },
  {
   "property": "C44",
   "status": "proved",
   "theorems": [
    "Ctb.C44_values",
    "Ctb.C44_flags",
    "Ctb.C44_below",
    "Ctb.C44_arguments"
   ],
   "note": "Length, band, flags (one per gap, at least one set) and the level condition for unflagged gaps, for every outcome of sample_layerbr; values are returned only for admissible arguments."
  },
  {
   "property": "C45",
   "status": "proved",
   "theorems": [
    "Ctb.C45_refines",
    "Ctb.C45_within",
    "Ctb.C45_ends",
    "Ctb.C45_positions"
   ],
   "note": "For every well-formed skeleton (times strictly increasing from 0) and every strictly increasing list of requested times, in both orientations: refinement, edges, end points, band."
  },
  {
   "property": "C46",
   "status": "partial",
   "theorems": [
    "Ctb.C46_known_partial",
    "Ctb.C46_flags_lost",
    "Ctb.C46_violated"
   ],
   "note": "Violated: fill_wiener_inner returns no flags when nothing is inserted, so a skeleton with hit flags loses them (C46_violated, C46_flags_lost). Proved: everything else is unchanged and the stored values are returned; the skeleton is unchanged when it has no flags."
  },
  {
   "property": "C47",
   "status": "proved",
   "theorems": [
    "Ctb.C47_flags",
    "Ctb.C47_some_flag",
    "Ctb.C47_sound"
   ],
   "note": "One flag per gap; flagged new gaps lie in flagged old gaps and every flagged old gap contains one; unflagged gaps stay short of the hitting level. Both orientations."
  },
  {
   "property": "C48",
   "status": "proved",
   "theorems": [
    "Ctb.C48_involution",
    "Ctb.C48_mirror",
    "Ctb.C48_reverse",
    "Ctb.C48_reflect",
    "Ctb.C48_errors"
   ],
   "note": "Flipping a well-formed skeleton never fails and is an involution; mirror description of times, values, edges and flags; reverse and reflect are involutions; exact error conditions."
  },
  {
   "property": "C49",
   "status": "partial",
   "theorems": [
    "Ctb.C49_wellformed",
    "Ctb.C49_lower_partial",
    "Ctb.C49_symmetric_partial",
    "Ctb.C49_mirror_partial",
    "Ctb.C49_violated"
   ],
   "note": "Violated: sample_raw_skeleton ignores the side drawn by sample_anchor and reflects with probability 1/2 at (init_x+fin_x)/2, so with asymmetric bounds the skeleton may leave them (C49_violated). Proved: well-formedness, unreflected skeletons respect bounds, symmetric bounds are respected, in general bounds or their mirror image."
  },
  {
   "property": "C50",
   "status": "proved",
   "theorems": [
    "Ctb.C50_wiener",
    "Ctb.C50_brownbr",
    "Ctb.C50_wiener_law",
    "Ctb.C50_brownbr_law",
    "Ctb.C50_errors"
   ],
   "note": "Both samplers are affine in iid standard normal draws with offset and Gram matrix equal to the moments functions; joint moment generating function; error cases."
  },
  {
   "property": "C51",
   "status": "proved",
   "theorems": [
    "Ctb.C51_bridge"
   ],
   "note": "Any interior grid, sorted or not, any drift."
  },
  {
   "property": "C52",
   "status": "proved",
   "theorems": [
    "Ctb.C52_root",
    "Ctb.C52_min",
    "Ctb.C52_errors"
   ],
   "note": "Value, time and quantile of the seeded minimum; both roots of the Wald equation; rejected inputs."
  },
  {
   "property": "C53",
   "status": "proved",
   "theorems": [
    "Ctb.C53_brackets",
    "Ctb.C53_grid",
    "Ctb.C53_errors",
    "Ctb.C53_integral",
    "Ctb.C53_ito_ou",
    "Ctb.C53_switching_ou"
   ],
   "note": "Brackets on every grid, errors, integral of the lower bound; instances for the ito and switching OU models."
  },
  {
   "property": "C54",
   "status": "proved",
   "theorems": [
    "Ctb.C54_seed",
    "Ctb.C54_path",
    "Ctb.C54_skeleton",
    "Ctb.C54_skeleton_path",
    "Ctb.C54_almost_surely",
    "Ctb.C54_skeleton_almost_surely"
   ],
   "note": "For generic draws with the interpolation of the source (seed and skeleton), and as an equality of probabilities for a path fixed in advance. C54_almost_surely, C54_skeleton_almost_surely: with probability one."
  },
  {
   "property": "C55",
   "status": "proved",
   "theorems": [
    "Ctb.C55_coin",
    "Ctb.C55_ito",
    "Ctb.C55_ou",
    "Ctb.C55_ou2",
    "Ctb.C55_ou3",
    "Ctb.C55_ito_bound",
    "Ctb.C55_ou_bound",
    "Ctb.C55_ou2_bound",
    "Ctb.C55_ou3_bound",
    "Ctb.C55_law",
    "Ctb.C55_ito_law",
    "Ctb.C55_ou_law",
    "Ctb.C55_ou2_law",
    "Ctb.C55_ou3_law"
   ],
   "note": "The intensity dominates the gap for the ito OU model and the three switching OU models; the coin with and without its internal assertion has the same generic runs (draws without exact ties). C55_law, C55_ito_law, C55_ou_law, C55_ou2_law, C55_ou3_law: the coin has the same law with and without the assertion."
  },
  {
   "property": "C56",
   "status": "partial",
   "theorems": [
    "Ctb.C56_seed_partial",
    "Ctb.C56_skeleton_partial",
    "Ctb.C56_violated",
    "Ctb.C56_infinite"
   ],
   "note": "Unbiasedness proved for a path fixed in advance when the lower bound is below the upper one (C56_seed_partial, C56_skeleton_partial); it fails for constant discriminants (AssertionError, C56_violated) and for infinite upper bounds (C56_infinite)."
  },
  {
   "property": "C57",
   "status": "proved",
   "theorems": [
    "Ctb.C57_ito",
    "Ctb.C57_switching_ou",
    "Ctb.C57_switching_ou2",
    "Ctb.C57_switching_ou3"
   ],
   "note": "BoundsExact: exact least/greatest value on [le,ue] and a global lower bound, for the four OU models (positive parameters where a division by them occurs)."
  },
  {
   "property": "C58",
   "status": "partial",
   "theorems": [
    "Ctb.C58_exact",
    "Ctb.C58_partial",
    "Ctb.C58_global",
    "Ctb.C58_violated"
   ],
   "note": "C58_exact: for positive parameters the bounds bracket the discriminant iff not (4*kappa*mu < sigma^2 and the minimiser is strictly inside the interval); C58_partial: sound when sigma^2 <= 4*kappa*mu; C58_global: first component is the global minimum; C58_violated: kappa=mu=1, sigma=4 on [1/4,4]."
  },
  {
   "property": "C59",
   "status": "partial",
   "theorems": [
    "Ctb.C59_violated",
    "Ctb.C59_equal",
    "Ctb.C59_no_verdict",
    "Ctb.C59_ou_partial"
   ],
   "note": "Violated: the CIR coin flip raises for every pair of distinct parameters (C59_violated, C59_no_verdict); equal parameters raise as well (C59_equal). The OU intensity is positive (C59_ou_partial)."
  },
  {
   "property": "C60",
   "status": "proved",
   "theorems": [
    "Ctb.C60_ito",
    "Ctb.C60_switching"
   ],
   "note": "Both packages: one pair per gap, built from the gap and the reduced data at its ends, mutually inverse (with and without values), endpoints to 0, [0,dt] to [0,1]."
  },
  {
   "property": "C61",
   "status": "partial",
   "theorems": [
    "Ctb.C61_ito_ou",
    "Ctb.C61_ito_cir",
    "Ctb.C61_switching_ou",
    "Ctb.C61_switching_ou2",
    "Ctb.C61_partial",
    "Ctb.C61_violated"
   ],
   "note": "Holds for ito OU, ito CIR (positive states), switching ou and ou2. C61_violated: switching ou3, every non-zero parameters: sx/dx belong to half the drift (C61_partial)."
  },
  {
   "property": "C62",
   "status": "proved",
   "theorems": [
    "Ctb.C62_inside",
    "Ctb.C62_zero"
   ],
   "note": "C62_inside (strict containment at every time), C62_zero (the seed bounds are on either side of 0 when the data lie inside the state space)."
  },
  {
   "property": "C63",
   "status": "proved",
   "theorems": [
    "Ctb.C63_next",
    "Ctb.C63_grows",
    "Ctb.C63_ito",
    "Ctb.C63_switching",
    "Ctb.C63_stuck"
   ],
   "note": "Growth and divergence of the counts (C63_grows), and the counts of every run of both EM loops (C63_ito, C63_switching). C63_stuck: learning rate 1/2 never grows."
  },
  {
   "property": "C64",
   "status": "proved",
   "theorems": [
    "Ctb.C64_particles",
    "Ctb.C64_reachable",
    "Ctb.C64_no_thinning"
   ],
   "note": "Chain of updates, states after update 1, 1+thin, ...; both packages use the same loop (a switching particle is a pair with the sampler state)."
  },
  {
   "property": "C65",
   "status": "partial",
   "theorems": [
    "Ctb.C65_switching",
    "Ctb.C65_partial",
    "Ctb.C65_violated"
   ],
   "note": "Holds for switching (C65_switching). Violated for ito, whose loop passes init_thi to every iteration (C65_violated); C65_partial says what holds there."
  },
  {
   "property": "C66",
   "status": "proved",
   "theorems": [
    "Ctb.C66_buffered",
    "Ctb.C66_error"
   ],
   "note": "Coordinatewise, for bounds of equal length (None: infinite); different lengths raise ValueError (C66_error)."
  },
  {
   "property": "C67",
   "status": "partial",
   "theorems": [
    "Ctb.C67_hidden_coins",
    "Ctb.C67_param_coins",
    "Ctb.C67_accept_prob",
    "Ctb.C67_switching_params",
    "Ctb.C67_switching_section",
    "Ctb.C67_hidden_accept_prob",
    "Ctb.C67_switching_hidden",
    "Ctb.C67_ito_violated",
    "Ctb.C67_ito_partial",
    "Ctb.C67_ito_never_returns"
   ],
   "note": "proved for both updates of the switching package; violated in ito, whose precoin omits the likelihood (C67_ito_violated); ito never reaches the decision because the scalar proposal raises (C67_ito_never_returns)"
  },
  {
   "property": "C68",
   "status": "proved",
   "theorems": [
    "Ctb.C68_sandwich",
    "Ctb.C68_values",
    "Ctb.C68_breaks"
   ],
   "note": "Exact values of both hulls are given too. Breakpoints are shown to exist for strictly concave f; with equal slopes of neighbouring tangents numpy divides by zero (model error nan)."
  },
  {
   "property": "C69",
   "status": "proved",
   "theorems": [
    "Ctb.C69_squeeze",
    "Ctb.C69_decision",
    "Ctb.C69_accept",
    "Ctb.C69_same_law"
   ],
   "note": "Pointwise for every decision, and as equality of the distribution of a whole pass. C69_accept: the decision and the hull after it, in terms of the draw, the density and the envelope."
  },
  {
   "property": "C70",
   "status": "proved",
   "theorems": [
    "Ctb.C70_step",
    "Ctb.C70_loop",
    "Ctb.C70_sample",
    "Ctb.C70_strict_step",
    "Ctb.C70_strict",
    "Ctb.C70_almost_surely"
   ],
   "note": "Any draws: sorted, matching values, size limit, exact count. Strict increase and support membership need that no uniform draw is exactly 0 (the index then wraps to the last row). C70_almost_surely: draws of zero have probability zero."
  },
  {
   "property": "C71",
   "status": "proved",
   "theorems": [
    "Ctb.C71_draw",
    "Ctb.C71_law"
   ],
   "note": "Hulls with finite envelope mass; stated with the integral of the exponential of the lowest tangent. The law of the draw is given as well."
  },
  {
   "property": "C72",
   "status": "partial",
   "theorems": [
    "Ctb.C72_shapes",
    "Ctb.C72_partial",
    "Ctb.C72_violated"
   ],
   "note": "C72_shapes: grid = multiples k*res, ceil(fin_t/res) of them; floor(fin_t/res)+1 columns, first = init_x, each an Euler step of the one before. C72_partial: the lengths agree iff res does not divide fin_t. C72_violated: fin_t=1, res=1/1000 gives 1000 grid entries for 1001 columns on every run."
  },
  {
   "property": "C73",
   "status": "partial",
   "theorems": [
    "Ctb.C73_partial",
    "Ctb.C73_schedules",
    "Ctb.C73_finishes",
    "Ctb.C73_hidden",
    "Ctb.C73_violated"
   ],
   "note": "C73_partial/C73_schedules: tasks that only use their own spawned generator return, under any interleaving, worker assignment and global states, what they return alone (C73_hidden: update_hidden sections); C73_finishes: every schedule extends to a finishing one. C73_violated: update_params sections draw the proposal from the global np.random (misc/adapt.py:71), so schedule and worker assignment change the results."
  },
  {
   "property": "C74",
   "status": "partial",
   "theorems": [
    "Ctb.C74_violated",
    "Ctb.C74_partial",
    "Ctb.C74_recursion",
    "Ctb.C74_cov_violated"
   ],
   "note": "the doctest claim is false (C74_violated); the mean update is right when n counts the new observation; the covariance update is not the sample covariance for any n passed and any number of observations (C74_cov_violated), the right recursion is C74_recursion"
  },
  {
   "property": "C75",
   "status": "proved",
   "theorems": [
    "Ctb.C75_iid",
    "Ctb.C75_returns"
   ],
   "note": "Strictly concave f, starting hull with finite envelope mass."
  },
  {
   "property": "C76",
   "status": "partial",
   "theorems": [
    "Ctb.C76_partial",
    "Ctb.C76_violated"
   ],
   "note": "Proved when the mode is an interior stationary point. C76_violated: with a boundary mode (exponential density on (0,inf)) the sampler cannot start."
  },
  {
   "property": "C77",
   "status": "partial",
   "theorems": [
    "Ctb.C77_partial",
    "Ctb.C77_violated",
    "Ctb.C77_cir",
    "Ctb.C77_cir_violated"
   ],
   "note": "ito OU: the volatility component is the derivative, the mean-reversion component is off by -1/2 at every argument (C77_violated). CIR: eval_grad returns zeros, the derivative in the mean reversion is computed in C77_cir and not zero (C77_cir_violated)."
  },
  {
   "property": "C78",
   "status": "partial",
   "theorems": [
    "Ctb.C78_decision_partial",
    "Ctb.C78_prob_partial",
    "Ctb.C78_violated",
    "Ctb.C78_grid_partial",
    "Ctb.C78_grid_above_partial"
   ],
   "note": "C78_violated: a concrete instance where the bounded Bessel decision is wrong. C78_decision_partial and C78_prob_partial: exact for bridges from a positive value and for durations below 3*ue_x^2 whenever the third partial sum of the bound's series is below 1. C78_grid_partial, C78_grid_above_partial: there the decision is the limit of the corresponding fractions of paths simulated on finer and finer grids."
  },
  {
   "property": "C79",
   "status": "proved",
   "theorems": [
    "Ctb.C79_sides",
    "Ctb.C79_probability",
    "Ctb.C79_first",
    "Ctb.C79_law",
    "Ctb.C79_tail",
    "Ctb.C79_antitone",
    "Ctb.C79_law_bounded",
    "Ctb.C79_ends",
    "Ctb.C79_seed"
   ],
   "note": "Distribution function of the layer for all bounds of the state space (killed and confined Brownian densities), termination with the probability that a seed is accepted, the sides of the anchor equally likely in every layer; first layer whose escape probability is below the seed."
  },
  {
   "property": "C80",
   "status": "proved",
   "theorems": [
    "Ctb.C80_pivot",
    "Ctb.C80_law"
   ],
   "note": "Equality of programs (hence of laws) for the default time maps."
  },
  {
   "property": "C81",
   "status": "partial",
   "theorems": [
    "Ctb.C81_close_partial",
    "Ctb.C81_constant_partial",
    "Ctb.C81_violated"
   ],
   "note": "False for every batch size, duration and bounds: C81_violated gives a path accepted with too large a probability, because the batches of sample_batch_ppp are spaced independently. Exact when the discriminant is constant along the path (C81_constant_partial); in general within the probability that the number of points exceeds one batch (C81_close_partial)."
  },
  {
   "property": "C82",
   "status": "proved",
   "theorems": [
    "Ctb.C82_forward_law",
    "Ctb.C82_end_state",
    "Ctb.C82_terminates",
    "Ctb.C82_stationary"
   ],
   "note": "Joint law of end state, jump counts and occupation times (Laplace transform, all weights), end state, termination with probability one and stationarity. At least two states (one state raises ValueError, C06_single_state_error)."
  },
  {
   "property": "C83",
   "status": "proved",
   "theorems": [
    "Ctb.C83_bridge_law",
    "Ctb.C83_is_conditioned_forward",
    "Ctb.C83_terminates",
    "Ctb.C83_backwards_law"
   ],
   "note": "Joint law of jump counts and occupation times given the end state (Laplace transform, all weights), equal to C82's law conditioned on the end state; termination; law of sample_backwards (uniform initial law). Zero uniform draws and ties have probability zero."
  },
  {
   "property": "C84",
   "status": "partial",
   "theorems": [
    "Ctb.C84_first_state_law",
    "Ctb.C84_violated",
    "Ctb.C84_interior_partial",
    "Ctb.C84_first_piece_partial"
   ],
   "note": "C84_violated: for two states left at rates 1 and 3 the initial law changes. C84_first_state_law gives the law of the first state after one cut for every generator. Proved: interior pieces keep their law (C84_interior_partial), the first piece keeps its law under a uniform initial law (C84_first_piece_partial); the last piece is C82."
  },
  {
   "property": "C85",
   "status": "proved",
   "theorems": [
    "Ctb.C85_density_ratio",
    "Ctb.C85_update_reversible",
    "Ctb.C85_update_invariant"
   ],
   "note": "C85_density_ratio: reweighting by the reported ratio exchanges current value and proposal. C85_update_reversible and C85_update_invariant: detailed balance of the row update. The coins are assumed to have a fixed heads probability on an invariant set of seeds; C67_hidden_coins and C67_param_coins derive this for a section from its segments."
  },
  {
   "property": "C86",
   "status": "proved",
   "theorems": [
    "Ctb.C86_code_law",
    "Ctb.C86_code_importance",
    "Ctb.C86_code_ou",
    "Ctb.C86_code_ou2",
    "Ctb.C86_outputs",
    "Ctb.C86_aug_law",
    "Ctb.C86_importance",
    "Ctb.C86_first_output"
   ],
   "note": "For reduce = dereduce = identity (all shipped models; otherwise see C22) and potentials acting element by element (ou, ou2; ou3 see C87). Regime changes do not coincide with observation times (probability one). C86_aug_law: law of sample_aug. C86_outputs: pointwise value of the weight. C86_importance: the importance identity, for every test function whose seed average is measurable in the anchors. C86_code_law, C86_code_importance: with sample_raw_seed as the source of seeds this holds for every measurable test function; C86_code_ou, C86_code_ou2: for the shipped models, no hypothesis on measurability left but that of the test function."
  },
  {
   "property": "C87",
   "status": "partial",
   "theorems": [
    "Ctb.C87_sections_partial",
    "Ctb.C87_ou3_violated"
   ],
   "note": "C87_ou3_violated: ou3 multiplies the parameters of all segments it is given, so the sum over sections differs from the whole. Proved for element-wise potentials (ou, ou2): C87_sections_partial."
  },
  {
   "property": "C88",
   "status": "proved",
   "theorems": [
    "Ctb.C88_ito",
    "Ctb.C88_ito_ties",
    "Ctb.C88_ito_no_supports",
    "Ctb.C88_switching",
    "Ctb.C88_switching_ties"
   ],
   "note": "Seeds satisfying SeedOk and supports without ties (C88_ito_ties, C88_switching_ties: ties have probability zero). minimize itself is not modelled. M.disc is total: CIR at a path value of 0 is not NaN as in numpy."
  },
  {
   "property": "C89",
   "status": "proved",
   "theorems": [
    "Ctb.C89_ito",
    "Ctb.C89_switching"
   ],
   "note": "Conditional on the path: interpolation answers with the values of a fixed path (FixedPaths). The discriminant is integrable and bounded below along the path."
  },
  {
   "property": "C90",
   "status": "partial",
   "theorems": [
    "Ctb.C90_separates",
    "Ctb.C90_reported_partial",
    "Ctb.C90_violated"
   ],
   "note": "C90_violated: f_obj adds the log prior of the whole matrix for each regime, so the reported value counts the prior K times, K-1 of them with rows of the old matrix. C90_separates: each regime objective depends on its own row only, up to the prior. C90_reported_partial: exact value reported, for models acting row by row (ou, ou2)."
  },
  {
   "property": "C91",
   "status": "proved",
   "theorems": [
    "Ctb.C91_law",
    "Ctb.C91_mass",
    "Ctb.C91_density",
    "Ctb.C91_proper"
   ],
   "note": "For lb below ub, ub at most min(a,b); the joint density is Spec/BridgeMin.minDens, built from first-passage densities."
  },
  {
   "property": "C92",
   "status": "proved",
   "theorems": [
    "Ctb.C92_law",
    "Ctb.C92_wald"
   ],
   "note": "The seeds are drawn from their laws in the order u0, u2, r2, u1; the draws are independent, so their order does not matter."
  },
  {
   "property": "C93",
   "status": "proved",
   "theorems": [
    "Ctb.C93_law",
    "Ctb.C93_mass",
    "Ctb.C93_positive"
   ],
   "note": "Times as cumulative sums of positive durations (grid_surj: every increasing list). Densities entrDens, killDens in Spec/Kernel."
  },
  {
   "property": "C94",
   "status": "proved",
   "theorems": [
    "Ctb.C94_law",
    "Ctb.C94_from_infimum",
    "Ctb.C94_to_infimum",
    "Ctb.C94_kernel",
    "Ctb.C94_mass",
    "Ctb.C94_returns"
   ],
   "note": "inf_x strictly below one end point at least; inf_x equal to both end points (an excursion) is not covered. C94_kernel ties the kernel to the law of the minimum of C91."
  },
  {
   "property": "C95",
   "status": "proved",
   "theorems": [
    "Ctb.C95_from_infimum",
    "Ctb.C95_to_infimum",
    "Ctb.C95_upper",
    "Ctb.C95_limit",
    "Ctb.C95_mass",
    "Ctb.C95_entrance_mass",
    "Ctb.C95_kernel",
    "Ctb.C95_split",
    "Ctb.C95_returns",
    "Ctb.C95_distance"
   ],
   "note": "sup_x_max given, sup_x_min not given. The budgets of the rejection loops are explicit, so the interior case is an upper bound, a limit and a distance rather than an equality at finite budget. Kernels in Spec/Strip by the method of images; C95_kernel ties them to the escape series of C43."
  },
  {
   "property": "C96",
   "status": "partial",
   "theorems": [
    "Ctb.C96_lik_ou",
    "Ctb.C96_lik_cir",
    "Ctb.C96_matches",
    "Ctb.C96_ou_concave",
    "Ctb.C96_ou_law",
    "Ctb.C96_ou_returns",
    "Ctb.C96_cir_concave",
    "Ctb.C96_cir_partial",
    "Ctb.C96_violated"
   ],
   "note": "Holds for OU (needs the optimiser within 1 of the mode) and for CIR with sigma^2 <= 4 kappa mu (C96_cir_partial). Violated for CIR with 4 kappa mu < sigma^2, which bounds_thi admits: the log density is not concave and unbounded at zero, and no starting points give an envelope (C96_violated). The likelihood part holds for both models."
  },
  {
   "property": "C97",
   "status": "partial",
   "theorems": [
    "Ctb.C97_law",
    "Ctb.C97_budget",
    "Ctb.C97_iid",
    "Ctb.C97_sde_law",
    "Ctb.C97_sde_iid",
    "Ctb.C97_sde_mass",
    "Ctb.C97_stream_paths",
    "Ctb.C97_paths",
    "Ctb.C97_violated",
    "Ctb.C97_free_iid",
    "Ctb.C97_free_ou",
    "Ctb.C97_free_cir",
    "Ctb.C97_almost_surely"
   ],
   "note": "Law, budget, independence and end points hold. C97_sde_law, C97_sde_iid, C97_sde_mass are for the library's sampler between given ends, with no hypothesis beyond measurability of the model, which both models satisfy: the skeleton returned is an accepted proposal times the expected number of rounds, paths are independent. C97_free_iid, C97_free_ou, C97_free_cir are for a free end, in the limit of unbounded passes of the adaptive rejection sampler: independent paths, each an accepted proposal whose end has the density in proportion to exp(A(x) - (x-x0)^2/2T), normal for OU; they need the conditions of C96 on the hull. C97_law, C97_budget, C97_iid are for any stream of end points whose rounds are trials (IsTrial). The theorem on paths is for distinct draws (C97_almost_surely: with probability one). The last clause is violated for CIR with 4 kappa mu < 3 sigma^2, which bounds_thi admits: eval_bounds_disc returns NaN as centre, every coin fails its assertion and no path is ever returned (C97_violated)."
  },
  {
   "property": "C98",
   "status": "proved",
   "theorems": [
    "Ctb.C98_coins",
    "Ctb.C98_submodel",
    "Ctb.C98_accept",
    "Ctb.C98_reversible",
    "Ctb.C98_independent",
    "Ctb.C98_bridges",
    "Ctb.C98_seeds",
    "Ctb.C98_joint_never_returns",
    "Ctb.C98_almost_surely"
   ],
   "note": "Reversibility is stated for coins with a fixed probability given what a seed represents (C81 gives the probability for a fixed path). update_joint never reaches the bridges as the code stands, because the scalar proposal raises TypeError (C98_joint_never_returns, C37). C98_almost_surely: the theorem on seeds holds with probability one."
  },
  {
   "property": "C99",
   "status": "partial",
   "theorems": [
    "Ctb.C99_law",
    "Ctb.C99_posterior_partial",
    "Ctb.C99_posterior_violated"
   ],
   "note": "Violated: C99_posterior_violated, a process that stays in its state over [0,1] with unit hyper-parameters; update drops the time after the last jump (C17). C99_law is the exact law of sample_param. C99_posterior_partial: update_generator draws exactly from the posterior given the path up to its last jump, normalising constant finite and positive."
  },
  {
   "property": "C100",
   "status": "proved",
   "theorems": [
    "Ctb.C100_section",
    "Ctb.C100_reversible",
    "Ctb.C100_update"
   ],
   "note": "Reversibility is stated for coins with a fixed probability given what the seeds of a section represent (C81), and given the cut times and the regimes at them, which the proposal keeps (C11)."
  },
  {
   "property": "C101",
   "status": "partial",
   "theorems": [
    "Ctb.C101_ou",
    "Ctb.C101_ou_mass",
    "Ctb.C101_cir",
    "Ctb.C101_cir_mass",
    "Ctb.C101_switch",
    "Ctb.C101_support",
    "Ctb.C101_boundary_violated"
   ],
   "note": "Violated on the boundary: C101_boundary_violated, a parameter that is exactly zero is not caught by the test for negative entries and the log prior is NaN. C101_ou, C101_switch and C101_cir are the exact laws, C101_support covers the inside and the outside."
  },
  {
   "property": "C102",
   "status": "proved",
   "theorems": [
    "Ctb.C102_start",
    "Ctb.C102_trial",
    "Ctb.C102_trial_no_error",
    "Ctb.C102_trial_law"
   ],
   "note": ""
  },
  {
   "property": "C103",
   "status": "proved",
   "theorems": [
    "Ctb.C103_pieces",
    "Ctb.C103_count",
    "Ctb.C103_error"
   ],
   "note": ""
  },
  {
   "property": "C104",
   "status": "partial",
   "theorems": [
    "Ctb.C104_ito_partial",
    "Ctb.C104_switching_partial",
    "Ctb.C104_violated",
    "Ctb.C104_ito_returns",
    "Ctb.C104_switching_returns"
   ],
   "note": "Violated for switching: C104_violated, with a change of regime between two observations the expectation is the augmented likelihood times exp(b), b the second output of eval_biased_loglik. C104_switching_partial gives the expectation in general; C104_ito_partial is unbiasedness for ito when the bounds on a nondegenerate interval are finite and differ (C56 covers the failure otherwise). C104_ito_returns, C104_switching_returns: what every run returns, the seeds included."
  },
  {
   "property": "C105",
   "status": "partial",
   "theorems": [
    "Ctb.C105_information_partial",
    "Ctb.C105_boundary",
    "Ctb.C105_beyond",
    "Ctb.C105_ito_partial",
    "Ctb.C105_switching_partial",
    "Ctb.C105_unbiased",
    "Ctb.C105_louis",
    "Ctb.C105_buffer_violated",
    "Ctb.C105_switching_violated",
    "Ctb.C105_single_violated"
   ],
   "note": "numdifftools derivatives are taken as exact. Violated in three corners: C105_buffer_violated (a parameter between a bound and the buffered bound: the clipped objective is constant, the information singular, LinAlgError), C105_switching_violated (bounds None are made for as many parameters as regimes: ValueError), C105_single_violated (one particle and several parameters: np.cov of the squeezed gradient is the variance over its components). Everything else is proved: C105_information_partial, C105_ito_partial, C105_switching_partial, C105_boundary, C105_beyond, C105_unbiased, C105_louis."
  },
  {
   "property": "C106",
   "status": "proved",
   "theorems": [
    "Ctb.C106_errors",
    "Ctb.C106_values",
    "Ctb.C106_square",
    "Ctb.C106_three",
    "Ctb.C106_one",
    "Ctb.C106_bridge",
    "Ctb.C106_seeded",
    "Ctb.C106_seeded_law",
    "Ctb.C106_seeded_errors"
   ],
   "note": "C106_square characterises the marginal law by its Laplace transform at every positive argument. The joint law is derived for dimension 3 without drift (the only one used) and dimension 1; C106_bridge is for the start 0 and dimension 3."
  },
  {
   "property": "C107",
   "status": "partial",
   "theorems": [
    "Ctb.C107_empty_violated",
    "Ctb.C107_gap_violated",
    "Ctb.C107_width_violated",
    "Ctb.C107_end_violated",
    "Ctb.C107_violated",
    "Ctb.C107_partial"
   ],
   "note": "Violated: with two new times in a gap (C107_violated, as in the documentation; C107_gap_violated in general), with rows of another width than 1 (C107_width_violated), with a new time at the end of the path, which the assertion admits (C107_end_violated), and without new times (C107_empty_violated) no result is returned. C107_partial: one column and at most one new time strictly inside every gap, then the program is the reference with independent bridge points."
  },
  {
   "property": "C108",
   "status": "partial",
   "theorems": [
    "Ctb.C108_law",
    "Ctb.C108_exact_partial",
    "Ctb.C108_budget",
    "Ctb.C108_iid",
    "Ctb.C108_rounds",
    "Ctb.C108_code_iid",
    "Ctb.C108_errors",
    "Ctb.C108_capped",
    "Ctb.C108_violated"
   ],
   "note": "Violated when lower bounds of the discriminant are negative: exp(w) exceeds 1 and the acceptance is clipped at 1 (C108_capped in general, C108_violated for the Ornstein-Uhlenbeck bridge from 2 to 2). C108_rounds and C108_code_iid are for the library's sampler without further hypotheses: the seed returned is an accepted proposal times the expected number of rounds, bridges are independent. C108_law gives the law with min(1, exp(w)), C108_exact_partial the stated density when no weight is positive, given that coin and proposals represent points of a space of paths (SeedLaw, as in C98); C108_budget, C108_iid, C108_errors."
  },
  {
   "property": "C109",
   "status": "partial",
   "theorems": [
    "Ctb.C109_values_partial",
    "Ctb.C109_beyond",
    "Ctb.C109_seed_beyond",
    "Ctb.C109_before",
    "Ctb.C109_nothing",
    "Ctb.C109_stored",
    "Ctb.C109_order_violated",
    "Ctb.C109_repeat_violated",
    "Ctb.C109_fresh_violated",
    "Ctb.C109_seed_partial",
    "Ctb.C109_seed_order_violated"
   ],
   "note": "Violated for times out of order (C109_order_violated, C109_seed_order_violated), for repeated times (C109_repeat_violated) and for repeated calls (C109_fresh_violated). C109_values_partial and C109_seed_partial prove the values for strictly increasing times, C109_stored gives the result at stored times exactly, C109_beyond, C109_seed_beyond, C109_before the errors."
  },
  {
   "property": "C110",
   "status": "proved",
   "theorems": [
    "Ctb.C110_bounds",
    "Ctb.C110_strip",
    "Ctb.C110_escape",
    "Ctb.C110_half",
    "Ctb.C110_cdf",
    "Ctb.C110_minimum",
    "Ctb.C110_layer",
    "Ctb.C110_bessel",
    "Ctb.C110_from_infimum",
    "Ctb.C110_equal"
   ],
   "note": "C110_bounds holds for every grid; C110_escape, C110_cdf, C110_minimum, C110_layer, C110_bessel and C110_from_infimum are the limits. Decisions without an upper bound `ub_x`; with one see C42, C78."
  },
  {
   "property": "C111",
   "status": "proved",
   "theorems": [
    "Ctb.C111_edges",
    "Ctb.C111_law",
    "Ctb.C111_limit",
    "Ctb.C111_mass",
    "Ctb.C111_total",
    "Ctb.C111_proper",
    "Ctb.C111_sides",
    "Ctb.C111_low",
    "Ctb.C111_both"
   ],
   "note": "C111_law is exact for every budget, C111_limit its limit; C111_mass, C111_total, C111_sides, C111_low and C111_both identify the masses with those of bridges. Without bounds lb_x, ub_x; the rate at which a layer succeeds within the budget is explicit in rawOk."
  },
  {
   "property": "C112",
   "status": "proved",
   "theorems": [
    "Ctb.C112_length",
    "Ctb.C112_first_side",
    "Ctb.C112_first",
    "Ctb.C112_first_le",
    "Ctb.C112_low",
    "Ctb.C112_high",
    "Ctb.C112_mirror"
   ],
   "note": "C112_first_side, C112_first, C112_low, C112_high: limits over the budgets, with a finite budget bound in C112_first_le; C112_mirror: interpolation commutes with mirror images. Without bounds lb_x, ub_x. Skeletons with set flags are excluded: their interpolation is not exact (C78)."
  },
  {
   "property": "C113",
   "status": "proved",
   "theorems": [
    "Ctb.C113_law",
    "Ctb.C113_marginal",
    "Ctb.C113_total",
    "Ctb.C113_rounds",
    "Ctb.C113_rounds_max",
    "Ctb.C113_flags_needed"
   ],
   "note": "C113_law, C113_marginal, C113_total: conditional law of one round, for a minimum. C113_rounds, C113_rounds_max: two rounds equal one, for a minimum and a maximum. Proviso: flags absent or the first round contains a new time; C113_flags_needed proves that without it the laws differ, since a round at known times drops the flags. Skeletons with set flags are excluded: their interpolation is not exact (C78)."
  },
  {
   "property": "C114",
   "status": "proved",
   "theorems": [
    "Ctb.C114_ars",
    "Ctb.C114_endpoints",
    "Ctb.C114_sdeFree",
    "Ctb.C114_library_sdeFree",
    "Ctb.C114_itoObjective",
    "Ctb.C114_itoEm",
    "Ctb.C114_swObjective",
    "Ctb.C114_swEm",
    "Ctb.C114_forwards",
    "Ctb.C114_jumpBridge",
    "Ctb.C114_backwards",
    "Ctb.C114_mutate",
    "Ctb.C114_mjpPropose",
    "Ctb.C114_partition",
    "Ctb.C114_sampleParam",
    "Ctb.C114_trialGenerator",
    "Ctb.C114_wienerVec",
    "Ctb.C114_bessel",
    "Ctb.C114_fillVec",
    "Ctb.C114_euler",
    "Ctb.C114_minimum",
    "Ctb.C114_brownEsc",
    "Ctb.C114_besEsc",
    "Ctb.C114_layerMin",
    "Ctb.C114_layer",
    "Ctb.C114_edges",
    "Ctb.C114_wiener",
    "Ctb.C114_brownbr",
    "Ctb.C114_besselbr",
    "Ctb.C114_layerbr",
    "Ctb.C114_rawSkel",
    "Ctb.C114_interpolate",
    "Ctb.C114_interpolateSeed",
    "Ctb.C114_skelCoin",
    "Ctb.C114_seedCoin",
    "Ctb.C114_sde",
    "Ctb.C114_seedBridge",
    "Ctb.C114_compl",
    "Ctb.C114_union",
    "Ctb.C114_bind",
    "Ctb.C114_switchAug",
    "Ctb.C114_hiddenSection",
    "Ctb.C114_updateHidden",
    "Ctb.C114_initHidden",
    "Ctb.C114_gibbsGenerator",
    "Ctb.C114_rwPropose",
    "Ctb.C114_updateParams",
    "Ctb.C114_updateJoint",
    "Ctb.C114_samplePosterior",
    "Ctb.C114_library_posterior",
    "Ctb.C114_itoAug",
    "Ctb.C114_sdeBridge",
    "Ctb.C114_updateSde",
    "Ctb.C114_itoEst",
    "Ctb.C114_itoCoin",
    "Ctb.C114_itoParamCoin",
    "Ctb.C114_swParamCoin",
    "Ctb.C114_ppp",
    "Ctb.C114_skelCall",
    "Ctb.C114_seedCall",
    "Ctb.C114_library_paramCoins",
    "Ctb.C114_library_updateSde"
   ],
   "note": "HasLaw: exactly one Markov kernel from arguments to results and exceptions whose integrals are the expectations of the program. Proved for the samplers named, and (UpdateLaws) for augmentations, coins between parameters, Poisson estimates and the update of the bridges in ito/mcmc.py, jointly in parameters, data and seeds, with the hypotheses on the model discharged for all shipped models. Loops with a budget (n, F, k) have their budget as a fixed argument. JumpLaws: jump processes forwards, backwards and between given states, mutation of partitions, proposals of regime paths, generators, vector Wiener and Bessel paths, their interpolation, the Euler scheme. SwitchLaws: augmentation, update_hidden, update_params, update_generator and n iterations of sample_posterior of the switching package, for the three shipped models and every measurable factorisation of covariances. EmLaws: adaptive rejection sampling with its hull, end points and diffusions with a free end, the objective and the iterations of Monte Carlo EM in both packages, where scipy's optimiser is an arbitrary measurable function of what the objective captures."
  },
  {
   "property": "C115",
   "status": "proved",
   "theorems": [
    "Ctb.C115_rounds",
    "Ctb.C115_total",
    "Ctb.C115_coin",
    "Ctb.C115_density",
    "Ctb.C115_seed"
   ],
   "note": "C115_rounds for the loop, C115_coin for flip_poisson_coin of skeleton.py with the bounds of the layer, C115_seed for flip_poisson_coin of seed.py, C115_total for termination, C115_density for the integral. The points are those of sample_batch_ppp, which are not a Poisson process when there is more than one batch (C81). Flags that are set are excluded, as in C113."
  },
  {
   "property": "C116",
   "status": "partial",
   "theorems": [
    "Ctb.C116_coin_partial",
    "Ctb.C116_ito_partial",
    "Ctb.C116_switch_partial",
    "Ctb.C116_switch2_partial",
    "Ctb.C116_switch3_partial",
    "Ctb.C116_violated"
   ],
   "note": "C116_violated: the second interpolation of flip_dual_coin asks for known times, drops the flags, and later batches reveal the path below the outer edge; in the witness the success probability stays below a number less than 1 where it should be 1. C116_coin_partial: the claim holds for seeds without flags; C116_ito_partial: for the coin of the Ornstein-Uhlenbeck model with the intensity from its gradient bounds. C116_switch_partial: for the coin of the switching Ornstein-Uhlenbeck model. C116_switch2_partial, C116_switch3_partial: the same for the other two switching models."
  },
  {
   "property": "C117",
   "status": "proved",
   "theorems": [
    "Ctb.C117_section_weights",
    "Ctb.C117_proposed_weights",
    "Ctb.C117_weights_library",
    "Ctb.C117_weight_value",
    "Ctb.C117_run",
    "Ctb.C117_errors",
    "Ctb.C117_library",
    "Ctb.C117_weights"
   ],
   "note": "C117_run, C117_errors: almost surely, for any model whose augmentation samples with volatilities that do not vanish within the bounds; C117_library: with probability one for the three models of the library, all parameters positive; C117_weights: the weights in the acceptance ratios of the parameters are numbers at every such state; C117_section_weights, C117_proposed_weights, C117_weights_library: so are the weights of all sections of the current and, with probability one, of the proposed hidden path; C117_weight_value: these are the numbers the update compares. Matrix square roots of the proposals are arbitrary functions. The recursion budget of the model is an extra outcome (fuel)."
  },
  {
   "property": "C118",
   "status": "proved",
   "theorems": [
    "Ctb.C118_paths",
    "Ctb.C118_law",
    "Ctb.C118_trajectory",
    "Ctb.C118_affine",
    "Ctb.C118_exact",
    "Ctb.C118_decay"
   ],
   "note": "C118_law: joint law of a column for any measurable coefficients; C118_trajectory: one entry; C118_affine, C118_exact, C118_decay: closed forms. C118_paths: joint law of all columns, rows are independent chains."
  },
  {
   "property": "C119",
   "status": "proved",
   "theorems": [
    "Ctb.C119_functional",
    "Ctb.C119_counts",
    "Ctb.C119_void"
   ],
   "note": "C119_functional: Laplace functional; C119_counts: joint generating function of the numbers in disjoint sets (every argument), which is that of independent Poisson laws; C119_void: avoidance probabilities. The points drawn in batches are the subject of C15 and C81."
  },
  {
   "property": "C120",
   "status": "proved",
   "theorems": [
    "Ctb.C120_states",
    "Ctb.C120_markov",
    "Ctb.C120_stationary"
   ],
   "note": "C120_states: joint probabilities at increasing times within the horizon, as limits in the number of rounds, with an upper bound for each; C120_markov, C120_stationary. The end state alone is the subject of C82."
  }
 ]
}