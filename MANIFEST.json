{
 "claims": [
  {
   "property": "C01",
   "status": "proved",
   "theorems": [
    "PyFCM.C01_recurrence"
   ],
   "note": "Iterative engine, every arithmetic, every reachable map on which run_inference() returns."
  },
  {
   "property": "C02",
   "status": "proved",
   "theorems": [
    "PyFCM.C02_terminates",
    "PyFCM.C02_bound",
    "PyFCM.C02_exact",
    "PyFCM.C02_no_step",
    "PyFCM.C02_vector_bound"
   ],
   "note": "Both engines; exact count without stop_at_stabilize."
  },
  {
   "property": "C03",
   "status": "proved",
   "theorems": [
    "PyFCM.C03_stop_reason"
   ],
   "note": "Least length with extra_steps-1 quiet prefixes."
  },
  {
   "property": "C04",
   "status": "proved",
   "theorems": [
    "PyFCM.C04_repeatable"
   ],
   "note": "Both engines, every arithmetic; the second run leaves the whole object unchanged."
  },
  {
   "property": "C05",
   "status": "proved",
   "theorems": [
    "PyFCM.C05_reset_after_run",
    "PyFCM.C05_reset",
    "PyFCM.C05_clear"
   ],
   "note": ""
  },
  {
   "property": "C06",
   "status": "proved",
   "theorems": [
    "PyFCM.C06_saturation",
    "PyFCM.C06_bistate",
    "PyFCM.C06_threestate",
    "PyFCM.C06_sigmoid",
    "PyFCM.C06_sigmoid_hip",
    "PyFCM.C06_relm",
    "PyFCM.C06_relm_slope",
    "PyFCM.C06_gceq",
    "PyFCM.C06_lceq",
    "PyFCM.C06_fuzzy"
   ],
   "note": "Over the reals; fuzzy_set for sorted descriptions with memberships in [0,1]."
  },
  {
   "property": "C07",
   "status": "proved",
   "theorems": [
    "PyFCM.C07_iterative",
    "PyFCM.C07_vectorised",
    "PyFCM.tame_of_args",
    "PyFCM.C114_iterative",
    "PyFCM.C114_vectorised"
   ],
   "note": "Real arithmetic, every reachable map, both engines, both hypotheses of the statement (fuzzy memberships in [0,1] over ascending values, positive relm slopes) made explicit."
  },
  {
   "property": "C08",
   "status": "proved",
   "theorems": [
    "PyFCM.C08_final_value",
    "PyFCM.C08_last",
    "PyFCM.C08_mean",
    "PyFCM.C08_exited",
    "PyFCM.C08_between"
   ],
   "note": "Decision functions against independent specifications; values between bounds over the reals."
  },
  {
   "property": "C09",
   "status": "partial",
   "theorems": [
    "PyFCM.C09_exited_iff",
    "PyFCM.C09_counterexample",
    "PyFCM.C09_exited_partial",
    "PyFCM.C09_false"
   ],
   "note": "False as stated: counterexample proved, with the exact condition under which EXITED completes."
  },
  {
   "property": "C10",
   "status": "partial",
   "theorems": [
    "PyFCM.C10_iterative",
    "PyFCM.C10_added_partial",
    "PyFCM.C10_counterexample_vector",
    "PyFCM.C10_counterexample_fuzzy"
   ],
   "note": "Iterative engine: proved for concepts whose divisor does not change; the vectorised engine ignores inactivity and fuzzy concepts divide by all incoming weights (counterexamples)."
  },
  {
   "property": "C11",
   "status": "partial",
   "theorems": [
    "PyFCM.C11_recurrence_partial",
    "PyFCM.C11_same_partial",
    "PyFCM.C11_counterexample_inactive",
    "PyFCM.C11_counterexample_parallel",
    "PyFCM.C11_counterexample_fuzzy"
   ],
   "note": "Exact arithmetic (every Exact carrier, e.g. reals and rationals), maps with active concepts, no parallel relations, positive fuzzy weight sums; outside that the engines disagree (three counterexamples)."
  },
  {
   "property": "C12",
   "status": "partial",
   "theorems": [
    "PyFCM.C12_inside_partial",
    "PyFCM.C12_overruns",
    "PyFCM.C12_zero_threshold",
    "PyFCM.C12_counterexample"
   ],
   "note": "Inside iff the run stabilises within max_iter columns; otherwise column max_iter is written (counterexample)."
  },
  {
   "property": "C13",
   "status": "partial",
   "theorems": [
    "PyFCM.C13_recorded_partial",
    "PyFCM.C13_tame_partial",
    "PyFCM.C13_two",
    "PyFCM.C13_counterexample"
   ],
   "note": "Exact when fewer than max_iter columns ran and the first concept never equals 2 (automatic on maps bounded by C07); last column dropped at exactly max_iter; initial value 2 makes the run raise."
  },
  {
   "property": "C14",
   "status": "partial",
   "theorems": [
    "PyFCM.C14_coherent_partial",
    "PyFCM.C14_counterexample"
   ],
   "note": "Every reachable map (exceptions allowed) that has a concept and whose data can be rebuilt; counterexample: clear_all keeps the prepared flag."
  },
  {
   "property": "C15",
   "status": "partial",
   "theorems": [
    "PyFCM.C15_iterative",
    "PyFCM.C15_vectorised_partial",
    "PyFCM.C15_counterexample",
    "PyFCM.C15_returns"
   ],
   "note": "Exact arithmetic. Iterative engine: all permutations. Vectorised engine: without parallel relations (counterexample otherwise)."
  },
  {
   "property": "C16",
   "status": "partial",
   "theorems": [
    "PyFCM.C16_outgoing_partial",
    "PyFCM.C16_counterexample",
    "PyFCM.C16_counterexample_raise"
   ],
   "note": "Holds for every history that does not re-add a concept and in which add_relation does not raise; both exclusions are necessary (counterexamples)."
  },
  {
   "property": "C17",
   "status": "proved",
   "theorems": [
    "PyFCM.C17_unknown",
    "PyFCM.C17_ends",
    "PyFCM.C17_exported"
   ],
   "note": "Every reachable state, including those left behind by exceptions."
  },
  {
   "property": "C18",
   "status": "partial",
   "theorems": [
    "PyFCM.C18_rejected_partial",
    "PyFCM.C18_unusable",
    "PyFCM.C18_repair",
    "PyFCM.C18_counterexample"
   ],
   "note": "False of the code: the half-built concept stays and every later run_inference() raises (C18_unusable); the frame (other concepts, relations, trajectories, settings) is proved; a later accepted add_concept repairs the map."
  },
  {
   "property": "C19",
   "status": "partial",
   "theorems": [
    "PyFCM.C19_unknown",
    "PyFCM.C19_frame",
    "PyFCM.C19_named_partial",
    "PyFCM.C19_counterexample"
   ],
   "note": "Frame proved for all calls; the memory flag and the activation function are reset to the map settings when not passed (counterexample)."
  },
  {
   "property": "C20",
   "status": "partial",
   "theorems": [
    "PyFCM.C20_existing",
    "PyFCM.C20_custom_kept",
    "PyFCM.C20_added",
    "PyFCM.C20_later_partial",
    "PyFCM.C20_counterexample"
   ],
   "note": "Existing concepts and custom concepts: proved for all histories; concepts added later get the default concept function, which is not updated (counterexample)."
  },
  {
   "property": "C21",
   "status": "partial",
   "theorems": [
    "PyFCM.C21_final_state_partial",
    "PyFCM.C21_counterexample"
   ],
   "note": "Proved for every history without exceptions; after a rejected add_concept the half-built concept is not reported (counterexample)."
  },
  {
   "property": "C22",
   "status": "partial",
   "theorems": [
    "PyFCM.C22_after_run_partial",
    "PyFCM.C22_before",
    "PyFCM.C22_counterexample",
    "PyFCM.C22_counterexample_vector"
   ],
   "note": "Exact after every iterative run and before any run; raises IndexError after run + init_concept; False after vectorised runs."
  },
  {
   "property": "C23",
   "status": "partial",
   "theorems": [
    "PyFCM.C23_interpolates_partial",
    "PyFCM.C23_mirrored",
    "PyFCM.C23_counterexample",
    "PyFCM.C23_false"
   ],
   "note": "Proved for non-negative inputs and descriptions of at least two points; false for negative inputs and one-point descriptions (counterexample)."
  },
  {
   "property": "C24",
   "status": "proved",
   "theorems": [
    "PyFCM.C24_sort",
    "PyFCM.C24_nan"
   ],
   "note": "Every carrier with a total transitive order; C24_nan shows the order hypothesis is needed (a NaN pivot loops forever)."
  },
  {
   "property": "C25",
   "status": "partial",
   "theorems": [
    "PyFCM.C25_scaled_partial",
    "PyFCM.C25_stored_partial",
    "PyFCM.C25_counterexample"
   ],
   "note": "Real arithmetic; proved unless all values are equal and not positive, where the code divides 0 by 0."
  },
  {
   "property": "C26",
   "status": "proved",
   "theorems": [
    "PyFCM.C26_sigmoid_mono",
    "PyFCM.C26_sigmoid_symm",
    "PyFCM.C26_sigmoid_hip_mono",
    "PyFCM.C26_sigmoid_fit",
    "PyFCM.C26_sigmoid_hip_fit",
    "PyFCM.C26_sigmoid_hip_fit_nonneg"
   ],
   "note": "Over the reals."
  },
  {
   "property": "C27",
   "status": "partial",
   "theorems": [
    "PyFCM.C27_both",
    "PyFCM.C27_same",
    "PyFCM.C27_advertised_partial",
    "PyFCM.C27_counterexample",
    "PyFCM.C27_false"
   ],
   "note": "Consistency proved for every string and every arithmetic; the advertised names \"proportion\" and \"MEAN\" do not resolve."
  },
  {
   "property": "C28",
   "status": "partial",
   "theorems": [
    "PyFCM.C28_roundtrip_partial",
    "PyFCM.C28_runs_partial",
    "PyFCM.C28_forgets",
    "PyFCM.C28_fuzzy",
    "PyFCM.C28_counterexample"
   ],
   "note": "Exact reconstruction and identical runs for maps of active KOSKO concepts with the map memory flag and non-fuzzy functions; C28_forgets / C28_fuzzy show in general what is lost otherwise."
  },
  {
   "property": "C29",
   "status": "proved",
   "theorems": [
    "PyFCM.C29_error",
    "PyFCM.C29_built",
    "PyFCM.C110_from_json"
   ],
   "note": "Every document (record of the keys read or written); extra_steps below 1 counts as 1, a repeated id is replaced by its last description."
  },
  {
   "property": "C30",
   "status": "partial",
   "theorems": [
    "PyFCM.C30_concepts_partial",
    "PyFCM.C30_returns",
    "PyFCM.C30_counterexample"
   ],
   "note": "Real arithmetic. Whenever the join returns, the concepts are exact; plain maps can always be joined; maps with fuzzy concepts cannot (counterexample)."
  },
  {
   "property": "C31",
   "status": "proved",
   "theorems": [
    "PyFCM.C31_values",
    "PyFCM.C31_order"
   ],
   "note": "Real arithmetic, every sequence of reachable maps for which the join returns."
  },
  {
   "property": "C32",
   "status": "partial",
   "theorems": [
    "PyFCM.C32_relations_partial",
    "PyFCM.C32_counterexample"
   ],
   "note": "Proved when no concept name contains the separator or ends like it; counterexample with a name containing it."
  },
  {
   "property": "C33",
   "status": "partial",
   "theorems": [
    "PyFCM.C33_order_partial",
    "PyFCM.C33_plain_partial",
    "PyFCM.C33_counterexample"
   ],
   "note": "Real arithmetic. Agreement whenever both orders return, unconditionally for plain maps; in general one order may raise while the other returns (counterexample)."
  },
  {
   "property": "C34",
   "status": "proved",
   "theorems": [
    "PyFCM.C34_concept",
    "PyFCM.C34_value",
    "PyFCM.C34_relation",
    "PyFCM.C34_empty"
   ],
   "note": "Every carrier."
  },
  {
   "property": "C35",
   "status": "proved",
   "theorems": [
    "PyFCM.C35_matrix",
    "PyFCM.C35_values",
    "PyFCM.C35_one_hot",
    "PyFCM.C35_exactly_one"
   ],
   "note": "Every carrier whose equality and order are lawful (reals, rationals); every column type."
  },
  {
   "property": "C36",
   "status": "proved",
   "theorems": [
    "PyFCM.C36_table",
    "PyFCM.C36_nonneg",
    "PyFCM.C36_swap",
    "PyFCM.C36_none"
   ],
   "note": "Real arithmetic; swap law for every carrier with commutative multiplication."
  },
  {
   "property": "C37",
   "status": "partial",
   "theorems": [
    "PyFCM.C37_supp",
    "PyFCM.C37_conf",
    "PyFCM.C37_simple",
    "PyFCM.C37_pos_inf_partial",
    "PyFCM.C37_counterexample",
    "PyFCM.C37_false"
   ],
   "note": "pos_inf only on tables of counts; a fractional table gives 8."
  },
  {
   "property": "C38",
   "status": "partial",
   "theorems": [
    "PyFCM.C38_simple_partial",
    "PyFCM.C38_counterexample"
   ],
   "note": "Proved for all datasets whose feature and value names can be told apart in concept names; a value containing the separator gives a self relation and parallel relations (counterexample)."
  },
  {
   "property": "C39",
   "status": "partial",
   "theorems": [
    "PyFCM.C39_exclusion_partial",
    "PyFCM.C39_restriction_partial",
    "PyFCM.C39_counterexample"
   ],
   "note": "Proved for all datasets whose names can be told apart; two features that share concept names get the exclusion relation twice (counterexample)."
  },
  {
   "property": "C40",
   "status": "partial",
   "theorems": [
    "PyFCM.C40_no_effect",
    "PyFCM.C40_unfitted",
    "PyFCM.C40_counterexample",
    "PyFCM.C40_given_partial"
   ],
   "note": "False: the option is set on a map that build_fcm discards. Proved: the option changes nothing; slopes are fitted when the inclination is set on a map passed to build_fcm."
  },
  {
   "property": "C41",
   "status": "partial",
   "theorems": [
    "PyFCM.C41_parse_partial",
    "PyFCM.C41_default_partial",
    "PyFCM.C41_injective",
    "PyFCM.C41_counterexample"
   ],
   "note": "Exact condition on value and feature text for the name to be split back; a value ending like the separator breaks it (counterexample)."
  },
  {
   "property": "C42",
   "status": "partial",
   "theorems": [
    "PyFCM.C42_predict_partial",
    "PyFCM.C42_real_partial",
    "PyFCM.C42_counterexample"
   ],
   "note": "C42_full is the property; false (C42_counterexample): truth values are predicted as text. C42_predict_partial proves, for any estimator fitted after any history and any predictions since, that each categorical target is predicted as a training value of maximal final activation, provided names can be read and no final activation is below -1; the label has the type of the value if the value is a non-numeral text or a natural number. C42_real_partial drops the condition on the activations for real numbers, the standard clustering, either engine and every proper and tame default function except fuzzy: all final activations lie in [-1,1]."
  },
  {
   "property": "C43",
   "status": "proved",
   "theorems": [
    "PyFCM.C43_rows",
    "PyFCM.C43_history"
   ],
   "note": "For every estimator whose last fit returned, after any calls of predict and score: the rows of one call get what each gets alone (including what is raised), and a call that returns changes no later prediction. Both engines, every carrier."
  },
  {
   "property": "C44",
   "status": "proved",
   "theorems": [
    "PyFCM.C44_accuracy",
    "PyFCM.C44_scores"
   ],
   "note": "A returned score is hits / number of true values, between 0 and 1 (carriers where fractions of naturals behave: reals, rationals); C44_scores says when there is a score."
  },
  {
   "property": "C45",
   "status": "partial",
   "theorems": [
    "PyFCM.C45_category_partial",
    "PyFCM.C45_number_partial",
    "PyFCM.C45_trained",
    "PyFCM.C45_counterexample"
   ],
   "note": "C45_full is the property; false (C45_counterexample): a truth value is looked up as '1' or '0' and ignored. C45_category_partial covers texts and integers of categorical columns (map function not fuzzy), C45_number_partial numbers of numeric columns with any discretization; both say that nothing else changes. C45_trained: with the library's discretization, the number of a training sample sets each cluster to the sample's membership."
  },
  {
   "property": "C46",
   "status": "proved",
   "theorems": [
    "PyFCM.C46_step",
    "PyFCM.C46_cmeans",
    "PyFCM.C46_one",
    "PyFCM.C116_step",
    "PyFCM.C116_cmeans"
   ],
   "note": "Real arithmetic. C46_step: one iteration; C46_cmeans: the whole loop from any admissible start; C46_one: a single cluster. The first theorems are for one column (all the library itself clusters); C116/C117 for any number of columns."
  },
  {
   "property": "C47",
   "status": "proved",
   "theorems": [
    "PyFCM.C47_step",
    "PyFCM.C46_cmeans",
    "PyFCM.C116_blend",
    "PyFCM.C116_cmeans"
   ],
   "note": "Real arithmetic. C47_step: one iteration; the centres of the whole run are covered by C46_cmeans. The first theorems are for one column (all the library itself clusters); C116/C117 for any number of columns."
  },
  {
   "property": "C48",
   "status": "proved",
   "theorems": [
    "PyFCM.C48_mixture",
    "PyFCM.C48_shrink",
    "PyFCM.C48_single",
    "PyFCM.C117_run",
    "PyFCM.C117_shrink",
    "PyFCM.C117_single"
   ],
   "note": "Real arithmetic, at least two samples (C48_single: one sample raises ZeroDivisionError). The first theorems are for one column (all the library itself clusters); C116/C117 for any number of columns."
  },
  {
   "property": "C49",
   "status": "partial",
   "theorems": [
    "PyFCM.C49_rows",
    "PyFCM.C49_three_partial",
    "PyFCM.C49_counterexample"
   ],
   "note": "C49_full is the property; false: the value in the centre gets memberships summing to h/(h+1) (C49_counterexample). C49_rows: closed form of all memberships on every carrier; C49_three_partial: everything else holds."
  },
  {
   "property": "C50",
   "status": "partial",
   "theorems": [
    "PyFCM.C50_points",
    "PyFCM.C50_clusters_partial",
    "PyFCM.C50_counterexample"
   ],
   "note": "Real arithmetic, every curve (the polynomial fit is a parameter). Holds for max_clusters >= 2; with max_clusters = 1 one cluster is found (C50_counterexample)."
  },
  {
   "property": "C51",
   "status": "proved",
   "theorems": [
    "PyFCM.C51_two",
    "PyFCM.C51_returns",
    "PyFCM.C51_many"
   ],
   "note": "C51_two: every carrier, environment and setting. C51_returns: over the reals every strategy returns, with described memberships; C51_many: the silhouette and entropy strategies raise when max_clusters is not below the number of distinct values."
  },
  {
   "property": "C52",
   "status": "partial",
   "theorems": [
    "PyFCM.C52_rows_partial",
    "PyFCM.C52_all_rows_partial",
    "PyFCM.C52_strip",
    "PyFCM.C52_rectangular",
    "PyFCM.C52_counterexample",
    "PyFCM.C52_duplicate_names",
    "PyFCM.C52_lines"
   ],
   "note": "The rows of the header length are returned without repetition; other rows are skipped and repeated rows dropped (counterexample); repeated header names make the load raise."
  },
  {
   "property": "C53",
   "status": "proved",
   "theorems": [
    "PyFCM.C53_between",
    "PyFCM.C53_listed"
   ],
   "note": "Over the reals."
  },
  {
   "property": "C54",
   "status": "proved",
   "theorems": [
    "PyFCM.C54_iterative",
    "PyFCM.C54_vectorised"
   ],
   "note": "Real arithmetic, every reachable map, both engines."
  },
  {
   "property": "C55",
   "status": "proved",
   "theorems": [
    "PyFCM.C55_unfitted",
    "PyFCM.C55_fitted",
    "PyFCM.C55_refit"
   ],
   "note": "Histories of fit, predict and score, including raising calls. C55_refit: after a fit that returns, concepts, relations and features are those of the given columns. Changing the map through get_fcm() before the first fit is outside the histories (the first fit does not clear the map)."
  },
  {
   "property": "C56",
   "status": "partial",
   "theorems": [
    "PyFCM.C56_sum_partial",
    "PyFCM.C56_counterexample",
    "PyFCM.C56_false"
   ],
   "note": "Same histories as C16."
  },
  {
   "property": "C57",
   "status": "partial",
   "theorems": [
    "PyFCM.C57_loads_partial",
    "PyFCM.C57_ragged",
    "PyFCM.C57_text_only",
    "PyFCM.C57_counterexample",
    "PyFCM.C57_lines"
   ],
   "note": "Proved when there is a class column or a literal was parsed; a text-only file without class column raises KeyError (counterexample and general theorem)."
  },
  {
   "property": "C58",
   "status": "proved",
   "theorems": [
    "PyFCM.C58_lossless",
    "PyFCM.C58_faithful",
    "PyFCM.C58_table"
   ],
   "note": "Every value type with decidable equality."
  },
  {
   "property": "C59",
   "status": "proved",
   "theorems": [
    "PyFCM.C59_learned"
   ],
   "note": "Iff characterisation by independent counts, over every carrier with exact 0/1 arithmetic (reals, rationals); both columns categorical."
  },
  {
   "property": "C60",
   "status": "proved",
   "theorems": [
    "PyFCM.C60_builds",
    "PyFCM.C60_default"
   ],
   "note": "General form for measures that do not raise; default configuration over the reals."
  },
  {
   "property": "C61",
   "status": "proved",
   "theorems": [
    "PyFCM.C61_refit"
   ],
   "note": "Every history of fit, predict and score, every carrier. With no concepts (a table without columns) later predictions are not compared: the vectorised engine then reuses a cache of the emptied map."
  },
  {
   "property": "C62",
   "status": "proved",
   "theorems": [
    "PyFCM.C62_nearer",
    "PyFCM.C116_nearer"
   ],
   "note": "Real arithmetic. The first theorems are for one column (all the library itself clusters); C116/C117 for any number of columns."
  },
  {
   "property": "C63",
   "status": "proved",
   "theorems": [
    "PyFCM.C46_cmeans",
    "PyFCM.C116_cmeans"
   ],
   "note": "Last conjunct of C46_cmeans. Real arithmetic. The first theorems are for one column (all the library itself clusters); C116/C117 for any number of columns."
  },
  {
   "property": "C64",
   "status": "proved",
   "theorems": [
    "PyFCM.C64_nearest",
    "PyFCM.C64_predict",
    "PyFCM.C117_predict"
   ],
   "note": "The first theorems are for one column (all the library itself clusters); C116/C117 for any number of columns."
  },
  {
   "property": "C65",
   "status": "proved",
   "theorems": [
    "PyFCM.C48_mixture",
    "PyFCM.C117_run"
   ],
   "note": "Conjunct of C48_mixture. Real arithmetic. The first theorems are for one column (all the library itself clusters); C116/C117 for any number of columns."
  },
  {
   "property": "C66",
   "status": "proved",
   "theorems": [
    "PyFCM.C66_learns",
    "PyFCM.safe_default",
    "PyFCM.C66_fits",
    "PyFCM.C66_refits"
   ],
   "note": "Real arithmetic; the library's own discretization (max_clusters 7, 200 iterations) with each of the four strategies. The random start, the machine epsilon and the polynomial fit are parameters (Spec.Env). safe_default: the default measures qualify."
  },
  {
   "property": "C67",
   "status": "proved",
   "theorems": [
    "PyFCM.C67_memberships"
   ],
   "note": "Real arithmetic, types inferred."
  },
  {
   "property": "C68",
   "status": "proved",
   "theorems": [
    "PyFCM.C68_weights"
   ],
   "note": "Real arithmetic, types inferred; no assumption on names."
  },
  {
   "property": "C69",
   "status": "proved",
   "theorems": [
    "PyFCM.C69_bistate",
    "PyFCM.C69_threestate",
    "PyFCM.C69_saturation",
    "PyFCM.C69_relm",
    "PyFCM.C69_gceq",
    "PyFCM.C69_lceq",
    "PyFCM.C69_sigmoid",
    "PyFCM.C69_sigmoid_hip"
   ],
   "note": "Over the reals."
  },
  {
   "property": "C70",
   "status": "proved",
   "theorems": [
    "PyFCM.C70_supp",
    "PyFCM.C70_conf",
    "PyFCM.C70_lift",
    "PyFCM.C70_odr",
    "PyFCM.C70_rodr",
    "PyFCM.C70_lift_odr",
    "PyFCM.C70_pos_inf",
    "PyFCM.C70_pos_inf_raises",
    "PyFCM.C70_bayes",
    "PyFCM.C70_simple",
    "PyFCM.C70_empty"
   ],
   "note": "Over the reals, for the counts of any list of observations."
  },
  {
   "property": "C71",
   "status": "proved",
   "theorems": [
    "PyFCM.C71_added",
    "PyFCM.C71_fuzzy"
   ],
   "note": "Every carrier, every map (reachable or not)."
  },
  {
   "property": "C72",
   "status": "proved",
   "theorems": [
    "PyFCM.C72_names",
    "PyFCM.C72_vector"
   ],
   "note": "Every carrier, every reachable map; the argument vectors for histories without exceptions."
  },
  {
   "property": "C73",
   "status": "proved",
   "theorems": [
    "PyFCM.C73_order",
    "PyFCM.C73_fit",
    "PyFCM.C73_discretization"
   ],
   "note": "Real arithmetic (float addition is not associative, so float weights may differ in the last digits)."
  },
  {
   "property": "C74",
   "status": "partial",
   "theorems": [
    "PyFCM.C74_ratios_partial",
    "PyFCM.C74_measures_partial",
    "PyFCM.C74_fit_partial",
    "PyFCM.C74_counterexample"
   ],
   "note": "C74_full is the property; false for pos_inf, odr and rodr (C74_counterexample: pos_inf halves when every row is repeated). Holds for measures that are ratios of counts; C74_measures_partial: supp, conf, lift, bayes and simple are. Real arithmetic."
  },
  {
   "property": "C75",
   "status": "proved",
   "theorems": [
    "PyFCM.C75_accepting",
    "PyFCM.C75_succeeds",
    "PyFCM.C75_counterexample",
    "PyFCM.C111_returns",
    "PyFCM.C111_raises"
   ],
   "note": "C75_accepting: every carrier; C75_succeeds: maps over the reals without fuzzy concepts and with proper parameters. C75_counterexample: the condition on the functions cannot be dropped, a fuzzy concept without incoming relations divides by zero. Iterative engine."
  },
  {
   "property": "C76",
   "status": "proved",
   "theorems": [
    "PyFCM.C76_upstream",
    "PyFCM.C76_final",
    "PyFCM.C76_init",
    "PyFCM.C76_relation",
    "PyFCM.C76_length_differs"
   ],
   "note": "Every carrier. Steps common to both runs; C76_length_differs shows that the run lengths, and with them the final values, of unaffected concepts may differ because the stability test looks at all concepts."
  },
  {
   "property": "C77",
   "status": "proved",
   "theorems": [
    "PyFCM.C77_order",
    "PyFCM.C77_init",
    "PyFCM.C77_relation"
   ],
   "note": "Real arithmetic, iterative engine."
  },
  {
   "property": "C78",
   "status": "proved",
   "theorems": [
    "PyFCM.C78_forgets",
    "PyFCM.C78_stops",
    "PyFCM.C78_bound"
   ],
   "note": "Real arithmetic, iterative engine."
  },
  {
   "property": "C79",
   "status": "proved",
   "theorems": [
    "PyFCM.C79_equilibrium",
    "PyFCM.C79_final"
   ],
   "note": "Real arithmetic, iterative engine."
  },
  {
   "property": "C80",
   "status": "proved",
   "theorems": [
    "PyFCM.C80_centres",
    "PyFCM.C80_objective",
    "PyFCM.C80_memberships"
   ],
   "note": "Real arithmetic, one-dimensional data (all the library clusters)."
  },
  {
   "property": "C81",
   "status": "proved",
   "theorems": [
    "PyFCM.C81_round",
    "PyFCM.C81_history"
   ],
   "note": "Real arithmetic, one-dimensional data."
  },
  {
   "property": "C82",
   "status": "proved",
   "theorems": [
    "PyFCM.C82_observed",
    "PyFCM.C82_raises",
    "PyFCM.C82_collision"
   ],
   "note": "Every carrier, both engines. The text of an exception may contain the name, so only whether a call raises is compared. C82_collision: two concepts sharing a new name is excluded for a reason."
  },
  {
   "property": "C83",
   "status": "proved",
   "theorems": [
    "PyFCM.C83_api",
    "PyFCM.C83_careful",
    "PyFCM.C83_idempotent"
   ],
   "note": "Every carrier. C83_careful needs distinct ids in the document (a repeated id replaces the concept). The maps compared are the whole objects, including the settings."
  },
  {
   "property": "C84",
   "status": "partial",
   "theorems": [
    "PyFCM.C84_rows_partial",
    "PyFCM.C84_counterexample",
    "PyFCM.C84_common",
    "PyFCM.C84_kinds"
   ],
   "note": "C84_full is the property; false for columns of different types, which np.array turns into one type (C84_counterexample: a truth value beside an integer). Proved when all input columns have one type and all target columns have one type. Every carrier."
  },
  {
   "property": "C85",
   "status": "partial",
   "theorems": [
    "PyFCM.C85_roles_partial",
    "PyFCM.C85_shared",
    "PyFCM.C85_positional",
    "PyFCM.C85_counterexample",
    "PyFCM.C85_names",
    "PyFCM.C85_predict"
   ],
   "note": "C85_full is the property; false when a column of y has the name of a column of x: the roles are swapped (C85_shared, C85_counterexample). Proved for different names; positional names never clash."
  },
  {
   "property": "C86",
   "status": "partial",
   "theorems": [
    "PyFCM.C86_dict_partial",
    "PyFCM.C86_accepts",
    "PyFCM.C86_predicts",
    "PyFCM.C86_cells",
    "PyFCM.C86_counterexample",
    "PyFCM.C86_unfitted",
    "PyFCM.C86_scores"
   ],
   "note": "C86_full is the property; false: fit and score refuse a dictionary as x (AttributeError, C86_counterexample). The rest is proved."
  },
  {
   "property": "C87",
   "status": "partial",
   "theorems": [
    "PyFCM.C87_curves_partial",
    "PyFCM.C87_counterexample"
   ],
   "note": "C87_full is the property for all histories; false after a rejected add_concept. Proved for histories without exceptions. Every carrier."
  },
  {
   "property": "C88",
   "status": "partial",
   "theorems": [
    "PyFCM.C88_graph_partial",
    "PyFCM.C88_counterexample"
   ],
   "note": "C88_full is the property for all histories; false after a concept is added again. Proved for histories that add no concept twice and in which add_relation does not raise. Every carrier."
  },
  {
   "property": "C89",
   "status": "partial",
   "theorems": [
    "PyFCM.C89_silhouette_partial",
    "PyFCM.C89_counterexample"
   ],
   "note": "C89_full is the property; false when the two highest memberships of a sample are equal (C89_counterexample: the search for the second cluster then fails or takes the wrong one). Proved when every sample has a unique highest membership. Real arithmetic."
  },
  {
   "property": "C90",
   "status": "proved",
   "theorems": [
    "PyFCM.C90_best",
    "PyFCM.C90_discretize"
   ],
   "note": "Every carrier with a linear order. C90_best: the selection, for any scoring function; C90_discretize: the effect on a column."
  },
  {
   "property": "C91",
   "status": "partial",
   "theorems": [
    "PyFCM.C91_entropy_partial",
    "PyFCM.C91_bounds",
    "PyFCM.C91_counterexample"
   ],
   "note": "C91_full is the property; false (C91_counterexample): the dispersion within a cluster multiplies every membership with the squared norm of the whole column instead of the squared distance of the sample. C91_entropy_partial states what is computed, C91_bounds proves the bounds. Real arithmetic."
  },
  {
   "property": "C92",
   "status": "proved",
   "theorems": [
    "PyFCM.C92_run"
   ],
   "note": "Real arithmetic, one-dimensional data."
  },
  {
   "property": "C93",
   "status": "proved",
   "theorems": [
    "PyFCM.C93_round",
    "PyFCM.C93_run"
   ],
   "note": "Real arithmetic, one-dimensional data. The statement has the logarithm to base 2 in the new proportions, as in the code; the memberships and the third rate use the natural one."
  },
  {
   "property": "C94",
   "status": "proved",
   "theorems": [
    "PyFCM.C94_records",
    "PyFCM.C94_returns",
    "PyFCM.C94_real",
    "PyFCM.C94_contracting",
    "PyFCM.C94_decides"
   ],
   "note": "C94_records and C94_returns for every lawful carrier, given the endless run of the recurrence that never takes the value 2 (C13 shows that this value is special); C94_real shows that over the reals this run exists and stays in [-1,1] when the functions have proper parameters; C94_contracting for contracting maps."
  },
  {
   "property": "C95",
   "status": "proved",
   "theorems": [
    "PyFCM.C95_accepts",
    "PyFCM.C95_settings",
    "PyFCM.C95_concepts"
   ],
   "note": "Every carrier. C95_accepts: the constructor; C95_settings: the map after any history; C95_concepts: the concepts after a fit."
  },
  {
   "property": "C96",
   "status": "proved",
   "theorems": [
    "PyFCM.C96_accepts",
    "PyFCM.C96_refused",
    "PyFCM.C96_ignored",
    "PyFCM.C96_number"
   ],
   "note": "C96_refused and C96_ignored for every ordered carrier; C96_accepts and C96_number in real arithmetic with the library's own discretization. The default activation function must not be \"fuzzy\" (such concepts have no description and cannot be initialised)."
  },
  {
   "property": "C97",
   "status": "proved",
   "theorems": [
    "PyFCM.C97_predicts"
   ],
   "note": "Real arithmetic, iterative engine (the vectorised engine also needs the map to settle, see C94). The conditions on the settings are hypotheses of the theorem."
  },
  {
   "property": "C98",
   "status": "proved",
   "theorems": [
    "PyFCM.C98_loads",
    "PyFCM.C98_distinct",
    "PyFCM.C98_no_rows",
    "PyFCM.C98_lines"
   ],
   "note": "Every carrier and value type. As in C57 a column called class or a literal is needed (hypothesis hsum). C98_distinct: if None is the only missing value."
  },
  {
   "property": "C99",
   "status": "partial",
   "theorems": [
    "PyFCM.C99_loads_partial",
    "PyFCM.C99_numbers",
    "PyFCM.C99_rejects",
    "PyFCM.C99_counterexample"
   ],
   "note": "False as stated (C99_counterexample): without a column called class and without text that reads as a literal the printed summary raises KeyError; numbers are already decoded and do not count. C99_loads_partial proves the rest, C99_numbers the failure, C99_rejects what is rejected."
  },
  {
   "property": "C100",
   "status": "partial",
   "theorems": [
    "PyFCM.C100_extends_partial",
    "PyFCM.C100_keeps",
    "PyFCM.C100_runs",
    "PyFCM.C100_counterexample"
   ],
   "note": "C100_full is the property; false when a concept of the given map has the name of a value of the table: it is replaced and loses its relations (C100_counterexample). Proved when no such name is taken. Every carrier."
  },
  {
   "property": "C101",
   "status": "partial",
   "theorems": [
    "PyFCM.C101_reset_partial",
    "PyFCM.C101_emptied",
    "PyFCM.C101_counterexample"
   ],
   "note": "C101_full is the property; false: the generator shares the map it returned, and reset() empties it (C101_counterexample, C101_emptied). The rest is proved (C101_reset_partial). Every carrier."
  },
  {
   "property": "C102",
   "status": "partial",
   "theorems": [
    "PyFCM.C102_iterative_partial",
    "PyFCM.C102_returned_partial",
    "PyFCM.C102_own_partial",
    "PyFCM.C102_counterexample"
   ],
   "note": "C102_full is the property for every discretization; false (C102_counterexample): two columns whose concepts clash can start a trajectory with the value 2, the vectorised engine then stores empty trajectories and the next fit raises IndexError. Proved with vectorized_run=False; with either engine if all calls since the last fit returned; and in real arithmetic with either engine, the library's own discretization and readable names, whatever the calls did."
  },
  {
   "property": "C103",
   "status": "proved",
   "theorems": [
    "PyFCM.C103_learn",
    "PyFCM.C103_fit",
    "PyFCM.C103_predict",
    "PyFCM.C103_score",
    "PyFCM.C103_real",
    "PyFCM.C103_vectorised"
   ],
   "note": "Every carrier with exact sums and commutative multiplication; C103_real and C103_vectorised in real arithmetic. Columns whose names can be read back (Spec.Readable); build_fcm into a new map or a given map without concepts. C103_predict and C103_score are about the iterative engine; C103_vectorised about the vectorised one, over the reals."
  },
  {
   "property": "C104",
   "status": "proved",
   "theorems": [
    "PyFCM.C104_gap",
    "PyFCM.C104_rl",
    "PyFCM.C104_unknown",
    "PyFCM.C104_build",
    "PyFCM.C104_fit",
    "PyFCM.C104_same"
   ],
   "note": "Every carrier. The fitted curve (np.polyfit) is a parameter; its change points are described by C50_points, the clustering by C47-C48 and C92-C93, the forced clusters by C49; the strategies cmeans-sil and cmeans-cfe by C90."
  },
  {
   "property": "C105",
   "status": "proved",
   "theorems": [
    "PyFCM.C105_step",
    "PyFCM.C105_records",
    "PyFCM.C105_returns",
    "PyFCM.C105_real",
    "PyFCM.C105_same",
    "PyFCM.C105_decides",
    "PyFCM.C105_rest"
   ],
   "note": "Exact arithmetic (every Exact carrier); C105_real in real arithmetic without further assumptions. The recorded states are one fewer when the engine stops at max_iter, as in C13. A state in which the first concept is at the filler value 2 is excluded (C13_two)."
  },
  {
   "property": "C106",
   "status": "proved",
   "theorems": [
    "PyFCM.C106_predicts",
    "PyFCM.C106_orbit",
    "PyFCM.C106_coarse"
   ],
   "note": "Real arithmetic, the library's own discretization (Spec.Env), readable names. Decision functions LAST and MEAN (EXITED also needs a number of recorded states other than extra_steps + 1, C105_decides); a fitted map without concepts is excluded. The engine with vectorized_run=False is C97."
  },
  {
   "property": "C107",
   "status": "proved",
   "theorems": [
    "PyFCM.C107_order",
    "PyFCM.C107_start",
    "PyFCM.C107_counterexample"
   ],
   "note": "C107_order: every carrier with ordered arithmetic, both engines, rows that are Spec.LegibleRow. C107_counterexample shows that the condition on the texts is needed: the label changes from no to yes. C107_start: real arithmetic, Spec.Env; a negative number in a numeric column is covered by C96 only."
  },
  {
   "property": "C108",
   "status": "proved",
   "theorems": [
    "PyFCM.C108_fit",
    "PyFCM.C108_predict",
    "PyFCM.C108_pictures",
    "PyFCM.C108_standard",
    "PyFCM.C108_always",
    "PyFCM.C108_counterexample",
    "PyFCM.C108_leak"
   ],
   "note": "C108_fit, C108_predict and C108_pictures for every carrier and discretization. matplotlib is reduced to the curves of the open figure and the files written; colour names and axes are left out. C108_counterexample and C108_leak show the limit of ten colours and what a failed drawing leaves behind, with a discretization into eleven clusters given as a parameter."
  },
  {
   "property": "C109",
   "status": "proved",
   "theorems": [
    "PyFCM.C109_upstream",
    "PyFCM.C109_init",
    "PyFCM.C109_relation",
    "PyFCM.C109_order",
    "PyFCM.C109_forgets",
    "PyFCM.C109_equilibrium",
    "PyFCM.C109_returns"
   ],
   "note": "Real arithmetic; maps that are Vectorised (no earlier exception, well-formed parameters, start in [-1,1]). As in C76 the comparison is step by step: runs may have different lengths because the stability test looks at all concepts. The iterative engine is C76-C79."
  },
  {
   "property": "C110",
   "status": "proved",
   "theorems": [
    "PyFCM.C110_new",
    "PyFCM.C110_add_concept",
    "PyFCM.C110_set_concept",
    "PyFCM.C110_set_default",
    "PyFCM.C110_decision",
    "PyFCM.C110_activation",
    "PyFCM.C110_relation",
    "PyFCM.C110_init",
    "PyFCM.C110_clear",
    "PyFCM.C110_stable",
    "PyFCM.C110_final",
    "PyFCM.C110_from_json"
   ],
   "note": "Equivalences. C110_add_concept, C110_set_concept, C110_set_default for every totally ordered carrier; tables with values and memberships of different number are excluded (the compiled sort does not check bounds). C110_relation and C110_init in real arithmetic; C110_init for stored tables of at least two points. Which exception is raised is not part of the claim, nor is run_inference (C75)."
  },
  {
   "property": "C111",
   "status": "proved",
   "theorems": [
    "PyFCM.C111_returns",
    "PyFCM.C111_raises",
    "PyFCM.C111_depends",
    "PyFCM.C111_records",
    "PyFCM.C15_returns"
   ],
   "note": "Iterative engine, equivalences, every arithmetic (C15_returns: exact arithmetic). Which exception is raised is not part of the claim. The vectorised engine is C94 and C105."
  },
  {
   "property": "C112",
   "status": "partial",
   "theorems": [
    "PyFCM.C112_iterative_partial",
    "PyFCM.C112_vectorised_partial",
    "PyFCM.C112_all_partial",
    "PyFCM.C112_turnable",
    "PyFCM.C112_counterexample"
   ],
   "note": "False without a bound on the exponent (C112_counterexample): sigmoid_hip cuts the exponent off at 500 on one side only. Proved for lambda times three times the absolute inflow plus 3 at most 500 (C112_turnable); sigmoid with PAPAGEORGIUS needs no bound. EXITED is excluded where concepts are replaced, as its values are not affine in the trajectory. With the vectorised engine the number of steps depends on the sum of all values, so that it is only kept if all concepts are replaced; otherwise the values agree step by step."
  },
  {
   "property": "C113",
   "status": "proved",
   "theorems": [
    "PyFCM.C113_outcomes",
    "PyFCM.C113_iterative",
    "PyFCM.C113_vectorised",
    "PyFCM.C113_block",
    "PyFCM.C113_early"
   ],
   "note": "Exact arithmetic (every Exact carrier); C113_vectorised in real arithmetic, without parallel relations (there the last one wins, C15). C113_block: calls that are pairwise independent can be made in any order. Maps with an inclination to fit are excluded, as their add_relation changes the slope of the target."
  },
  {
   "property": "C114",
   "status": "proved",
   "theorems": [
    "PyFCM.C114_iterative",
    "PyFCM.C114_vectorised",
    "PyFCM.C114_no_nan",
    "PyFCM.C114_no_nan_vectorised",
    "PyFCM.C114_returns",
    "PyFCM.C114_nan"
   ],
   "note": "For every Format (Lemmas/Floating.lean); Binary64.format (Lemmas/Binary64.lean) is IEEE 754 binary64 with ties to even and a correctly rounded exponential. The final value needs a trajectory of at most 2^53 entries. Fuzzy concepts: memberships in [0,1] over ascending values, and they are excluded from the NaN part. Simplifications: zeros have no sign; sums are made from left to right (Python from 3.12 compensates the errors of sum, BLAS may order sums differently; neither leaves [-1,1], as the activation functions come last)."
  },
  {
   "property": "C115",
   "status": "proved",
   "theorems": [
    "PyFCM.C115_error",
    "PyFCM.C115_bounded",
    "PyFCM.C115_equilibrium",
    "PyFCM.C115_length",
    "PyFCM.C115_last",
    "PyFCM.C115_jump"
   ],
   "note": "Iterative engine. The accuracy law (Accurate in Lemmas/Rounding.lean) is proved of Binary64.format with ε = 2^-53 (Binary64.accurate), whose exponential is correctly rounded; for a library whose exponential is off by a few units ε is larger accordingly. The final value: LAST, with stop_at_stabilize off, so that both runs have the same length (C115_length). C115_jump proves that the bound fails without bounded slopes. Sums are made from left to right."
  },
  {
   "property": "C116",
   "status": "proved",
   "theorems": [
    "PyFCM.C116_step",
    "PyFCM.C116_centres",
    "PyFCM.C116_blend",
    "PyFCM.C116_objective",
    "PyFCM.C116_memberships",
    "PyFCM.C116_nearer",
    "PyFCM.C116_cmeans",
    "PyFCM.C116_round",
    "PyFCM.C116_history",
    "PyFCM.C116_one_column"
   ],
   "note": "Real arithmetic, data of any dimension (Model/Points.lean). C116_one_column: for one column it is the model of Model/Clustering.lean."
  },
  {
   "property": "C117",
   "status": "proved",
   "theorems": [
    "PyFCM.C117_round",
    "PyFCM.C117_run",
    "PyFCM.C117_shrink",
    "PyFCM.C117_single",
    "PyFCM.C117_predict",
    "PyFCM.C117_one_column",
    "PyFCM.C117_predict_one"
   ],
   "note": "Real arithmetic, data of any dimension (Model/Points.lean)."
  },
  {
   "property": "C118",
   "status": "proved",
   "theorems": [
    "PyFCM.C118_settings",
    "PyFCM.C118_concepts",
    "PyFCM.C118_prefix",
    "PyFCM.C118_returns",
    "PyFCM.C118_beside",
    "PyFCM.C118_single",
    "PyFCM.C118_switch"
   ],
   "note": "C118_switch exhibits the silent change of the activation function and shows that the condition on the functions is needed."
  },
  {
   "property": "C119",
   "status": "proved",
   "theorems": [
    "PyFCM.C119_value",
    "PyFCM.C119_spaces",
    "PyFCM.C119_read",
    "PyFCM.C119_fuel",
    "PyFCM.C119_distinct",
    "PyFCM.C119_ascii",
    "PyFCM.C119_int",
    "PyFCM.C119_document",
    "PyFCM.C119_load",
    "PyFCM.C119_text",
    "PyFCM.C119_error",
    "PyFCM.C119_any",
    "PyFCM.C119_keys",
    "PyFCM.C119_reload",
    "PyFCM.C119_join"
   ],
   "note": "The spelling of floating-point numbers is a parameter: the theorems ask that the numbers of the document are spelt as JSON numbers which read back (Python guarantees this for float.__repr__); integers are proved."
  },
  {
   "property": "C120",
   "status": "proved",
   "theorems": [
    "PyFCM.C120_cycle",
    "PyFCM.C120_stop",
    "PyFCM.C120_time",
    "PyFCM.C120_tells",
    "PyFCM.C120_vector",
    "PyFCM.C120_vector_stop_counterexample"
   ],
   "note": "C120_vector_stop_counterexample: the vectorised engine, which compares sums of activations, stops inside a cycle (part of the statement)."
  },
  {
   "property": "C121",
   "status": "proved",
   "theorems": [
    "PyFCM.C121_walks",
    "PyFCM.C121_paths",
    "PyFCM.C121_final",
    "PyFCM.C121_vector_walks",
    "PyFCM.C121_vector_final"
   ],
   "note": "Both engines; the vectorised one with its own notion of which relations count (C105)."
  },
  {
   "property": "C122",
   "status": "proved",
   "theorems": [
    "PyFCM.C122_continue",
    "PyFCM.C122_steps",
    "PyFCM.C122_last",
    "PyFCM.C122_again",
    "PyFCM.C122_vector",
    "PyFCM.C122_vector_again",
    "PyFCM.C122_vector_records",
    "PyFCM.C122_vector_counterexample"
   ],
   "note": "C122_vector_counterexample: going on with the vectorised engine loses the start of the first run (part of the statement)."
  },
  {
   "property": "C123",
   "status": "proved",
   "theorems": [
    "PyFCM.C123_forgets",
    "PyFCM.C123_depth",
    "PyFCM.C123_settles",
    "PyFCM.C123_one",
    "PyFCM.C123_stops",
    "PyFCM.C123_final",
    "PyFCM.C123_init",
    "PyFCM.C123_init_final",
    "PyFCM.C123_zero",
    "PyFCM.C123_accepts",
    "PyFCM.C123_vector"
   ],
   "note": "Ex.C123_early and Ex.C123_memory show that the conditions on the stability difference and on memory are needed (part of the statement)."
  },
  {
   "property": "C124",
   "status": "proved",
   "theorems": [
    "PyFCM.C124_returns",
    "PyFCM.C124_same",
    "PyFCM.C124_twins",
    "PyFCM.C124_vector",
    "PyFCM.Ex.C124_lengths"
   ],
   "note": "Ex.C124_lengths: the vectorised engine stops at different steps (part of the statement). For the vectorised engine the final values are not compared."
  },
  {
   "property": "C125",
   "status": "proved",
   "theorems": [
    "PyFCM.C125_two",
    "PyFCM.C125_pair",
    "PyFCM.C125_rests",
    "PyFCM.C125_stops",
    "PyFCM.C125_swings",
    "PyFCM.C125_vector",
    "PyFCM.C125_vector_rests",
    "PyFCM.Ex.C125_ring",
    "PyFCM.Ex.C125_unanchored"
   ],
   "note": "Ex.C125_ring and Ex.C125_unanchored show that mutuality and the anchor are needed."
  },
  {
   "property": "C126",
   "status": "proved",
   "theorems": [
    "PyFCM.C126_two",
    "PyFCM.C126_one",
    "PyFCM.C126_steps",
    "PyFCM.C126_stops",
    "PyFCM.C126_vector_two",
    "PyFCM.C126_vector_one",
    "PyFCM.C126_vector_returns",
    "PyFCM.Ex.C126_unanchored",
    "PyFCM.Ex.C126_wheel"
   ],
   "note": "Real arithmetic. Ex.C126_unanchored and Ex.C126_wheel show that the anchor and mutuality are needed."
  },
  {
   "property": "C127",
   "status": "proved",
   "theorems": [
    "PyFCM.C127_extremes",
    "PyFCM.C127_between",
    "PyFCM.C127_way",
    "PyFCM.C127_ends",
    "PyFCM.C127_rest",
    "PyFCM.C127_sum",
    "PyFCM.C127_stops",
    "PyFCM.C127_vector_extremes",
    "PyFCM.C127_vector_way",
    "PyFCM.C127_vector_returns",
    "PyFCM.Ex.C127_swap"
   ],
   "note": "Real arithmetic. Ex.C127_swap shows that starting one way is needed for settling."
  },
  {
   "property": "C128",
   "status": "proved",
   "theorems": [
    "PyFCM.C128_supp",
    "PyFCM.C128_lift",
    "PyFCM.C128_rodr",
    "PyFCM.C128_odr",
    "PyFCM.C128_uneven",
    "PyFCM.C128_both",
    "PyFCM.C128_one",
    "PyFCM.C128_mutual",
    "PyFCM.C128_swings",
    "PyFCM.C128_settles",
    "PyFCM.C128_table",
    "PyFCM.Ex.C128_compare"
   ],
   "note": "Real arithmetic (the equality of both directions and C128_one for every ordered arithmetic in which the measures are even)."
  },
  {
   "property": "C129",
   "status": "proved",
   "theorems": [
    "PyFCM.C129_local",
    "PyFCM.C129_concept",
    "PyFCM.C129_drop",
    "PyFCM.C129_rename",
    "PyFCM.Ex.C129_compare"
   ],
   "note": "Exact arithmetic is not needed, only an order and a commutative product."
  },
  {
   "property": "C130",
   "status": "proved",
   "theorems": [
    "PyFCM.C130_recode",
    "PyFCM.C130_onto",
    "PyFCM.C130_factorize",
    "PyFCM.C130_many",
    "PyFCM.Ex.C130_compare"
   ],
   "note": "C130_many proves where factorising does change what is learned."
  },
  {
   "property": "C131",
   "status": "proved",
   "theorems": [
    "PyFCM.C131_weight",
    "PyFCM.C131_rule",
    "PyFCM.C131_none",
    "PyFCM.C131_total",
    "PyFCM.C131_bayes"
   ],
   "note": "Real arithmetic."
  },
  {
   "property": "C132",
   "status": "proved",
   "theorems": [
    "PyFCM.C132_fewer",
    "PyFCM.C132_threshold",
    "PyFCM.C132_targets",
    "PyFCM.C132_towards",
    "PyFCM.C132_support",
    "PyFCM.Ex.C132_compare",
    "PyFCM.Ex.C132_rare"
   ],
   "note": "C132_threshold and C132_support (real arithmetic) speak of categorical columns; the others of all columns."
  },
  {
   "property": "C133",
   "status": "proved",
   "theorems": [
    "PyFCM.C133_between",
    "PyFCM.C133_inside",
    "PyFCM.C133_zero",
    "PyFCM.Ex.C133_compare"
   ],
   "note": ""
  }
 ]
}